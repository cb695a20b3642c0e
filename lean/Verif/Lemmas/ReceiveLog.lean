import Verif.Lemmas.ServeSafe
import Verif.Lemmas.LogComplete

/-
The verifier of log proofs does not crash, whatever values and proofs it is given: it does the same steps as with the
values of an honest log of the same size, unless it stops earlier with an error.
-/

namespace Katie.Log
open Katie Katie.LogMath Katie.LogSpec Katie.Alg

/-- `r` does what `r'` does, or stops earlier with an error -/
def Follows {α β : Type} (R : α → β → Prop) (r : G α) (r' : G β) : Prop :=
  ∀ b', r' = .ok b' → (∃ m, r = goErr m) ∨ ∃ b, r = .ok b ∧ R b b'

section
variable {α β γ δ : Type} {R : α → β → Prop} {S : γ → δ → Prop}

theorem Follows.bind {r : G α} {r' : G β} {f : α → G γ} {f' : β → G δ} (h : Follows R r r')
    (hf : ∀ a a', R a a' → Follows S (f a) (f' a')) : Follows S (r >>= f) (r' >>= f') := by
  intro d hd
  obtain ⟨b, hb, hd⟩ := G.bind_eq_ok.1 hd
  rcases h b hb with ⟨m, rfl⟩ | ⟨a, rfl, hab⟩
  · exact .inl ⟨m, rfl⟩
  · exact hf a b hab d hd

theorem Follows.same {r : G α} (hR : ∀ a, R' a a) : Follows (R' : α → α → Prop) r r := fun b hb => .inr ⟨b, hb, hR b⟩

theorem Follows.pure {a : α} {b : β} (h : R a b) : Follows R (pure a) (Pure.pure b) := by
  intro b' hb
  cases hb
  exact .inr ⟨a, rfl, h⟩

theorem Follows.calm {r : G α} {r' : G β} (h : Follows R r r') {b : β} (hb : r' = .ok b) : Calm r := by
  rcases h b hb with ⟨m, rfl⟩ | ⟨a, rfl, _⟩
  · exact .err
  · exact .ok

end

/-- the same nodes are known, all with hashes of the right length -/
structure Like (cs : Suite) (M M' : NMap) : Prop where
  keys : M.map Prod.fst = M'.map Prod.fst
  sized : ∀ y d, M.lookup y = some d → d.value.length = cs.hashSize

section
variable {cs : Suite}

theorem lookup_none_iff {M M' : NMap} (h : M.map Prod.fst = M'.map Prod.fst) (x : Nat) : M.lookup x = none ↔ M'.lookup x = none := by
  have := lookup_ne_none (M := M) (y := x)
  have h' := lookup_ne_none (M := M') (y := x)
  rw [h] at this
  tauto

theorem addToMap_follows {M M' : NMap} (h : Like cs M M') (x : Nat) (v v' : Bytes) :
    Follows (Like cs) (addToMap cs M x v) (addToMap cs M' x v') := by
  intro b hb
  unfold addToMap at hb ⊢
  split at hb
  · cases hb
  split
  · exact .inl ⟨_, rfl⟩
  rename_i hv
  cases hx : M'.lookup x with
  | none =>
    rw [hx] at hb
    rw [(lookup_none_iff h.keys x).2 hx]
    cases hb
    refine .inr ⟨_, rfl, by simp [h.keys], ?_⟩
    intro y d hd
    rw [lookup_cons] at hd
    split at hd
    · cases hd
      simpa using hv
    · exact h.sized y d hd
  | some d' =>
    rw [hx] at hb
    obtain ⟨d, hd⟩ := Option.ne_none_iff_exists'.1 (fun hn => by rw [(lookup_none_iff h.keys x).1 hn] at hx; cases hx)
    rw [hd]
    simp only at hb ⊢
    split at hb
    · cases hb
    cases hb
    split
    · exact .inl ⟨_, rfl⟩
    · exact .inr ⟨M, rfl, h⟩

theorem addAll_follows : ∀ {l l' : List (Nat × Bytes)} {M M' : NMap}, l.map Prod.fst = l'.map Prod.fst → Like cs M M' →
    Follows (Like cs) (addAll cs M l) (addAll cs M' l')
  | [], [], _, _, _, h => .pure h
  | [], _ :: _, _, _, hl, _ => by simp at hl
  | _ :: _, [], _, _, hl, _ => by simp at hl
  | (x, v) :: l, (x', v') :: l', M, M', hl, h => by
    simp only [List.map_cons, List.cons.injEq] at hl
    obtain ⟨rfl, hl⟩ := hl
    unfold addAll
    exact (addToMap_follows h x v v').bind (fun _ _ h' => addAll_follows hl h')

theorem nodeAt_follows {M M' : NMap} (h : Like cs M M') (x : Nat) :
    Follows (fun d _ => d.value.length = cs.hashSize) (nodeAt M x) (nodeAt M' x) := by
  intro b hb
  unfold nodeAt at hb ⊢
  cases hx : M.lookup x with
  | none =>
    rw [(lookup_none_iff h.keys x).1 hx] at hb
    cases hb
  | some d => exact .inr ⟨d, rfl, h.sized x d hx⟩

theorem treeHash_sized (hcs : cs.Good) {a b : NodeData} (ha : a.value.length = cs.hashSize) (hb : b.value.length = cs.hashSize) :
    ∃ d, treeHash cs a b = .ok d ∧ d.value.length = cs.hashSize := by
  have h0 := hcs.1
  have ha' : a.value.length ≠ 0 := by omega
  have hb' : b.value.length ≠ 0 := by omega
  simp only [treeHash, NodeData.marshal, if_neg ha', if_neg hb']
  exact ⟨_, rfl, hcs.2 _⟩

theorem evaluateAux_follows (hcs : cs.Good) : ∀ (fuel x n : Nat) (M M' : NMap) (sorted : List Nat), Like cs M M' →
    Follows (Like cs) (evaluateAux cs fuel x n M sorted) (evaluateAux cs fuel x n M' sorted)
  | 0, _, _, _, _, _, _ => fun _ hb => by cases hb
  | fuel + 1, x, n, M, M', sorted, h => by
    unfold evaluateAux
    split
    · exact .pure h
    · refine Follows.bind (R := Eq) (.same fun _ => rfl) ?_
      rintro l _ rfl
      refine Follows.bind (R := Eq) (.same fun _ => rfl) ?_
      rintro r _ rfl
      refine (evaluateAux_follows hcs fuel l n M M' _ h).bind (fun M1 M1' h1 => ?_)
      refine (evaluateAux_follows hcs fuel r n M1 M1' _ h1).bind (fun M2 M2' h2 => ?_)
      split
      · refine (nodeAt_follows h2 l).bind (fun a a' ha => (nodeAt_follows h2 r).bind (fun b b' hb => ?_))
        obtain ⟨d, hd, -⟩ := treeHash_sized hcs ha hb
        rw [hd, G.ok_bind]
        intro B hB
        obtain ⟨d', hd', hB⟩ := G.bind_eq_ok.1 hB
        exact addToMap_follows h2 x _ _ B hB
      · exact .pure h2

theorem mapM_follows {M M' : NMap} (h : Like cs M M') : ∀ (xs : List Nat),
    Follows (fun l _ => ∀ v ∈ l, v.length = cs.hashSize) (xs.mapM (fun x => do let d ← nodeAt M x; pure d.value) : G (List Bytes))
      (xs.mapM (fun x => do let d ← nodeAt M' x; pure d.value))
  | [] => by simpa using Follows.pure (by simp)
  | x :: xs => by
    rw [List.mapM_cons, List.mapM_cons]
    refine Follows.bind (R := fun (v : Bytes) (_ : Bytes) => v.length = cs.hashSize)
      ((nodeAt_follows h x).bind (fun a a' ha => .pure ha)) (fun v v' hv => ?_)
    refine (mapM_follows h xs).bind (fun l l' hl => .pure ?_)
    exact List.forall_mem_cons.2 ⟨hv, hl⟩

theorem fullSubtrees_root {n : Nat} (h0 : 0 < n) :
    LogMath.fullSubtrees (LogMath.root n) n = .ok ((fsList 0 n).map fun p => nd p.1 p.2) := by
  rw [root_eq h0, fullSubtrees_eq (Sub.root h0)]

/-- what `Retain` accepts -/
theorem retain_ok {prev : Nat} {fs : List Bytes} {v : Verifier} (h : retain cs prev fs = .ok v) :
    0 < prev ∧ v.prev = some prev ∧ v.subtrees = (fsList 0 prev).map (fun p => nd p.1 p.2) ∧
      v.values.length = v.subtrees.length := by
  unfold retain at h
  split at h
  · cases h
  · rename_i hp
    have h0 : 0 < prev := by omega
    rw [fullSubtrees_root h0, G.ok_bind] at h
    split at h
    · cases h
    · rename_i hl
      split at h
      · cases h
      · cases h
        exact ⟨h0, rfl, rfl, by simpa using hl⟩

theorem retain_calm {prev : Nat} {fs : List Bytes} : Calm (retain cs prev fs) := by
  unfold retain
  refine .ite (fun _ => .err) (fun hp => ?_)
  rw [fullSubtrees_root (by omega), G.ok_bind]
  exact .ite (fun _ => .err) (fun _ => .ite (fun _ => .err) (fun _ => .ok))

/-- the verifier after `Retain`, or without it -/
def Primed (v : Verifier) : Prop :=
  (v.prev = none ∧ v.subtrees = [] ∧ v.values = []) ∨
  ∃ k, 0 < k ∧ v.prev = some k ∧ v.subtrees = (fsList 0 k).map (fun p => nd p.1 p.2) ∧ v.values.length = v.subtrees.length

/-- `Evaluate` does not crash and does not loop, for any input: what was retained must not be larger than the tree. -/
theorem evaluate_calm (hcs : cs.Good) {v : Verifier} (hv : Primed v) {entries : List Nat} {n : Nat} {nP : Option Nat}
    (hm : ∀ k, v.prev = some k → k ≤ n) {values proof : List Bytes} :
    Calm (evaluate cs v entries n nP values proof) ∧
    ∀ r, evaluate cs v entries n nP values proof = .ok r → (∀ x ∈ r.fullSubtrees, x.length = cs.hashSize) ∧ 0 < n := by
  by_cases c1 : n = 0 ∨ n > maxTreeSize
  · unfold evaluate
    rw [if_pos c1]
    exact ⟨.err, fun r hr => by cases hr⟩
  by_cases c2 : (nP.any fun k => k = 0 ∨ k > n ∨ k > maxTreeSize) = true
  · unfold evaluate
    rw [if_neg c1, if_pos c2]
    exact ⟨.err, fun r hr => by cases hr⟩
  by_cases c3 : entries.length ≠ values.length
  · unfold evaluate
    rw [if_neg c1, if_neg c2, if_pos c3]
    exact ⟨.err, fun r hr => by cases hr⟩
  by_cases c4 : entries.any (fun x => decide (x ≥ n)) = true
  · unfold evaluate
    rw [if_neg c1, if_neg c2, if_neg c3, if_pos c4]
    exact ⟨.err, fun r hr => by cases hr⟩
  -- the honest log to compare with
  have hn : 0 < n := by omega
  let L : List Bytes := List.replicate n (List.replicate cs.hashSize 0)
  have hLn : L.length = n := by simp [L]
  have hL : ∀ w ∈ L, w.length = cs.hashSize := by
    intro w hw
    rw [List.eq_of_mem_replicate hw]
    simp
  have hE : ∀ x ∈ entries, x < L.length := by
    intro x hx
    rw [hLn]
    by_contra hge
    exact c4 (List.any_eq_true.2 ⟨x, hx, by simpa using hge⟩)
  have hnP : ∀ k, nP = some k → 0 < k ∧ k ≤ L.length := by
    rintro k rfl
    simp only [Option.any_some, decide_eq_true_eq] at c2
    rw [hLn]
    omega
  have hprev : ∀ k, v.prev = some k → 0 < k ∧ k ≤ L.length := by
    intro k hk
    rw [hLn]
    refine ⟨?_, hm k hk⟩
    rcases hv with ⟨h, _⟩ | ⟨k', h0, h, _⟩ <;> rw [hk] at h <;> cases h
    exact h0
  obtain ⟨cop, res, hcop, -, hev, -, -⟩ := evaluate_complete hcs hL (by rw [hLn]; exact hn) (by rw [hLn]; omega) hE hnP hprev
  have hsub : (honestVerifier cs.H L v.prev).subtrees = v.subtrees := by
    rcases hv with ⟨h1, h2, _⟩ | ⟨k, _, h1, h2, _⟩ <;> rw [h1, h2] <;> rfl
  have hvals : v.values.length = v.subtrees.length := by
    rcases hv with ⟨_, h2, h3⟩ | ⟨k, _, _, _, h⟩
    · rw [h2, h3]
      rfl
    · exact h
  have hhv : (honestVerifier cs.H L v.prev).prev = v.prev := by cases v.prev <;> rfl
  have hhvals : (honestVerifier cs.H L v.prev).values.length = v.subtrees.length := by
    rw [← hsub]
    cases hk : v.prev with
    | none => rfl
    | some k =>
      have := hprev k hk
      simp [honestVerifier, heads_take _ _ this.1 this.2]
  rw [hLn] at hev hcop
  have key : Follows (fun (r : EvalResult) (_ : EvalResult) => ∀ x ∈ r.fullSubtrees, x.length = cs.hashSize)
      (evaluate cs v entries n nP values proof)
      (evaluate cs (honestVerifier cs.H L v.prev) entries n nP (entries.map fun x => L.getD x []) (cop.map (trueAt cs.H L))) := by
    unfold evaluate
    rw [if_neg c1, if_neg c2, if_neg c3, if_neg c4, if_neg c1, if_neg c2, if_neg (by simp), if_neg c4, hhv, hcop, G.ok_bind,
      G.ok_bind]
    rw [if_neg (c := (cop.map (trueAt cs.H L)).length ≠ cop.length) (by simp)]
    by_cases c5 : proof.length ≠ cop.length
    · rw [if_pos c5]
      exact fun _ _ => .inl ⟨_, rfl⟩
    rw [if_neg c5]
    push Not at c3 c5
    have like0 : Like cs ([] : NMap) [] := ⟨rfl, fun y d h => by simp at h⟩
    refine (addAll_follows (by rw [List.map_fst_zip (by simp [c3]), List.map_fst_zip (by simp)]) like0).bind (fun M M' h => ?_)
    refine (addAll_follows (by
      rw [List.map_fst_zip (by omega), List.map_fst_zip (by rw [hsub]; omega), hsub]) h).bind (fun M M' h => ?_)
    refine (addAll_follows (by rw [List.map_fst_zip (by omega), List.map_fst_zip (by simp)]) h).bind (fun M M' h => ?_)
    simp only [h.keys]
    refine (evaluateAux_follows hcs _ _ _ _ _ _ h).bind (fun M M' h => ?_)
    refine Follows.bind (R := Eq) (.same fun _ => rfl) ?_
    rintro fs _ rfl
    refine (mapM_follows h fs).bind (fun l l' hl => ?_)
    cases nP with
    | none => exact .pure hl
    | some k =>
      simp only
      refine Follows.bind (R := Eq) (.same fun _ => rfl) ?_
      rintro fs _ rfl
      refine (mapM_follows h fs).bind ?_
      intro a a' _ b hb
      cases hb
      exact .inr ⟨_, rfl, hl⟩
  refine ⟨key.calm hev, fun r hr => ⟨?_, hn⟩⟩
  rcases key res hev with ⟨m, hm⟩ | ⟨a, ha, hl⟩
  · rw [hm] at hr
    cases hr
  · rw [ha] at hr
    cases hr
    exact hl

theorem rollUp_calm (hcs : cs.Good) : ∀ (l : List NodeData), l ≠ [] → (∀ d ∈ l, d.value.length = cs.hashSize) →
    ∃ d, rollUp cs l = .ok d ∧ d.value.length = cs.hashSize
  | [], h, _ => absurd rfl h
  | [a], _, h => ⟨a, rfl, h a (by simp)⟩
  | a :: b :: l, _, h => by
    obtain ⟨d, hd, hl⟩ := rollUp_calm hcs (b :: l) (by simp) (fun d hd => h d (by simp [List.mem_cons.1 hd]))
    unfold rollUp
    rw [hd, G.ok_bind]
    exact treeHash_sized hcs (h a (by simp)) hl

/-- `Root` does not crash, for any input. -/
theorem root_calm (hcs : cs.Good) {n : Nat} {fs : List Bytes} : Calm (root cs n fs) := by
  unfold root
  refine .ite (fun _ => .err) (fun hn => ?_)
  have h0 : 0 < n := by omega
  rw [fullSubtrees_root h0, G.ok_bind]
  refine .ite (fun _ => .err) (fun hl => .ite (fun _ => .err) (fun ha => ?_))
  push Not at hl
  simp only [not_not, List.all_eq_true, beq_iff_eq] at ha
  have hne : (fsList 0 n) ≠ [] := by
    intro h
    have := root_heads hcs (L := List.replicate n (List.replicate cs.hashSize 0)) (by
      intro w hw; rw [List.eq_of_mem_replicate hw]; simp) (by simpa using h0) (by simp; omega)
    unfold root at this
    rw [if_neg (by simp; omega), fullSubtrees_root (by simpa using h0), G.ok_bind] at this
    simp only [List.length_replicate, h] at this
    split at this
    · cases this
    · split at this
      · cases this
      · simp [rollUp] at this
  obtain ⟨d, hd, -⟩ := rollUp_calm hcs (List.zipWith (fun x v => (⟨isLeaf x, v⟩ : NodeData)) ((fsList 0 n).map fun p => nd p.1 p.2) fs)
    (by
      intro h
      have := congrArg List.length h
      simp only [List.length_zipWith, List.length_map, List.length_nil] at this
      rw [List.length_map] at hl
      have := List.length_pos_iff.2 hne
      omega)
    (by
      intro d hd
      obtain ⟨i, hi, rfl⟩ := List.mem_iff_getElem.1 hd
      simp only [List.getElem_zipWith]
      exact ha _ (List.getElem_mem _))
  rw [hd]
  exact .ok

end
end Katie.Log
