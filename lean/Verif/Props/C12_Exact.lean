import Verif.Lemmas.PrefixStuck
import Verif.Lemmas.PrefixSized
import Verif.Props.C10_C13_PrefixSound

/-
C12: exactly which changes an auditor computes the right root for.

`C12_before_after_partial` and `C12_sound_partial` show that the root afterwards is right for changes that are `Resolved`.
Here: for all other changes it is wrong.
-/

namespace Katie.Props
open Katie Katie.Prefix Katie.PrefixSpec

/-- The strings hashed when the root afterwards is computed (none if the proof is malformed). -/
def afterInputs (cs : Suite) (add remove : List Entry) (p : Proof) : List Bytes :=
  match evaluate cs (add ++ remove) p with
  | .ok n =>
    match addRemoveEntries cs (mutationFuel cs) (n.cacheHashes cs) (sortBy Entry.vrf add)
        (sortBy id (remove.map Entry.vrf)) 0 with
    | .ok n' => n'.inputs cs
    | .error _ => []
  | .error _ => []

theorem listed_of_unresolved {S : List Pair} {b : Batch} {p : List Bool} (h2 : 2 ≤ (under p S).length)
    (h1 : (under p (b.apply S)).length ≤ 1) : below id b.remove p ≠ [] := by
  intro hnil
  have hsub : (under p S).Sublist (under p (b.apply S)) := by
    unfold under Batch.apply
    rw [List.filter_append, List.filter_filter]
    have heq : S.filter (fun e => decide (p <+: bits e.1)) =
        S.filter (fun e => decide (p <+: bits e.1) && decide (e.1 ∉ b.remove)) := ?_
    · rw [heq]
      exact List.sublist_append_left _ _
    apply List.filter_congr
    intro e _
    by_cases hp : p <+: bits e.1
    · have : e.1 ∉ b.remove := by
        intro hr
        have : e.1 ∈ below id b.remove p := mem_below.mpr ⟨hr, hp⟩
        rw [hnil] at this
        cases this
      simp [hp, this]
    · simp [hp]
  have := hsub.length_le
  omega

/-- Whatever the proof, if it evaluates to the root of `S` before a change that is not `Resolved`, then it does not evaluate
to the root of the changed map afterwards, unless hash inputs collide or have an all-zero digest. -/
theorem C12_unresolved_wrong {cs : Suite} (hcs : cs.Good) (S : List Pair) (hS : IsMap cs.hashSize S)
    (b : Batch) (removed : List Bytes) (hlen : removed.length = b.remove.length) (p : Proof)
    (hp : WireProof cs.hashSize p) (after : Bytes)
    (hcom : ∀ e ∈ b.add, e.2.length = cs.hashSize)
    (h : evaluateBeforeAfter cs (entries b.add) (entries (b.remove.zip removed)) p =
      .ok (rootHash cs.H cs.hashSize S, after))
    (hbig : ¬ b.Resolved S) :
    after ≠ rootHash cs.H cs.hashSize (b.apply S) ∨
    Broken cs (verifierInputs cs (entries b.add ++ entries (b.remove.zip removed)) p)
      (rootInputs cs.H cs.hashSize S) ∨
    Broken cs (afterInputs cs (entries b.add) (entries (b.remove.zip removed)) p)
      (rootInputs cs.H cs.hashSize (b.apply S)) := by
  have h0 := h
  unfold evaluateBeforeAfter at h
  obtain ⟨n, hev, h⟩ := G.bind_eq_ok.mp h
  obtain ⟨n', hadd, h⟩ := G.bind_eq_ok.mp h
  obtain ⟨hbefore, hafter⟩ := Prod.mk.inj (Except.ok.inj h)
  have hfst : (b.remove.zip removed).map Prod.fst = b.remove := by rw [List.map_fst_zip]; omega
  have hvrfs : (entries b.add ++ entries (b.remove.zip removed)).map Entry.vrf = Batch.vrfs b := by
    rw [List.map_append, entries_vrf, entries_vrf, hfst]; rfl
  obtain ⟨n1, n2, n3, n4, n5⟩ := evaluate_spec hp hev
  have hcov := evaluate_cov hev
  have hseen := evaluate_seen hev
  rw [hvrfs] at hcov n4 hseen
  have hin : verifierInputs cs (entries b.add ++ entries (b.remove.zip removed)) p = n.inputs cs := by
    unfold verifierInputs; rw [hev]
  have hin' : afterInputs cs (entries b.add) (entries (b.remove.zip removed)) p = n'.inputs cs := by
    unfold afterInputs; rw [hev]; simp only; rw [hadd]
  have hterm : ∀ v ∈ Batch.vrfs b, ∃ t, n.term 0 v = some t := by
    intro v hv
    rw [← hvrfs] at hv
    obtain ⟨e, he, rfl⟩ := List.mem_map.mp hv
    obtain ⟨i, hi⟩ := List.mem_iff_getElem?.mp he
    have hi2 : i < p.results.length := by
      rw [← n2]; by_contra hc; rw [List.getElem?_eq_none (by omega)] at hi; cases hi
    obtain ⟨t, t1, _⟩ := n5 e p.results[i] (List.mem_iff_getElem?.mpr
      ⟨i, List.getElem?_zip_eq_some.mpr ⟨hi, List.getElem?_eq_getElem hi2⟩⟩)
    exact ⟨t, t1⟩
  rcases rep_of_hash hcs (V := Batch.vrfs b) n [] S ((wf_root_iff _ _).mpr hS) (by simp) n1 hcov
    (fun v hv _ => hterm v hv) (by rw [hbefore, trieHash_root]) with ⟨T, hT, hrep⟩ | hbk
  swap
  · right; left; rw [hin]; exact hbk
  by_cases hne : after = rootHash cs.H cs.hashSize (b.apply S)
  swap
  · exact Or.inl hne
  have haddLen : ∀ e ∈ b.add, e.1.length = cs.hashSize ∧ e.2.length = cs.hashSize := by
    intro e he
    exact ⟨n3 ⟨e.1, e.2⟩ (List.mem_append_left _ (mem_entries.mpr he)), hcom e he⟩
  have hremLen : ∀ v ∈ b.remove, v.length = cs.hashSize := by
    intro v hv
    rw [← hfst] at hv
    obtain ⟨e, he, rfl⟩ := List.mem_map.mp hv
    exact n3 ⟨e.1, e.2⟩ (List.mem_append_right _ (mem_entries.mpr he))
  have hR : (entries (b.remove.zip removed)).map Entry.vrf = b.remove := by rw [entries_vrf, hfst]
  rw [hR] at hadd
  have hAl : ∀ a ∈ sortBy Entry.vrf (entries b.add), a.vrf.length = cs.hashSize := fun a ha =>
    (haddLen _ (mem_entries.mp ((sortBy_perm _).mem_iff.mp ha))).1
  have hRl : ∀ r ∈ sortBy id b.remove, r.length = cs.hashSize := fun r hr => hremLen _ ((sortBy_perm _).mem_iff.mp hr)
  -- the added VRF outputs are absent
  have hfresh : ∀ e ∈ b.add, e.1 ∉ S.map Prod.fst := by
    intro e he hmem
    obtain ⟨x, hx, hxe⟩ := List.mem_map.mp hmem
    obtain ⟨t, ht⟩ := hterm e.1 (List.mem_append_left _ (List.mem_map.mpr ⟨e, he, rfl⟩))
    have ht' := Rep.term_of_mem (v := e.1) (c := x.2) n hrep (by rw [← hxe]; exact hT.mem_iff.mpr hx) ht
    subst ht'
    refine add_present_fails (cs := cs) (v := e.1) (c := x.2) (haddLen e he).1 (mutationFuel cs) (n.cacheHashes cs) []
      (sortBy Entry.vrf (entries b.add)) (sortBy id b.remove) n' (sortBy_sorted _) hAl (sortBy_sorted _) hRl ?_ ?_ (on_nil _)
      (by rw [cacheHashes_term]; exact ht) (by rw [below_root, below_root]; exact hadd)
    · exact ⟨⟨e.1, e.2⟩, (sortBy_perm _).mem_iff.mpr (mem_entries.mpr he), rfl⟩
    · intro hr
      exact (List.disjoint_of_nodup_append n4) (List.mem_map.mpr ⟨e, he, rfl⟩) ((sortBy_perm _).mem_iff.mp hr)
  have hmap' : IsMap cs.hashSize (b.apply S) := by
    refine ⟨?_, ?_⟩
    · intro e he
      rcases List.mem_append.mp he with h | h
      · exact hS.len e (List.mem_filter.mp h).1
      · exact haddLen e h
    · unfold Batch.apply
      rw [List.map_append]
      refine List.Nodup.append (hS.distinct.sublist (List.Sublist.map _ List.filter_sublist)) (List.nodup_append.mp n4).1 ?_
      intro v hv hv'
      obtain ⟨e, he, rfl⟩ := List.mem_map.mp hv
      obtain ⟨f, hf, hfe⟩ := List.mem_map.mp hv'
      exact hfresh f hf (by rw [hfe]; exact List.mem_map.mpr ⟨e, (List.mem_filter.mp he).1, rfl⟩)
  right; right
  rw [hin']
  -- the place where the change is not resolved
  unfold Batch.Resolved at hbig
  push Not at hbig
  obtain ⟨q, h2, h1, c, hc⟩ := hbig
  have hq : q.length < 8 * cs.hashSize := by
    have hwf : Wf cs.hashSize q (under q S) :=
      ⟨fun e he => of_decide_eq_true (List.mem_filter.mp he).2, fun e he => hS.len e (List.mem_filter.mp he).1,
        hS.distinct.sublist (List.Sublist.map _ List.filter_sublist)⟩
    exact hwf.lt h2
  have hlist := listed_of_unresolved h2 h1
  have hV : below id (Batch.vrfs b) q ≠ [] := by
    obtain ⟨v, hv⟩ := List.exists_mem_of_ne_nil _ hlist
    obtain ⟨g1, g2⟩ := mem_below.mp hv
    exact List.ne_nil_of_mem (mem_below.mpr ⟨List.mem_append_right _ g1, g2⟩)
  have hVc : below id (Batch.vrfs b) (q ++ [c]) = [] := by
    rw [List.eq_nil_iff_forall_not_mem]
    intro v hv
    obtain ⟨g1, g2⟩ := mem_below.mp hv
    exact hc v g1 g2
  have hst : Stuck c q n := stuck_of_rep q [] n T hrep hseen hV
    (by rw [List.nil_append, ((below_perm hT q).length_eq)]; exact h2) hVc
  have hopen : StuckOpen c q n' := by
    refine addRemove_stuck (A := sortBy Entry.vrf (entries b.add)) (R := sortBy id b.remove) (sortBy_sorted _) hAl
      (sortBy_sorted _) hRl (mutationFuel cs) q [] (n.cacheHashes cs) n' (Or.inr ?_) (by simpa using hq) ?_ ?_
      (stuck_cacheHashes n q hst) (by rw [below_root, below_root]; exact hadd)
    · obtain ⟨v, hv⟩ := List.exists_mem_of_ne_nil _ hlist
      obtain ⟨g1, g2⟩ := mem_below.mp hv
      exact List.ne_nil_of_mem (mem_below.mpr ⟨(sortBy_perm _).mem_iff.mpr g1, g2⟩)
    · rw [List.eq_nil_iff_forall_not_mem]
      intro a ha
      obtain ⟨g1, g2⟩ := mem_below.mp ha
      have g3 := mem_entries.mp ((sortBy_perm _).mem_iff.mp g1)
      exact hc a.vrf (List.mem_append_left _ (List.mem_map.mpr ⟨_, g3, rfl⟩)) g2
    · rw [List.eq_nil_iff_forall_not_mem]
      intro v hv
      obtain ⟨g1, g2⟩ := mem_below.mp hv
      exact hc v (List.mem_append_right _ ((sortBy_perm _).mem_iff.mp g1)) g2
  have hsz : HashLen cs.hashSize n' :=
    addRemove_hashLen hcs _ _ _ _ _ _ (hashLen_cacheHashes hcs n (hashLen_of_sized n n1)) hadd
  exact stuck_hash hcs q [] n' (b.apply S) hopen hsz ((wf_root_iff _ _).mpr hmap') (by simpa using hq) h1
    (by rw [hafter, hne, trieHash_root])

/-- **C12**, exactly: whatever the proof, if it evaluates to the root of `S` before the change, then it evaluates to the root
of the changed map afterwards if and only if the change is `Resolved`, unless hash inputs collide or have an all-zero
digest. -/
theorem C12_exact {cs : Suite} (hcs : cs.Good) (S : List Pair) (hS : IsMap cs.hashSize S)
    (b : Batch) (removed : List Bytes) (hlen : removed.length = b.remove.length) (p : Proof)
    (hp : WireProof cs.hashSize p) (after : Bytes)
    (hcom : ∀ e ∈ b.add, e.2.length = cs.hashSize)
    (h : evaluateBeforeAfter cs (entries b.add) (entries (b.remove.zip removed)) p =
      .ok (rootHash cs.H cs.hashSize S, after)) :
    (after = rootHash cs.H cs.hashSize (b.apply S) ↔ b.Resolved S) ∨
    Broken cs (verifierInputs cs (entries b.add ++ entries (b.remove.zip removed)) p)
      (rootInputs cs.H cs.hashSize S) ∨
    Broken cs (afterInputs cs (entries b.add) (entries (b.remove.zip removed)) p)
      (rootInputs cs.H cs.hashSize (b.apply S)) := by
  by_cases hb : b.Resolved S
  · rcases C12_sound_partial hcs S hS b removed hlen p hp after hcom h hb with h | h
    · exact Or.inl ⟨fun _ => hb, fun _ => h.1⟩
    · exact Or.inr (Or.inl h)
  · rcases C12_unresolved_wrong hcs S hS b removed hlen p hp after hcom h hb with h | h
    · exact Or.inl ⟨fun e => absurd e h, fun e => absurd e hb⟩
    · exact Or.inr h

/-- what `Mutate` returns has the sizes of the wire format -/
theorem mutate_wireProof {cs : Suite} (hcs : cs.Good) {st : Store} {ver : Nat} {add : List Entry} {remove : List Bytes}
    {res : MutateResult} (hv : ∀ v ∈ add.map Entry.vrf ++ remove, v.length = cs.hashSize)
    (hne : ver = 0 ∨ add ≠ [] ∨ remove ≠ [])
    (h : mutate cs st ver add remove = .ok res) : WireProof cs.hashSize res.proof := by
  unfold mutate at h
  obtain ⟨_, -, h⟩ := G.bind_eq_ok.1 h
  obtain ⟨_, -, h⟩ := G.bind_eq_ok.1 h
  obtain ⟨⟨root, proof, removed⟩, hroot, h⟩ := G.bind_eq_ok.1 h
  obtain ⟨_, -, h⟩ := G.bind_eq_ok.1 h
  obtain ⟨_, -, h⟩ := G.bind_eq_ok.1 h
  obtain ⟨_, -, h⟩ := G.bind_eq_ok.1 h
  cases h
  have wire : ∀ (n : Node) (com : List (Option Bytes)), Sized cs n →
      runProofBuilder cs n (add.map Entry.vrf ++ remove) = .ok (proof, com) → WireProof cs.hashSize proof := by
    intro n com hn hb
    obtain ⟨h1, h2, -, -⟩ := runProofBuilder_sized hcs hn hv hb
    exact ⟨h2, fun v c d hr => (h1 _ hr _ rfl).2 v c d rfl⟩
  unfold getMutationRoot at hroot
  simp only at hroot
  split at hroot
  · split at hroot
    · cases hroot
    · obtain ⟨⟨pr, com⟩, hb, hroot⟩ := G.bind_eq_ok.1 hroot
      cases hroot
      exact wire _ _ (by trivial) hb
  · rename_i hver
    obtain ⟨n, hn, hroot⟩ := G.bind_eq_ok.1 hroot
    obtain ⟨⟨pr, com⟩, hb, hroot⟩ := G.bind_eq_ok.1 hroot
    obtain ⟨_, -, hroot⟩ := G.bind_eq_ok.1 hroot
    obtain ⟨_, -, hroot⟩ := G.bind_eq_ok.1 hroot
    cases hroot
    refine wire _ _ (expand_sized st _ _ _ _ _ (.inr ?_) (fun h => by cases h) hn) hb
    intro h0
    obtain ⟨g1, g2⟩ := List.append_eq_nil_iff.mp h0
    rcases hne with h | h | h
    · exact hver h
    · exact h (List.map_eq_nil_iff.mp g1)
    · exact h g2

/-- **C12**, exactly, for honest proofs: the proof returned by `Mutate` evaluates to the root before and the root after if
and only if the change is `Resolved`, unless hash inputs collide or have an all-zero digest. -/
theorem C12_honest_exact {cs : Suite} (hcs : cs.Good) (hsm : Small cs) {bs : List Batch} {st : Store}
    (h : History cs bs st) (b : Batch) (res : MutateResult)
    (hm : mutate cs st bs.length (entries b.add) b.remove = .ok res)
    (hne : bs = [] ∨ b.add ≠ [] ∨ b.remove ≠ []) (hver : bs.length + 1 < 2 ^ 64)
    (hsize : (contents (bs ++ [b])).length < 2 ^ 54)
    (hdist : (b.add.map Prod.fst ++ b.remove).Nodup) :
    (evaluateBeforeAfter cs (entries b.add) (entries (b.remove.zip res.removed)) res.proof =
      .ok (rootHash cs.H cs.hashSize (contents bs), res.root) ↔ b.Resolved (contents bs)) ∨
    Broken cs (verifierInputs cs (entries b.add ++ entries (b.remove.zip res.removed)) res.proof)
      (rootInputs cs.H cs.hashSize (contents bs)) ∨
    Broken cs (afterInputs cs (entries b.add) (entries (b.remove.zip res.removed)) res.proof)
      (rootInputs cs.H cs.hashSize (contents (bs ++ [b]))) := by
  by_cases hb : b.Resolved (contents bs)
  · exact Or.inl ⟨fun _ => hb, fun _ => C12_before_after_partial hcs hsm h b res hm hne hver hsize hdist hb⟩
  by_cases hev : evaluateBeforeAfter cs (entries b.add) (entries (b.remove.zip res.removed)) res.proof =
      .ok (rootHash cs.H cs.hashSize (contents bs), res.root)
  swap
  · exact Or.inl ⟨fun e => absurd e hev, fun e => absurd e hb⟩
  obtain ⟨hmap, X, hinv⟩ := history_inv hcs hsm h
  obtain ⟨hval, ho⟩ := mutate_ok hcs hsm hinv hmap hm hne hver hsize
  have hrem := ho.removed
  have hlenR : b.remove.length = res.removed.length := hrem.length_eq
  have hroot := ho.root
  rw [current_versions] at hroot
  have happ : contents (bs ++ [b]) = b.apply (contents bs) := by
    unfold contents
    rw [List.foldl_append]
    rfl
  rw [happ]
  rcases C12_unresolved_wrong hcs (contents bs) hmap b res.removed hlenR.symm res.proof
    (mutate_wireProof hcs (by
      rw [entries_vrf]
      exact vrfs_len (fun e he => (hval.addLen e he).1) hval.removeLen) (by
      rcases hne with h | h | h
      · exact Or.inl (by rw [h]; rfl)
      · refine Or.inr (Or.inl fun h' => h ?_)
        have := entries_vrf b.add
        rw [h'] at this
        exact List.map_eq_nil_iff.mp this.symm
      · exact Or.inr (Or.inr h)) hm) res.root (fun e he => (hval.addLen e he).2) hev hb with h1 | h1
  · exact absurd hroot h1
  · exact Or.inr h1

-- a change that is not resolved and is carried out: the hypotheses of the theorems above hold, and no strings collide
example : ∃ r1 r2, mutate toySuite [] 0 [⟨[0x80], [1]⟩, ⟨[0x01], [3]⟩] [] = .ok r1 ∧
    mutate toySuite r1.store 1 [] [[0x80]] = .ok r2 ∧
    ¬ (⟨[], [[0x80]]⟩ : Batch).Resolved [([0x80], [1]), ([0x01], [3])] ∧
    evaluateBeforeAfter toySuite [] [⟨[0x80], [1]⟩] r2.proof =
      .ok (rootHash toySuite.H 1 [([0x80], [1]), ([0x01], [3])], [139]) ∧
    rootHash toySuite.H 1 ((⟨[], [[0x80]]⟩ : Batch).apply [([0x80], [1]), ([0x01], [3])]) = [226] := by
  refine ⟨_, _, rfl, rfl, ?_⟩
  decide +kernel

end Katie.Props
