import Verif.Lemmas.LogComplete
import Verif.Spec.Collision
import Mathlib.Data.List.Forall2

/-
Soundness of proof evaluation.
-/

namespace Katie.Log
open Katie Katie.LogMath Katie.LogSpec

variable {cs : Suite} {L : List Bytes}

/-- entries of the verifier's map have the right leaf flag and digest size -/
def WF (cs : Suite) (M : NMap) : Prop :=
  ∀ y v, M.lookup y = some v → v.leaf = isLeaf y ∧ v.value.length = cs.hashSize

theorem addToMap_ok {M M' : NMap} {x : Nat} {b : Bytes} (h : addToMap cs M x b = .ok M') (hM : WF cs M) :
    M'.lookup x = some ⟨isLeaf x, b⟩ ∧ (∀ z, z ≠ x → M'.lookup z = M.lookup z) ∧
    (∀ z w, M.lookup z = some w → M'.lookup z = some w) ∧ WF cs M' := by
  unfold addToMap at h
  split at h
  · cases h
  · rename_i hlen
    simp only [ne_eq, not_not] at hlen
    split at h
    · rename_i e he
      split at h
      · cases h
      · rename_i hv
        simp only [ne_eq, not_not] at hv
        cases h
        obtain ⟨h1, h2⟩ := hM _ _ he
        refine ⟨?_, fun _ _ => rfl, fun _ _ h => h, hM⟩
        rw [he, ← h1, ← hv]
    · rename_i he
      cases h
      refine ⟨by rw [lookup_cons, if_pos rfl], ?_, ?_, ?_⟩
      · intro z hz; rw [lookup_cons, if_neg hz]
      · intro z w hz
        rw [lookup_cons, if_neg]
        · exact hz
        · rintro rfl; rw [he] at hz; cases hz
      · intro z w hz
        rw [lookup_cons] at hz
        split at hz
        · rename_i h'; subst h'; cases hz; exact ⟨rfl, hlen⟩
        · exact hM z w hz

theorem addAll_ok : ∀ (kvs : List (Nat × Bytes)) (M M' : NMap), addAll cs M kvs = .ok M' → WF cs M →
    (∀ p ∈ kvs, M'.lookup p.1 = some ⟨isLeaf p.1, p.2⟩) ∧
    (∀ z w, M.lookup z = some w → M'.lookup z = some w) ∧ WF cs M' ∧
    (∀ z, M'.lookup z ≠ none → z ∈ kvs.map Prod.fst ∨ M.lookup z ≠ none) := by
  intro kvs
  induction kvs with
  | nil => intro M M' h hM; cases h; exact ⟨by simp, fun _ _ h => h, hM, fun _ h => Or.inr h⟩
  | cons p kvs ih =>
    intro M M' h hM
    obtain ⟨x, b⟩ := p
    unfold addAll at h
    obtain ⟨M1, e1, e2⟩ := G.bind_eq_ok.mp h
    obtain ⟨a1, a2, a3, a4⟩ := addToMap_ok e1 hM
    obtain ⟨b1, b2, b3, b4⟩ := ih M1 M' e2 a4
    refine ⟨?_, fun z w hz => b2 z w (a3 z w hz), b3, ?_⟩
    swap
    · intro z hz
      rcases b4 z hz with h | h
      · exact Or.inl (by simp only [List.map_cons, List.mem_cons]; exact Or.inr h)
      · by_cases hzx : z = x
        · exact Or.inl (by simp [hzx])
        · rw [a2 z hzx] at h; exact Or.inr h
    intro q hq
    rcases List.mem_cons.mp hq with rfl | hq
    · exact b2 _ _ a1
    · exact b1 q hq

/-- the verifier's final map is consistent on the subtree `(lo, s)` -/
inductive Ev (H : Bytes → Bytes) (M : NMap) : Nat → Nat → Prop
  | term {lo s : Nat} : (∀ y, InR lo s y → M.lookup y ≠ none → y = nd lo s) → Ev H M lo s
  | node {lo s : Nat} : 2 ≤ s → Ev H M lo (half s) → Ev H M (lo + half s) (s - half s) →
      (s = 2 ^ ht s → ∃ a b, M.lookup (nd lo (half s)) = some a ∧ M.lookup (nd (lo + half s) (s - half s)) = some b ∧
        M.lookup (nd lo s) = some ⟨false, H (encND a ++ encND b)⟩) → Ev H M lo s

theorem Ev.congr {H : Bytes → Bytes} {M M' : NMap} {lo s : Nat} (h : Ev H M lo s) :
    0 < s → (∀ y, InR lo s y → M.lookup y = M'.lookup y) → Ev H M' lo s := by
  induction h with
  | term h => intro _ hc; exact .term (fun y hy hn => h y hy (by rw [hc y hy]; exact hn))
  | @node lo s hs _ _ hf ih1 ih2 =>
    intro _ hc
    have hl := half_lt hs
    have hp := half_pos s
    refine .node hs (ih1 hp ?_) (ih2 (by omega) ?_) ?_
    · intro y hy; exact hc y ((inR_left hs).mp hy).1
    · intro y hy; exact hc y ((inR_right hs).mp hy).1
    · intro hfull
      obtain ⟨a, b, h1, h2, h3⟩ := hf hfull
      refine ⟨a, b, ?_, ?_, ?_⟩
      · rw [← hc _ ((inR_left hs).mp (nd_inR hp)).1]; exact h1
      · rw [← hc _ ((inR_right hs).mp (nd_inR (by omega))).1]; exact h2
      · rw [← hc _ (nd_inR (by omega))]; exact h3

theorem nodeAt_ok {M : NMap} {x : Nat} {d : NodeData} (h : nodeAt M x = .ok d) : M.lookup x = some d := by
  unfold nodeAt at h
  split at h
  · rename_i hh; cases h; exact hh
  · cases h

theorem treeHash_ok {a b d : NodeData} (h : treeHash cs a b = .ok d) : d = ⟨false, cs.H (encND a ++ encND b)⟩ := by
  have key : ∀ (x : NodeData) (b : Bytes), x.marshal = .ok b → b = encND x := by
    intro x b h
    unfold NodeData.marshal at h
    split at h
    · cases h
    · cases h; rfl
  unfold treeHash at h
  obtain ⟨u, e1, h⟩ := G.bind_eq_ok.mp h
  obtain ⟨v, e2, h⟩ := G.bind_eq_ok.mp h
  cases h
  rw [key _ _ e1, key _ _ e2]

theorem evaluateAux_sound {n : Nat} : ∀ (fuel lo s : Nat) (M M' : NMap) (seg : List Nat),
    evaluateAux cs fuel (nd lo s) n M seg = .ok M' → Sub n lo s → WF cs M → seg.Pairwise (· < ·) →
    (∀ y, y ∈ seg ↔ M.lookup y ≠ none ∧ InR lo s y) →
    (∀ z, ¬ InR lo s z → M'.lookup z = M.lookup z) ∧
    (∀ z w, M.lookup z = some w → M'.lookup z = some w) ∧ WF cs M' ∧ Ev cs.H M' lo s := by
  intro fuel
  induction fuel with
  | zero => intro lo s M M' seg h; cases h
  | succ f ih =>
    intro lo s M M' seg h hsub hM hsort hseg
    unfold evaluateAux at h
    split at h
    · rename_i hx
      cases h
      refine ⟨fun _ _ => rfl, fun _ _ h => h, hM, .term ?_⟩
      intro y hy hn
      have := (hseg y).mpr ⟨hn, hy⟩
      rw [hx, List.mem_singleton] at this
      exact this
    · simp only [take_bs hsort, drop_bs hsort] at h
      by_cases h1 : s ≤ 1
      · have hp := hsub.pos
        have : s = 1 := by omega
        subst this
        have e : nd lo 1 = idx 0 lo := by simp [nd, idx]
        have : left (nd lo 1) = goPanic "leaf node has no children" := by
          unfold left; rw [e, level_idx]; rfl
        rw [this] at h
        cases h
      · have hs : 2 ≤ s := by omega
        have hl := half_lt hs
        have hp := half_pos s
        rw [left_nd hsub hs, G.ok_bind, right_nd hsub hs, G.ok_bind] at h
        obtain ⟨M1, e1, h⟩ := G.bind_eq_ok.mp h
        obtain ⟨M2, e2, h⟩ := G.bind_eq_ok.mp h
        obtain ⟨a1, a2, a3, a4⟩ := ih _ _ _ _ _ e1 (hsub.left hs) hM (hsort.filter _) (by
          intro y
          simp only [List.mem_filter, decide_eq_true_eq, hseg, inR_left hs]; tauto)
        obtain ⟨b1, b2, b3, b4⟩ := ih _ _ _ _ _ e2 (hsub.right hs) a3 (hsort.filter _) (by
          intro y
          simp only [List.mem_filter, decide_eq_true_eq, hseg]
          constructor
          · rintro ⟨⟨u1, u2⟩, u3⟩
            have hr := (inR_right hs).mpr ⟨u2, u3⟩
            exact ⟨by rw [a1 y (fun hc => by have := (inR_left hs).mp hc; omega)]; exact u1, hr⟩
          · rintro ⟨u1, u2⟩
            have hr := (inR_right hs).mp u2
            rw [a1 y (fun hc => by have := (inR_left hs).mp hc; omega)] at u1
            exact ⟨⟨u1, hr.1⟩, hr.2⟩)
        have c4 : Ev cs.H M2 lo (half s) := a4.congr hp (by
          intro y hy
          exact (b1 y (fun hc => by
            have := (inR_right hs).mp hc
            have := (inR_left hs).mp hy
            omega)).symm)
        have out : ∀ z, ¬ InR lo s z → M2.lookup z = M.lookup z := by
          intro z hz
          rw [b1 z (fun hc => hz ((inR_right hs).mp hc).1), a1 z (fun hc => hz ((inR_left hs).mp hc).1)]
        split at h
        · obtain ⟨a, ea, h⟩ := G.bind_eq_ok.mp h
          obtain ⟨b, eb, h⟩ := G.bind_eq_ok.mp h
          obtain ⟨d, ed, h⟩ := G.bind_eq_ok.mp h
          have ea := nodeAt_ok ea
          have eb := nodeAt_ok eb
          have ed := treeHash_ok ed
          subst ed
          obtain ⟨d1, d2, d3, d4⟩ := addToMap_ok h b3
          have hleaf : isLeaf (nd lo s) = false := by rw [isLeaf_nd]; simp; omega
          rw [hleaf] at d1
          have nl := (inR_left hs).mp (nd_inR (lo := lo) hp)
          have nr := (inR_right hs).mp (nd_inR (lo := lo + half s) (s := s - half s) (by omega))
          refine ⟨?_, fun z w hz => d3 z w (b2 z w (a2 z w hz)), d4, .node hs (c4.congr hp ?_) (b4.congr (by omega) ?_) ?_⟩
          · intro z hz
            rw [d2 z (by rintro rfl; exact hz (nd_inR (by omega))), out z hz]
          · intro y hy
            have := (inR_left hs).mp hy
            exact (d2 y (by omega)).symm
          · intro y hy
            have := (inR_right hs).mp hy
            exact (d2 y (by omega)).symm
          · intro _
            exact ⟨a, b, by rw [d2 _ (by omega)]; exact ea, by rw [d2 _ (by omega)]; exact eb, d1⟩
        · rename_i hnf
          cases h
          refine ⟨out, fun z w hz => b2 z w (a2 z w hz), b3, .node hs c4 b4 ?_⟩
          intro hf
          exact absurd ((isFull_nd hsub).mpr hf) hnf

theorem inputs_two (H : Bytes → Bytes) (L : List Bytes) (h : 2 ≤ L.length) :
    inputs H L = ((merkle H (L.take (half L.length))).enc ++ (merkle H (L.drop (half L.length))).enc)
      :: (inputs H (L.take (half L.length)) ++ inputs H (L.drop (half L.length))) := by
  conv_lhs => unfold inputs
  rw [dif_neg (by omega)]

/-- strings hashed for the subtree `(lo, s)` of the log -/
def blkInputs (H : Bytes → Bytes) (L : List Bytes) (lo s : Nat) : List Bytes := inputs H ((L.drop lo).take s)

theorem blkInputs_two (H : Bytes → Bytes) {lo s : Nat} (hs : 2 ≤ s) (h : lo + s ≤ L.length) :
    blkInputs H L lo s = ((blk H L lo (half s)).enc ++ (blk H L (lo + half s) (s - half s)).enc) ::
      (blkInputs H L lo (half s) ++ blkInputs H L (lo + half s) (s - half s)) := by
  have hl := half_lt hs
  have hlen : ((L.drop lo).take s).length = s := by simp; omega
  unfold blkInputs
  rw [inputs_two _ _ (by omega), hlen]
  simp only [List.take_take, List.drop_take, List.drop_drop, min_eq_left (le_of_lt hl)]
  rfl

theorem Collides.mono {H : Bytes → Bytes} {A A' B B' : List Bytes} (h : Collides H A B) (ha : ∀ x ∈ A, x ∈ A')
    (hb : ∀ x ∈ B, x ∈ B') : Collides H A' B' := by
  obtain ⟨a, h1, b, h2, h3⟩ := h
  exact ⟨a, ha a h1, b, hb b h2, h3⟩

theorem encND_inj {a b c d : NodeData} (h : encND a ++ encND b = encND c ++ encND d)
    (hl : a.value.length = c.value.length) : a = c ∧ b = d := by
  have key : ∀ x y : NodeData, encND x = encND y → x = y := by
    intro x y h
    obtain ⟨l, v⟩ := x
    obtain ⟨l', v'⟩ := y
    unfold encND at h
    rw [List.cons.injEq] at h
    obtain ⟨h1, h2⟩ := h
    simp only at h1 h2
    subst h2
    cases l <;> cases l' <;> simp at h1 ⊢
  obtain ⟨h1, h2⟩ := List.append_inj h (by simp [encND, hl])
  exact ⟨key _ _ h1, key _ _ h2⟩

theorem enc_toND (v : Val) : encND (toND v) = v.enc := rfl

theorem mem_evalInputs {n : Nat} {M : NMap} {lo s : Nat} {a b c : NodeData} (hsub : Sub n lo s) (hs : 2 ≤ s)
    (h1 : M.lookup (nd lo (half s)) = some a) (h2 : M.lookup (nd (lo + half s) (s - half s)) = some b)
    (h3 : M.lookup (nd lo s) = some c) : encND a ++ encND b ∈ evalInputs n M := by
  unfold evalInputs
  rw [List.mem_filterMap]
  have hm : nd lo s ∈ M.map Prod.fst := lookup_ne_none.mp (by rw [h3]; simp)
  obtain ⟨p, hp, e⟩ := List.mem_map.mp hm
  refine ⟨p, hp, ?_⟩
  rw [e, left_nd hsub hs, right_nd hsub hs]
  simp only [h1, h2]

/-- A consistent map whose heads are the true ones holds true values only, or exhibits a collision. -/
theorem Ev.sound (hcs : cs.Good) (hL : ∀ v ∈ L, v.length = cs.hashSize) {M : NMap} (hM : WF cs M) {lo s : Nat}
    (h : Ev cs.H M lo s) : Sub L.length lo s →
    (∀ p ∈ fsList lo s, M.lookup (nd p.1 p.2) = some (toND (blk cs.H L p.1 p.2))) →
    (∀ lo' s', Sub L.length lo' s' → s' = 2 ^ ht s' → InR lo s (nd lo' s') → ∀ v, M.lookup (nd lo' s') = some v →
      v = toND (blk cs.H L lo' s')) ∨ Collides cs.H (blkInputs cs.H L lo s) (evalInputs L.length M) := by
  induction h with
  | @term lo s h =>
    intro hsub hfs
    left
    intro lo' s' h' hf' hr v hv
    have e := h _ hr (by rw [hv]; simp)
    obtain ⟨rfl, rfl⟩ := h'.unique hsub e
    have := hfs (lo', s') (by rw [fsList_full hf']; simp)
    rw [hv] at this
    exact Option.some.inj this
  | @node lo s hs hl hr hf ih1 ih2 =>
    intro hsub hfs
    have hlt := half_lt hs
    have hp := half_pos s
    have hLf : half s = 2 ^ ht (half s) := by rw [half_eq hs, ht_two_pow]
    -- the heads of the two halves are true, or there is a collision
    have key : ((∀ p ∈ fsList lo (half s), M.lookup (nd p.1 p.2) = some (toND (blk cs.H L p.1 p.2))) ∧
        (∀ p ∈ fsList (lo + half s) (s - half s), M.lookup (nd p.1 p.2) = some (toND (blk cs.H L p.1 p.2))) ∧
        (s = 2 ^ ht s → M.lookup (nd lo s) = some (toND (blk cs.H L lo s)))) ∨
        Collides cs.H (blkInputs cs.H L lo s) (evalInputs L.length M) := by
      by_cases hfull : s = 2 ^ ht s
      · obtain ⟨a, b, e1, e2, e3⟩ := hf hfull
        have e4 := hfs (lo, s) (by rw [fsList_full hfull]; simp)
        have hin := mem_evalInputs hsub hs e1 e2 e3
        simp only [] at e4
        by_cases hc : (blk cs.H L lo (half s)).enc ++ (blk cs.H L (lo + half s) (s - half s)).enc = encND a ++ encND b
        · left
          rw [← enc_toND, ← enc_toND] at hc
          obtain ⟨u1, u2⟩ := encND_inj hc (by
            rw [(hM _ _ e1).2]
            exact blk_len hcs hL hp (by have := hsub.le; omega))
          have hR1 : s - half s = half s := by have := (full_iff hs).mp hfull; omega
          have hR2 : s - half s = 2 ^ ht (s - half s) := by rw [hR1]; exact hLf
          refine ⟨?_, ?_, fun _ => e4⟩
          · rw [fsList_full hLf]
            intro p hp'
            rw [List.mem_singleton] at hp'
            subst hp'
            rw [e1, u1]
          · rw [fsList_full hR2]
            intro p hp'
            rw [List.mem_singleton] at hp'
            subst hp'
            rw [e2, u2]
        · right
          refine ⟨_, by rw [blkInputs_two _ hs hsub.le]; simp, _, hin, hc, ?_⟩
          rw [e3, blk_two _ hs hsub.le] at e4
          have := congrArg NodeData.value (Option.some.inj e4)
          exact this.symm
      · left
        rw [fsList_part hs hfull] at hfs
        refine ⟨?_, fun p hp' => hfs p (by simp [hp']), fun h => absurd h hfull⟩
        rw [fsList_full hLf]
        intro p hp'
        rw [List.mem_singleton] at hp'
        subst hp'
        exact hfs _ (by simp)
    have sub1 : ∀ x ∈ blkInputs cs.H L lo (half s), x ∈ blkInputs cs.H L lo s := by
      intro x hx; rw [blkInputs_two _ hs hsub.le]; simp [hx]
    have sub2 : ∀ x ∈ blkInputs cs.H L (lo + half s) (s - half s), x ∈ blkInputs cs.H L lo s := by
      intro x hx; rw [blkInputs_two _ hs hsub.le]; simp [hx]
    rcases key with ⟨k1, k2, k3⟩ | k
    · rcases ih1 (hsub.left hs) k1 with i1 | i1
      · rcases ih2 (hsub.right hs) k2 with i2 | i2
        · left
          intro lo' s' h' hf' hr' v hv
          rcases Nat.lt_trichotomy (nd lo' s') (nd lo s) with hx | hx | hx
          · exact i1 lo' s' h' hf' ((inR_left hs).mpr ⟨hr', hx⟩) v hv
          · obtain ⟨rfl, rfl⟩ := h'.unique hsub hx
            have := k3 hf'
            rw [hv] at this
            exact Option.some.inj this
          · exact i2 lo' s' h' hf' ((inR_right hs).mpr ⟨hr', hx⟩) v hv
        · exact Or.inr (Collides.mono i2 sub2 (fun _ h => h))
      · exact Or.inr (Collides.mono i1 sub1 (fun _ h => h))
    · exact Or.inr k

/-- rolling up -/
theorem rollUp_acc : ∀ (l : List NodeData) (d : NodeData), rollUp cs l = .ok d → d = rollInputs.acc cs.H l := by
  intro l
  induction l with
  | nil => intro d h; cases h
  | cons a l ih =>
    intro d h
    cases l with
    | nil => cases h; rfl
    | cons b l =>
      rw [rollUp] at h
      · obtain ⟨acc, e1, e2⟩ := G.bind_eq_ok.mp h
        rw [treeHash_ok e2, ih acc e1]; rfl
      · simp

theorem acc_len (hcs : cs.Good) : ∀ (l : List NodeData), l ≠ [] → (∀ d ∈ l, d.value.length = cs.hashSize) →
    (rollInputs.acc cs.H l).value.length = cs.hashSize := by
  intro l hne hl
  match l, hne, hl with
  | [a], _, hl => exact hl a (by simp)
  | a :: b :: l, _, _ => exact hcs.len _

theorem acc_sound (hcs : cs.Good) (hL : ∀ v ∈ L, v.length = cs.hashSize) :
    ∀ (s lo : Nat) (ds : List NodeData), Sub L.length lo s →
    ds.map NodeData.leaf = (fsList lo s).map (fun p => isLeaf (nd p.1 p.2)) →
    (∀ d ∈ ds, d.value.length = cs.hashSize) →
    (rollInputs.acc cs.H ds).value = (blk cs.H L lo s).value →
    (ds = (fsList lo s).map (fun p => toND (blk cs.H L p.1 p.2))) ∨
      Collides cs.H (blkInputs cs.H L lo s) (rollInputs cs.H ds) := by
  intro s
  induction s using Nat.strong_induction_on with
  | _ s ih =>
    intro lo ds hsub hleaf hlen hv
    by_cases hf : s = 2 ^ ht s
    · rw [fsList_full hf] at hleaf ⊢
      have hlen' := congrArg List.length hleaf
      simp only [List.length_map, List.length_singleton] at hlen'
      obtain ⟨d, rfl⟩ := List.length_eq_one_iff.mp hlen'
      left
      simp only [List.map_cons, List.map_nil, List.cons.injEq, and_true] at hleaf ⊢
      rw [← toND_leaf hsub, ← hv, ← hleaf]
      rfl
    · have hs : 2 ≤ s := by
        by_contra hlt
        have := hsub.pos
        have : s = 1 := by omega
        subst this; simp [ht] at hf
      have hl := half_lt hs
      have hp := half_pos s
      have hne := fsList_ne_nil (lo + half s) (s - half s)
      obtain ⟨q, qs, hq⟩ := List.exists_cons_of_ne_nil hne
      rw [fsList_part hs hf] at hleaf ⊢
      cases ds with
      | nil => simp at hleaf
      | cons a ds =>
        simp only [List.map_cons, List.cons.injEq] at hleaf ⊢
        obtain ⟨l1, l2⟩ := hleaf
        cases ds with
        | nil => rw [hq] at l2; simp at l2
        | cons b ds =>
          have hv' : cs.H (encND a ++ encND (rollInputs.acc cs.H (b :: ds))) = (blk cs.H L lo s).value := hv
          rw [blk_two _ hs hsub.le] at hv'
          have hbl : (blk cs.H L lo (half s)).value.length = cs.hashSize := blk_len hcs hL hp (by have := hsub.le; omega)
          have hin : encND a ++ encND (rollInputs.acc cs.H (b :: ds)) ∈ rollInputs cs.H (a :: b :: ds) := by
            rw [rollInputs]
            · simp
            · simp
          by_cases hc : (blk cs.H L lo (half s)).enc ++ (blk cs.H L (lo + half s) (s - half s)).enc =
              encND a ++ encND (rollInputs.acc cs.H (b :: ds))
          · rw [← enc_toND, ← enc_toND] at hc
            obtain ⟨u1, u2⟩ := encND_inj hc (by rw [hlen a (by simp)]; exact hbl)
            have := ih (s - half s) (by omega) (lo + half s) (b :: ds) (hsub.right hs) l2
              (fun d hd => hlen d (by simp only [List.mem_cons] at hd ⊢; tauto)) (by rw [← u2]; rfl)
            rcases this with h | h
            · exact Or.inl ⟨u1.symm, h⟩
            · right
              refine Collides.mono h ?_ ?_
              · intro x hx; rw [blkInputs_two _ hs hsub.le]; simp [hx]
              · intro x hx
                rw [rollInputs]
                · simp [hx]
                · simp
          · right
            exact ⟨_, by rw [blkInputs_two _ hs hsub.le]; simp, _, hin, hc, hv'.symm⟩

theorem zipWith_fst {α β γ : Type} (f : α → γ) : ∀ (xs : List α) (ys : List β), xs.length = ys.length →
    List.zipWith (fun x _ => f x) xs ys = xs.map f
  | [], _, _ => by simp
  | x :: xs, [], h => by simp at h
  | x :: xs, y :: ys, h => by simp [zipWith_fst f xs ys (by simpa using h)]

theorem zipWith_snd {α β : Type} : ∀ (xs : List α) (ys : List β), xs.length = ys.length →
    List.zipWith (fun _ y => y) xs ys = ys
  | [], [], _ => by simp
  | [], y :: ys, h => by simp at h
  | x :: xs, [], h => by simp at h
  | x :: xs, y :: ys, h => by simp [zipWith_snd xs ys (by simpa using h)]

/-- a root determines the heads, or a collision -/
theorem root_sound (hcs : cs.Good) (hL : ∀ v ∈ L, v.length = cs.hashSize) (h0 : 0 < L.length) {fs : List Bytes}
    (h : root cs L.length fs = .ok (rootHash cs.H L)) :
    fs = heads cs.H L ∨ Collides cs.H (inputs cs.H L) (rootInputs cs.H L.length fs) := by
  have hsub := Sub.root (n := L.length) h0
  have hfs : fullSubtrees (LogMath.root L.length) L.length = .ok ((fsList 0 L.length).map fun p => nd p.1 p.2) := by
    rw [root_eq h0, fullSubtrees_eq hsub]
  unfold root at h
  split at h
  · cases h
  · rw [hfs, G.ok_bind] at h
    split at h
    · cases h
    · rename_i hlen
      simp only [ne_eq, not_not, List.length_map] at hlen
      split at h
      · cases h
      · rename_i hall
        simp only [not_not, List.all_eq_true, beq_iff_eq] at hall
        obtain ⟨acc, e1, e2⟩ := G.bind_eq_ok.mp h
        have e3 := rollUp_acc _ _ e1
        have e2' : acc.value = rootHash cs.H L := Except.ok.inj e2
        set ds := List.zipWith (fun x v => (⟨isLeaf x, v⟩ : NodeData)) ((fsList 0 L.length).map fun p => nd p.1 p.2) fs with hds
        have hmapl : ds.map NodeData.leaf = (fsList 0 L.length).map (fun p => isLeaf (nd p.1 p.2)) := by
          rw [hds, List.map_zipWith]
          simp only
          rw [zipWith_fst _ _ _ (by simp [hlen]), List.map_map]; rfl
        have hmapv : ds.map NodeData.value = fs := by
          rw [hds, List.map_zipWith]
          simp only
          exact zipWith_snd _ _ (by simp [hlen])
        have := acc_sound hcs hL L.length 0 ds hsub hmapl (by
          intro d hd
          exact hall _ (by rw [← hmapv]; exact List.mem_map_of_mem hd)) (by
          rw [← e3, blk_all]; exact e2')
        rcases this with h | h
        · left
          rw [← hmapv, h, heads_eq _ _ h0, List.map_map]
          rfl
        · right
          unfold rootInputs
          rw [hfs]
          simpa [blkInputs] using h

theorem mapM_nodeAt_ok {M : NMap} : ∀ (xs : List Nat) (vs : List Bytes),
    xs.mapM (fun x => do let d ← nodeAt M x; pure d.value) = (.ok vs : G (List Bytes)) →
    List.Forall₂ (fun x v => ∃ d, M.lookup x = some d ∧ d.value = v) xs vs := by
  intro xs
  induction xs with
  | nil => intro vs h; cases h; exact .nil
  | cons x xs ih =>
    intro vs h
    rw [List.mapM_cons] at h
    obtain ⟨v, e1, h⟩ := G.bind_eq_ok.mp h
    obtain ⟨ws, e2, h⟩ := G.bind_eq_ok.mp h
    obtain ⟨d, e3, e4⟩ := G.bind_eq_ok.mp e1
    cases h
    cases e4
    exact .cons ⟨d, nodeAt_ok e3, rfl⟩ (ih _ e2)

theorem forall₂_eq_map {α β : Type} {R : α → β → Prop} {f : α → β} : ∀ (xs : List α) (ys : List β),
    (∀ x ∈ xs, ∀ y, R x y → y = f x) → List.Forall₂ R xs ys → ys = xs.map f := by
  intro xs ys h hR
  induction hR with
  | nil => rfl
  | cons h1 _ ih => rw [List.map_cons, h _ (by simp) _ h1, ih (fun x hx => h x (by simp [hx]))]

/-- Everything a successful evaluation against the root of a log says. -/
theorem evaluate_sound (hcs : cs.Good) (hL : ∀ v ∈ L, v.length = cs.hashSize) (h0 : 0 < L.length)
    {v : Verifier} {entries : List Nat} {nP : Option Nat} {values proof : List Bytes} {res : EvalResult}
    (hv : (v.prev = none ∧ v.subtrees = []) ∨
      ∃ k, 0 < k ∧ k ≤ L.length ∧ v.prev = some k ∧ v.subtrees = (fsList 0 k).map fun p => nd p.1 p.2)
    (h : evaluate cs v entries L.length nP values proof = .ok res)
    (hroot : root cs L.length res.fullSubtrees = .ok (rootHash cs.H L)) :
    (res.fullSubtrees = heads cs.H L ∧
      entries.length = values.length ∧ (∀ x ∈ entries, x < L.length) ∧
      (∀ p ∈ (entries.map (2 * ·)).zip values, ∀ lo s, Sub L.length lo s → s = 2 ^ ht s → nd lo s = p.1 → p.2 = (blk cs.H L lo s).value) ∧
      (∀ p ∈ v.subtrees.zip v.values, ∀ lo s, Sub L.length lo s → s = 2 ^ ht s → nd lo s = p.1 → p.2 = (blk cs.H L lo s).value) ∧
      (∀ k, nP = some k → 0 < k ∧ k ≤ L.length ∧ res.additional = heads cs.H (L.take k)) ∧
      ∃ cop, batchCopath entries L.length nP v.prev = .ok cop ∧ proof = cop.map (trueAt cs.H L)) ∨
    Collides cs.H (inputs cs.H L) (evalInputs L.length res.nodes ++ rootInputs cs.H L.length res.fullSubtrees) := by
  rcases root_sound hcs hL h0 hroot with hh | hc
  swap
  · right; exact Collides.mono hc (fun _ h => h) (by simp +contextual)
  unfold evaluate at h
  split at h
  · cases h
  split at h
  · cases h
  rename_i hnP
  split at h
  · cases h
  rename_i hlen
  split at h
  · cases h
  rename_i hent
  obtain ⟨cop, ec, h⟩ := G.bind_eq_ok.mp h
  split at h
  · cases h
  rename_i hcop
  obtain ⟨M1, e1, h'⟩ := G.bind_eq_ok.mp h
  clear h; rename' h' => h
  obtain ⟨M2, e2, h'⟩ := G.bind_eq_ok.mp h
  clear h; rename' h' => h
  obtain ⟨M3, e3, h'⟩ := G.bind_eq_ok.mp h
  clear h; rename' h' => h
  obtain ⟨M4, e4, h'⟩ := G.bind_eq_ok.mp h
  clear h; rename' h' => h
  obtain ⟨fs, e5, h'⟩ := G.bind_eq_ok.mp h
  clear h; rename' h' => h
  obtain ⟨vals, e6, h'⟩ := G.bind_eq_ok.mp h
  clear h; rename' h' => h
  have hsub := Sub.root (n := L.length) h0
  have hnP' : ∀ k, nP = some k → 0 < k ∧ k ≤ L.length := by
    intro k hk
    subst hk
    simp at hnP
    omega
  have hent' : ∀ x ∈ entries, x < L.length := by
    intro x hx
    simp only [List.any_eq_true, decide_eq_true_eq, not_exists, not_and] at hent
    have := hent x hx
    omega
  have hm' : ∀ k, v.prev = some k → 0 < k ∧ k ≤ L.length := by
    intro k hk
    rcases hv with ⟨h1, _⟩ | ⟨k', h1, h2, h3, _⟩
    · rw [h1] at hk; cases hk
    · rw [h3] at hk; cases hk; exact ⟨h1, h2⟩
  obtain ⟨cop', ec', r1, r2, _, _⟩ := batchCopath_spec h0 hent' hnP' hm'
  have ecop := ec
  rw [ec] at ec'
  cases ec'
  obtain ⟨a1, _, a3, a4⟩ := addAll_ok _ _ _ e1 (by intro y w hw; simp at hw)
  obtain ⟨b1, b2, b3, b4⟩ := addAll_ok _ _ _ e2 a3
  obtain ⟨c1, c2, c3, c4⟩ := addAll_ok _ _ _ e3 b3
  have hkeys : ∀ z, M3.lookup z ≠ none → InR 0 L.length z := by
    have hz : ∀ {α : Type} {z : Nat} {xs : List Nat} {ys : List α}, z ∈ (xs.zip ys).map Prod.fst → z ∈ xs := by
      intro α z xs ys h
      obtain ⟨⟨p, q⟩, hp, rfl⟩ := List.mem_map.mp h
      exact (List.of_mem_zip hp).1
    intro z h
    rcases c4 z h with h | h
    · exact r1 z (Or.inr (hz h))
    · rcases b4 z h with h | h
      · rcases hv with ⟨h1, h2⟩ | ⟨k', h1, h2, h3, h4⟩
        · rw [h2] at h; simp at h
        · have := hz h
          rw [h4] at this
          exact r1 z (Or.inl (Or.inr ⟨k', h3, this⟩))
      · rcases a4 z h with h | h
        · exact r1 z (Or.inl (Or.inl (hz h)))
        · simp at h
  rw [root_eq h0] at e4 e5
  rw [fullSubtrees_eq hsub] at e5
  cases e5
  obtain ⟨d1, d2, d3, d4⟩ := evaluateAux_sound _ _ _ _ _ _ e4 hsub c3 (sortDedup_sorted _) (by
    intro y
    rw [sortDedup_mem, ← lookup_ne_none]
    exact ⟨fun h => ⟨h, hkeys y h⟩, fun h => h.1⟩)
  -- the returned heads are in the map
  obtain ⟨add, e7, h⟩ : ∃ add, (match nP with
        | none => pure []
        | some k => do
          let fs' ← LogMath.fullSubtrees (LogMath.root k) k
          fs'.mapM (fun x => do let d ← nodeAt M4 x; pure d.value) : G (List Bytes)) = .ok add ∧
        res = ⟨vals, add, M4⟩ := by
    cases nP with
    | none => exact ⟨[], rfl, (Except.ok.inj h).symm⟩
    | some k =>
      simp only at h
      obtain ⟨fs', e7, h'⟩ := G.bind_eq_ok.mp h
      obtain ⟨add, e8, h''⟩ := G.bind_eq_ok.mp h'
      refine ⟨add, ?_, by cases h''; rfl⟩
      simp only
      rw [e7, G.ok_bind, e8]
  subst h
  simp only at hh ⊢
  have hM := mapM_nodeAt_ok _ _ e6
  rw [List.forall₂_map_left_iff, hh, heads_eq _ _ h0, List.forall₂_map_right_iff] at hM
  have hfs : ∀ p ∈ fsList 0 L.length, M4.lookup (nd p.1 p.2) = some (toND (blk cs.H L p.1 p.2)) := by
    intro p hp
    rw [List.forall₂_same] at hM
    obtain ⟨d, hd, hd'⟩ := hM p hp
    obtain ⟨a, b, c, _⟩ := fsList_mem _ _ hsub p hp
    rw [hd, ← toND_leaf a, ← (d3 _ _ hd).1, ← hd']
  rcases d4.sound hcs hL d3 hsub hfs with hs | hc
  swap
  · right
    refine Collides.mono hc ?_ (by simp +contextual)
    simp [blkInputs]
  left
  have hin : ∀ lo s, Sub L.length lo s → InR 0 L.length (nd lo s) := by
    intro lo s h
    exact inR_mono ⟨by omega, by have := h.le; omega⟩ (nd_inR h.pos)
  refine ⟨hh, not_not.mp hlen, hent', ?_, ?_, ?_, cop, ecop, ?_⟩
  · intro p hp lo s h1 h2 h3
    have := d2 _ _ (c2 _ _ (b2 _ _ (a1 p hp)))
    rw [← h3] at this
    have := hs lo s h1 h2 (hin lo s h1) _ this
    exact congrArg NodeData.value this
  · intro p hp lo s h1 h2 h3
    have := d2 _ _ (c2 _ _ (b1 p hp))
    rw [← h3] at this
    have := hs lo s h1 h2 (hin lo s h1) _ this
    exact congrArg NodeData.value this
  · intro k hk
    subst hk
    obtain ⟨k1, k2⟩ := hnP' k rfl
    refine ⟨k1, k2, ?_⟩
    simp only at e7
    rw [root_eq k1, fullSubtrees_eq (Sub.root k1), G.ok_bind] at e7
    have hA := mapM_nodeAt_ok _ _ e7
    rw [heads_take _ _ k1 k2]
    rw [List.forall₂_map_left_iff] at hA
    refine forall₂_eq_map _ _ ?_ hA
    rintro p hp w ⟨d, hd, rfl⟩
    obtain ⟨a, b, c, _⟩ := fsList_mem _ _ (Sub.root k1) p hp
    have a' := a.mono b k2
    rw [hs _ _ a' b (hin _ _ a') _ hd]
    rfl
  · have hl : proof.length = cop.length := not_not.mp hcop
    apply List.ext_getElem
    · simp [hl]
    intro i hi1 hi2
    rw [List.length_map] at hi2
    have hmem : (cop[i], proof[i]) ∈ cop.zip proof := by
      rw [List.mem_iff_getElem]
      exact ⟨i, by simp; omega, by simp⟩
    obtain ⟨lo, s, k1, k2, k3⟩ := r2 cop[i] (Or.inr (List.getElem_mem hi2))
    have := d2 _ _ (c1 _ hmem)
    simp only at this
    rw [← k3] at this
    have := hs lo s k1 k2 (hin lo s k1) _ this
    rw [List.getElem_map, ← k3, trueAt_nd k1 k2]
    exact congrArg NodeData.value this

theorem merkle_len (hcs : cs.Good) (hL : ∀ v ∈ L, v.length = cs.hashSize) (h0 : 0 < L.length) :
    (merkle cs.H L).value.length = cs.hashSize := by
  rw [← blk_all]; exact blk_len hcs hL h0 (by omega)

/-- equal roots of logs of equal size: equal logs, or a collision -/
theorem merkle_inj (hcs : cs.Good) : ∀ (n : Nat) (L M : List Bytes), L.length = n → M.length = n → 0 < n →
    (∀ v ∈ L, v.length = cs.hashSize) → (∀ v ∈ M, v.length = cs.hashSize) →
    (merkle cs.H L).value = (merkle cs.H M).value → L = M ∨ Collides cs.H (inputs cs.H L) (inputs cs.H M) := by
  intro n
  induction n using Nat.strong_induction_on with
  | _ n ih =>
    intro L M hl hm h0 hL hM he
    by_cases h1 : n ≤ 1
    · have : n = 1 := by omega
      subst this
      obtain ⟨a, rfl⟩ := List.length_eq_one_iff.mp hl
      obtain ⟨b, rfl⟩ := List.length_eq_one_iff.mp hm
      rw [merkle_one, merkle_one] at he
      simp only at he
      left; rw [he]
    · have h2 : 2 ≤ n := by omega
      have hlt := half_lt h2
      have hp := half_pos n
      rw [merkle_two _ L (by omega), merkle_two _ M (by omega), hl, hm] at he
      simp only at he
      rw [inputs_two _ L (by omega), inputs_two _ M (by omega), hl, hm]
      by_cases hc : (merkle cs.H (L.take (half n))).enc ++ (merkle cs.H (L.drop (half n))).enc =
          (merkle cs.H (M.take (half n))).enc ++ (merkle cs.H (M.drop (half n))).enc
      · rw [← enc_toND, ← enc_toND, ← enc_toND, ← enc_toND] at hc
        have hLt : ∀ v ∈ L.take (half n), v.length = cs.hashSize := fun v hv => hL v (List.mem_of_mem_take hv)
        have hLd : ∀ v ∈ L.drop (half n), v.length = cs.hashSize := fun v hv => hL v (List.mem_of_mem_drop hv)
        have hMt : ∀ v ∈ M.take (half n), v.length = cs.hashSize := fun v hv => hM v (List.mem_of_mem_take hv)
        have hMd : ∀ v ∈ M.drop (half n), v.length = cs.hashSize := fun v hv => hM v (List.mem_of_mem_drop hv)
        obtain ⟨u1, u2⟩ := encND_inj hc (by
          simp only [toND]
          rw [merkle_len hcs hLt (by simp; omega), merkle_len hcs hMt (by simp; omega)])
        have u1 := congrArg NodeData.value u1
        have u2 := congrArg NodeData.value u2
        rcases ih (half n) hlt _ _ (by simp; omega) (by simp; omega) hp hLt hMt u1 with i1 | i1
        · rcases ih (n - half n) (by omega) _ _ (by simp; omega) (by simp; omega) (by omega) hLd hMd u2 with i2 | i2
          · left
            rw [← List.take_append_drop (half n) L, i1, i2, List.take_append_drop]
          · right; exact Collides.mono i2 (by simp +contextual) (by simp +contextual)
        · right; exact Collides.mono i1 (by simp +contextual) (by simp +contextual)
      · right
        exact ⟨_, by simp, _, by simp, hc, he⟩

end Katie.Log
