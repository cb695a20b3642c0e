import Verif.Lemmas.LogEval

/-
The copath of a verifier that retains the current tree itself, compared with the copath computed without a previous
tree.
-/

namespace Katie.LogMath
open Katie Katie.LogSpec

/-- nothing is missing from a set of nodes that determines the subtree -/
theorem batchCopathAux_cov {n : Nat} : ∀ (s lo fuel : Nat) (seg : List Nat), Sub n lo s → s ≤ fuel →
    seg.Pairwise (· < ·) → (∀ y ∈ seg, InR lo s y) → Cov (· ∈ seg) lo s →
    batchCopathAux fuel (nd lo s) n seg [] = .ok [] := by
  intro s
  induction s using Nat.strong_induction_on with
  | _ s ih =>
    intro lo fuel seg h hf hsort hR hc
    have hpos := h.pos
    obtain ⟨f, rfl⟩ : ∃ f, fuel = f + 1 := ⟨fuel - 1, by omega⟩
    unfold batchCopathAux
    cases hc with
    | term h1 h2 =>
      have : seg = [nd lo s] := by
        match seg, h1, hsort, hR, h2 with
        | [a], h1, _, _, _ => rw [List.mem_singleton.1 h1]
        | a :: b :: l, _, hsort, hR, h2 =>
          have e1 := h2 a (hR a (by simp)) (by simp)
          have e2 := h2 b (hR b (by simp)) (by simp)
          rw [List.pairwise_cons] at hsort
          have := hsort.1 b (by simp)
          omega
      rw [if_neg (by rw [this]; simp), if_pos this]
      simp
    | node hs h1 h2 =>
      have hl := half_lt hs
      have hp := half_pos s
      obtain ⟨a, ha, hm⟩ := h1.nonempty hp
      have hlt := ((inR_left hs).1 ha).2
      rw [if_neg (List.ne_nil_of_mem hm), if_neg (fun e => by rw [e, List.mem_singleton] at hm; omega)]
      simp only [take_bs hsort, drop_bs hsort]
      rw [left_nd h hs, G.ok_bind, right_nd h hs]
      rw [ih (half s) hl lo f (seg.filter (· < nd lo s)) (h.left hs) (by omega) (hsort.filter _) ?_ ?_,
        G.ok_bind, G.ok_bind, ih (s - half s) (by omega) (lo + half s) f (seg.filter (nd lo s < ·)) (h.right hs)
          (by omega) (hsort.filter _) ?_ ?_]
      · rfl
      · intro y hy
        simp only [List.mem_filter, decide_eq_true_eq] at hy
        exact (inR_right hs).mpr ⟨hR y hy.1, hy.2⟩
      · refine h2.congr (by omega) ?_
        intro y hy
        have := ((inR_right hs).1 hy).2
        simp [List.mem_filter, this]
      · intro y hy
        simp only [List.mem_filter, decide_eq_true_eq] at hy
        exact (inR_left hs).mpr ⟨hR y hy.1, hy.2⟩
      · refine h1.congr hp ?_
        intro y hy
        have := ((inR_left hs).1 hy).2
        simp [List.mem_filter, this]

theorem fsList_full {lo s : Nat} (h : s ≤ 1 ∨ s = 2 * half s) : fsList lo s = [(lo, s)] := by
  rw [fsList]
  by_cases h1 : s ≤ 1
  · rw [dif_pos h1]
  · rw [dif_neg h1, if_pos (h.resolve_left h1)]

theorem fsList_step {lo s : Nat} (h1 : ¬ s ≤ 1) (h : s ≠ 2 * half s) :
    fsList lo s = (lo, half s) :: fsList (lo + half s) (s - half s) := by
  rw [fsList, dif_neg h1, if_neg h]

theorem half_full (s : Nat) : half s ≤ 1 ∨ half s = 2 * half (half s) := by
  unfold half
  generalize Nat.log2 (s - 1) = k
  cases k with
  | zero => left; simp
  | succ k =>
    right
    have : Nat.log2 (2 ^ (k + 1) - 1) = k := by
      rw [Nat.log2_eq_iff (by have := Nat.two_pow_pos k; rw [Nat.pow_succ]; omega)]
      have := Nat.two_pow_pos k
      rw [Nat.pow_succ]; omega
    rw [this, Nat.pow_succ]; omega

/-- The two copaths: without a previous tree there is one more node for every maximal complete subtree without an
inspected leaf; otherwise they are equal. -/
theorem copath_same {n : Nat} : ∀ (s lo fuel : Nat) (seg segC : List Nat), Sub n lo s → s ≤ fuel →
    seg.Pairwise (· < ·) → segC.Pairwise (· < ·) → (∀ y ∈ seg, InR lo s y ∧ y % 2 = 0) →
    (∀ y, y ∈ segC ↔ y ∈ seg ∨ y ∈ (fsList lo s).map fun p => nd p.1 p.2) →
    ∃ a c, batchCopathAux fuel (nd lo s) n seg [] = .ok a ∧ batchCopathAux fuel (nd lo s) n segC [] = .ok c ∧
      c.length ≤ a.length ∧ ((∃ q ∈ fsList lo s, ∀ y ∈ seg, ¬ InR q.1 q.2 y) → c.length < a.length) ∧
      ((∀ q ∈ fsList lo s, ∃ y ∈ seg, InR q.1 q.2 y) → a = c) := by
  intro s
  induction s using Nat.strong_induction_on with
  | _ s ih =>
    intro lo fuel seg segC h hf hsort hsortC hR hC
    have hpos := h.pos
    have hRC : ∀ y ∈ segC, InR lo s y := by
      intro y hy
      rcases (hC y).1 hy with hy | hy
      · exact (hR y hy).1
      · obtain ⟨q, hq, rfl⟩ := List.mem_map.mp hy
        obtain ⟨a, b, c, d⟩ := Log.fsList_mem _ _ h q hq
        exact inR_mono ⟨c, d⟩ (nd_inR a.pos)
    by_cases h1 : seg = []
    · subst h1
      have hc := batchCopathAux_cov s lo fuel segC h hf hsortC hRC (cov_fs s lo h (fun y _ => by rw [hC]; simp))
      obtain ⟨f, rfl⟩ : ∃ f, fuel = f + 1 := ⟨fuel - 1, by omega⟩
      have hlen : 0 < ((fsList lo s).map fun p => nd p.1 p.2).length := by
        rw [fsList]
        split
        · simp
        · split <;> simp
      refine ⟨(fsList lo s).map fun p => nd p.1 p.2, [], ?_, hc, ?_, fun _ => ?_, fun hall => ?_⟩
      · unfold batchCopathAux
        rw [if_pos rfl, fullSubtrees_eq h]
      · exact Nat.zero_le _
      · exact hlen
      · rw [List.length_map] at hlen
        obtain ⟨q, hq⟩ := List.exists_mem_of_ne_nil _ (List.length_pos_iff.1 hlen)
        obtain ⟨y, hy, -⟩ := hall q hq
        cases hy
    · by_cases hs : 2 ≤ s
      · have hl := half_lt hs
        have hp := half_pos s
        have hodd : nd lo s % 2 = 1 := by rw [nd_two hs]; omega
        obtain ⟨b0, hb0⟩ := List.exists_mem_of_ne_nil _ h1
        obtain ⟨f, rfl⟩ : ∃ f, fuel = f + 1 := ⟨fuel - 1, by omega⟩
        unfold batchCopathAux
        rw [if_neg h1, if_neg (fun e => by rw [e, List.mem_singleton] at hb0; have := (hR b0 (by rw [e, hb0]; simp)).2; omega),
          if_neg (List.ne_nil_of_mem ((hC b0).2 (Or.inl hb0))),
          if_neg (fun e => by
            have h2 := (hC b0).2 (Or.inl hb0)
            rw [e, List.mem_singleton] at h2; have := (hR b0 hb0).2; omega)]
        simp only [take_bs hsort, drop_bs hsort, take_bs hsortC, drop_bs hsortC]
        rw [left_nd h hs, G.ok_bind, G.ok_bind, right_nd h hs]
        by_cases hfull : s = 2 * half s
        · have hfs := fsList_full (lo := lo) (Or.inr hfull)
          have e1 : segC.filter (· < nd lo s) = seg.filter (· < nd lo s) := by
            apply List.Perm.eq_of_pairwise (le := (· < ·)) (fun a b _ _ h1 h2 => absurd h1 (by omega)) (hsortC.filter _) (hsort.filter _)
            rw [List.perm_ext_iff_of_nodup ((hsortC.filter _).imp (fun h => by omega)) ((hsort.filter _).imp (fun h => by omega))]
            intro y
            simp only [List.mem_filter, hC, hfs, List.map_cons, List.map_nil, List.mem_singleton, decide_eq_true_eq]
            constructor
            · rintro ⟨h | h, h'⟩
              · exact ⟨h, h'⟩
              · omega
            · rintro ⟨h, h'⟩; exact ⟨Or.inl h, h'⟩
          have e2 : segC.filter (nd lo s < ·) = seg.filter (nd lo s < ·) := by
            apply List.Perm.eq_of_pairwise (le := (· < ·)) (fun a b _ _ h1 h2 => absurd h1 (by omega)) (hsortC.filter _) (hsort.filter _)
            rw [List.perm_ext_iff_of_nodup ((hsortC.filter _).imp (fun h => by omega)) ((hsort.filter _).imp (fun h => by omega))]
            intro y
            simp only [List.mem_filter, hC, hfs, List.map_cons, List.map_nil, List.mem_singleton, decide_eq_true_eq]
            constructor
            · rintro ⟨h | h, h'⟩
              · exact ⟨h, h'⟩
              · omega
            · rintro ⟨h, h'⟩; exact ⟨Or.inl h, h'⟩
          rw [e1, e2]
          obtain ⟨a, ea, -⟩ := batchCopathAux_spec (n := n) (incl := []) (P := fun _ => True) (half s) lo f (seg.filter (· < nd lo s)) (h.left hs) (by omega) (hsort.filter _) (by
            intro y hy
            simp only [List.mem_filter, decide_eq_true_eq] at hy
            exact (inR_left hs).mpr ⟨(hR y hy.1).1, hy.2⟩) (by simp)
          obtain ⟨b, eb, -⟩ := batchCopathAux_spec (n := n) (incl := []) (P := fun _ => True) (s - half s) (lo + half s) f (seg.filter (nd lo s < ·)) (h.right hs) (by omega) (hsort.filter _) (by
            intro y hy
            simp only [List.mem_filter, decide_eq_true_eq] at hy
            exact (inR_right hs).mpr ⟨(hR y hy.1).1, hy.2⟩) (by simp)
          rw [ea, G.ok_bind, G.ok_bind, eb, G.ok_bind]
          refine ⟨_, _, rfl, rfl, le_refl _, ?_, fun _ => rfl⟩
          rintro ⟨q, hq, hn⟩
          rw [hfs, List.mem_singleton] at hq
          subst hq
          exact absurd (hR b0 hb0).1 (hn b0 hb0)
        · have hfs := fsList_step (lo := lo) (s := s) (by omega) hfull
          have hfl := fsList_full (lo := lo) (half_full s)
          have hRr : ∀ y ∈ (fsList (lo + half s) (s - half s)).map (fun p => nd p.1 p.2), InR lo s y ∧ nd lo s < y := by
            intro y hy
            obtain ⟨q, hq, rfl⟩ := List.mem_map.mp hy
            obtain ⟨a, b, c, d⟩ := Log.fsList_mem _ _ (h.right hs) q hq
            exact (inR_right hs).1 (inR_mono ⟨c, d⟩ (nd_inR a.pos))
          have hll := (inR_left hs).1 (nd_inR (lo := lo) hp)
          obtain ⟨a, c, ea, ec, hle, hlt, heq⟩ := ih (half s) hl lo f (seg.filter (· < nd lo s)) (segC.filter (· < nd lo s)) (h.left hs) (by omega)
            (hsort.filter _) (hsortC.filter _) (by
              intro y hy
              simp only [List.mem_filter, decide_eq_true_eq] at hy
              exact ⟨(inR_left hs).mpr ⟨(hR y hy.1).1, hy.2⟩, (hR y hy.1).2⟩) (by
              intro y
              simp only [List.mem_filter, hC, hfs, hfl, List.map_cons, List.map_nil, List.mem_cons, List.not_mem_nil, or_false, decide_eq_true_eq]
              constructor
              · rintro ⟨h | h | h, h'⟩
                · exact Or.inl ⟨h, h'⟩
                · exact Or.inr h
                · have := (hRr y h).2; omega
              · rintro (h | h)
                · exact ⟨Or.inl h.1, h.2⟩
                · exact ⟨Or.inr (Or.inl h), by rw [h]; exact hll.2⟩)
          obtain ⟨a', c', ea', ec', hle', hlt', heq'⟩ := ih (s - half s) (by omega) (lo + half s) f (seg.filter (nd lo s < ·)) (segC.filter (nd lo s < ·)) (h.right hs) (by omega)
            (hsort.filter _) (hsortC.filter _) (by
              intro y hy
              simp only [List.mem_filter, decide_eq_true_eq] at hy
              exact ⟨(inR_right hs).mpr ⟨(hR y hy.1).1, hy.2⟩, (hR y hy.1).2⟩) (by
              intro y
              simp only [List.mem_filter, hC, hfs, List.map_cons, List.mem_cons, decide_eq_true_eq]
              constructor
              · rintro ⟨h | h | h, h'⟩
                · exact Or.inl ⟨h, h'⟩
                · have := hll.2; omega
                · exact Or.inr h
              · rintro (h | h)
                · exact ⟨Or.inl h.1, h.2⟩
                · exact ⟨Or.inr (Or.inr h), (hRr y h).2⟩)
          rw [ea, ec, G.ok_bind, G.ok_bind, G.ok_bind, G.ok_bind, ea', ec', G.ok_bind, G.ok_bind]
          refine ⟨_, _, rfl, rfl, by simp only [List.length_append]; omega, ?_, ?_⟩
          · rintro ⟨q, hq, hn⟩
            simp only [List.length_append]
            rw [hfs] at hq
            rcases List.mem_cons.1 hq with hq | hq
            · have := hlt ⟨q, by rw [hfl, hq]; simp, fun y hy => hn y (List.mem_filter.1 hy).1⟩
              omega
            · have := hlt' ⟨q, hq, fun y hy => hn y (List.mem_filter.1 hy).1⟩
              omega
          · intro hall
            rw [hfs] at hall
            rw [heq ?_, heq' ?_]
            · intro q hq
              obtain ⟨y, hy, hr⟩ := hall q (List.mem_cons_of_mem _ hq)
              obtain ⟨-, -, c1, d1⟩ := Log.fsList_mem _ _ (h.right hs) q hq
              have := (inR_right hs).1 (inR_mono ⟨c1, d1⟩ hr)
              exact ⟨y, List.mem_filter.2 ⟨hy, by simpa using this.2⟩, hr⟩
            · intro q hq
              rw [hfl, List.mem_singleton] at hq
              subst hq
              obtain ⟨y, hy, hr⟩ := hall _ List.mem_cons_self
              have := (inR_left hs).1 hr
              exact ⟨y, List.mem_filter.2 ⟨hy, by simpa using this.2⟩, hr⟩
      · have hs1 : s = 1 := by omega
        subst hs1
        have hseg : seg = [nd lo 1] := by
          rw [nd_leaf]
          match seg, h1, hsort, hR with
          | [a], _, _, hR => rw [inR_one.mp (hR a (by simp)).1]
          | a :: b :: l, _, hsort, hR =>
            have e1 := inR_one.mp (hR a (by simp)).1
            have e2 := inR_one.mp (hR b (by simp)).1
            rw [List.pairwise_cons] at hsort
            have := hsort.1 b (by simp)
            omega
        have hm : nd lo 1 ∈ segC := (hC _).2 (Or.inl (by rw [hseg]; simp))
        have hsegC : segC = [nd lo 1] := by
          have h1 := List.ne_nil_of_mem hm
          rw [nd_leaf]
          match segC, h1, hsortC, hRC with
          | [a], _, _, hR => rw [inR_one.mp (hR a (by simp))]
          | a :: b :: l, _, hsort, hR =>
            have e1 := inR_one.mp (hR a (by simp))
            have e2 := inR_one.mp (hR b (by simp))
            rw [List.pairwise_cons] at hsort
            have := hsort.1 b (by simp)
            omega
        obtain ⟨f, rfl⟩ : ∃ f, fuel = f + 1 := ⟨fuel - 1, by omega⟩
        refine ⟨[], [], ?_, ?_, le_refl _, ?_, fun _ => rfl⟩
        · unfold batchCopathAux
          rw [if_neg h1, if_pos hseg]; simp
        · unfold batchCopathAux
          rw [if_neg (List.ne_nil_of_mem hm), if_pos hsegC]; simp
        · rintro ⟨q, hq, hn⟩
          rw [fsList_full (Or.inl (le_refl _)), List.mem_singleton] at hq
          subst hq
          exact absurd (nd_inR (by omega)) (hn (nd lo 1) (by rw [hseg]; simp))

end Katie.LogMath
