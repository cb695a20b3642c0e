import Verif.Lemmas.Log

/-
Batch copaths and proof evaluation.
-/

namespace Katie.LogMath
open Katie Katie.LogSpec

/-! ### sorted lists -/

theorem insertUniq_mem {a x : Nat} : ∀ {l : List Nat}, x ∈ sortDedup.insertUniq a l ↔ x = a ∨ x ∈ l := by
  intro l
  induction l with
  | nil => simp [sortDedup.insertUniq]
  | cons b l ih =>
    unfold sortDedup.insertUniq
    by_cases h1 : a < b
    · simp [h1]
    · by_cases h2 : a = b
      · subst h2; simp
      · simp only [h1, h2, if_false, List.mem_cons, ih]; tauto

theorem insertUniq_sorted {a : Nat} : ∀ {l : List Nat}, l.Pairwise (· < ·) → (sortDedup.insertUniq a l).Pairwise (· < ·) := by
  intro l
  induction l with
  | nil => intro _; simp [sortDedup.insertUniq]
  | cons b l ih =>
    intro h
    rw [List.pairwise_cons] at h
    unfold sortDedup.insertUniq
    by_cases h1 : a < b
    · rw [if_pos h1, List.pairwise_cons]
      refine ⟨?_, List.pairwise_cons.mpr h⟩
      intro c hc
      rcases List.mem_cons.mp hc with rfl | hc
      · exact h1
      · exact lt_trans h1 (h.1 c hc)
    · by_cases h2 : a = b
      · rw [if_neg h1, if_pos h2, List.pairwise_cons]; exact h
      · rw [if_neg h1, if_neg h2, List.pairwise_cons]
        refine ⟨?_, ih h.2⟩
        intro c hc
        rcases insertUniq_mem.mp hc with rfl | hc
        · omega
        · exact h.1 c hc

theorem sortDedup_mem {x : Nat} {l : List Nat} : x ∈ sortDedup l ↔ x ∈ l := by
  unfold sortDedup
  induction l with
  | nil => simp
  | cons a l ih => simp only [List.foldr_cons, insertUniq_mem, ih, List.mem_cons]

theorem sortDedup_sorted (l : List Nat) : (sortDedup l).Pairwise (· < ·) := by
  unfold sortDedup
  induction l with
  | nil => simp
  | cons a l ih => exact insertUniq_sorted ih

theorem takeWhile_lt {x : Nat} : ∀ {l : List Nat}, l.Pairwise (· < ·) →
    l.takeWhile (· < x) = l.filter (· < x) := by
  intro l
  induction l with
  | nil => intro _; rfl
  | cons a l ih =>
    intro h
    rw [List.pairwise_cons] at h
    by_cases ha : a < x
    · simp only [List.takeWhile_cons, List.filter_cons, ha, decide_true, if_true]
      rw [ih h.2]
    · simp only [List.takeWhile_cons, List.filter_cons, ha, decide_false]
      have : l.filter (· < x) = [] := by
        rw [List.filter_eq_nil_iff]
        intro b hb
        have := h.1 b hb
        simp; omega
      simp [this]

theorem take_bs {x : Nat} {l : List Nat} (h : l.Pairwise (· < ·)) :
    l.take (binarySearch l x).1 = l.filter (· < x) := by
  unfold binarySearch
  simp only
  rw [← takeWhile_lt h]
  exact List.prefix_iff_eq_take.mp (List.takeWhile_prefix _) |>.symm

theorem drop_bs {x : Nat} {l : List Nat} (h : l.Pairwise (· < ·)) :
    l.drop (if (binarySearch l x).2 then (binarySearch l x).1 + 1 else (binarySearch l x).1)
      = l.filter (x < ·) := by
  unfold binarySearch
  simp only
  induction l with
  | nil => simp
  | cons a l ih =>
    rw [List.pairwise_cons] at h
    have ih := ih h.2
    by_cases ha : a < x
    · have hax : ¬ x < a := by omega
      have hne : ¬ x = a := by omega
      have hc : (a :: l).contains x = l.contains x := by simp [hne]
      simp only [List.takeWhile_cons, ha, decide_true, if_true, List.length_cons, hc, List.filter_cons, hax,
        decide_false]
      rw [← ih]
      split <;> simp [List.drop_succ_cons]
    · simp only [List.takeWhile_cons, ha, decide_false, List.length_nil, List.filter_cons]
      have hall : ∀ b ∈ l, a < b := h.1
      by_cases hx : x = a
      · subst hx
        simp only [List.contains_cons, BEq.rfl, Bool.true_or, if_true, lt_irrefl, decide_false]
        simp
        exact (List.filter_eq_self.mpr (by intro b hb; simp [hall b hb])).symm
      · have hxa : x < a := by omega
        have hc : (a :: l).contains x = false := by
          simp only [List.contains_cons, Bool.or_eq_false_iff]
          refine ⟨by simp [hx], ?_⟩
          simp only [List.contains_eq_mem, decide_eq_false_iff_not]
          intro hm
          have := hall x hm
          omega
        simp only [hc, hxa, decide_true, if_true]
        have hfl : l.filter (x < ·) = l :=
          List.filter_eq_self.mpr (by intro b hb; simp [lt_trans hxa (hall b hb)])
        rw [hfl]
        simp

/-! ### ranges of node numbers -/

/-- `y` is the number of a node inside the subtree over `lo … lo+s-1` -/
def InR (lo s y : Nat) : Prop := 2 * lo ≤ y ∧ y < 2 * (lo + s) - 1

theorem nd_inR {lo s : Nat} (hs : 0 < s) : InR lo s (nd lo s) := ⟨nd_ge, nd_lt hs⟩

theorem inR_left {lo s y : Nat} (hs : 2 ≤ s) : InR lo (half s) y ↔ InR lo s y ∧ y < nd lo s := by
  unfold InR; rw [nd_two hs]; have := half_lt hs; have := half_pos s; omega

theorem inR_right {lo s y : Nat} (hs : 2 ≤ s) :
    InR (lo + half s) (s - half s) y ↔ InR lo s y ∧ nd lo s < y := by
  unfold InR; rw [nd_two hs]; have := half_lt hs; have := half_pos s; omega

theorem inR_one {lo y : Nat} : InR lo 1 y ↔ y = 2 * lo := by unfold InR; omega

theorem Sub.unique {n lo s lo' s' : Nat} (h : Sub n lo s) (h' : Sub n lo' s') (e : nd lo s = nd lo' s') :
    lo = lo' ∧ s = s' := by
  obtain ⟨i, hi, ei⟩ := h.idx
  obtain ⟨j, hj, ej⟩ := h'.idx
  rw [ei, ej] at e
  obtain ⟨e1, e2⟩ := idx_inj e
  have hlo : lo = lo' := by rw [hi, hj, e1, e2]
  refine ⟨hlo, ?_⟩
  have h1 := le_two_pow_ht s
  have h2 := le_two_pow_ht s'
  have := h.le
  have := h'.le
  rcases h.full with a | a <;> rcases h'.full with b | b
  · rw [a, b, e1]
  · rw [← e1] at h2; omega
  · rw [e1] at h1; omega
  · omega

/-- nested subtrees -/
theorem Sub.nested {n : Nat} : ∀ {s lo lo' s' : Nat}, Sub n lo s → Sub n lo' s' → InR lo s (nd lo' s') →
    lo ≤ lo' ∧ lo' + s' ≤ lo + s := by
  intro s
  induction s using Nat.strong_induction_on with
  | _ s ih =>
    intro lo lo' s' h h' hr
    by_cases h1 : s ≤ 1
    · have hp := h.pos
      have : s = 1 := by omega
      subst this
      rw [inR_one, ← nd_leaf] at hr
      obtain ⟨a, b⟩ := h'.unique h hr
      omega
    · have hs : 2 ≤ s := by omega
      have hl := half_lt hs
      have hp := half_pos s
      rcases Nat.lt_trichotomy (nd lo' s') (nd lo s) with hx | hx | hx
      · have := ih _ hl (h.left hs) h' ((inR_left hs).mpr ⟨hr, hx⟩); omega
      · obtain ⟨a, b⟩ := h'.unique h hx; omega
      · have := ih _ (by omega) (h.right hs) h' ((inR_right hs).mpr ⟨hr, hx⟩); omega

theorem inR_mono {lo s lo' s' y : Nat} (h : lo ≤ lo' ∧ lo' + s' ≤ lo + s) (hr : InR lo' s' y) : InR lo s y := by
  unfold InR at *; omega

/-- subtrees of a smaller log that are complete are subtrees of the larger log -/
theorem Sub.mono {n m lo s : Nat} (h : Sub m lo s) (hf : s = 2 ^ ht s) (hm : m ≤ n) : Sub n lo s :=
  ⟨h.pos, h.dvd, by have := h.le; omega, Or.inl hf⟩

theorem Sub.leaf {n x : Nat} (h : x < n) : Sub n x 1 := ⟨by omega, by simp [ht], by omega, Or.inl (by simp [ht])⟩

/-! ### coverage -/

/-- `S` (a set of node numbers) determines the value of the subtree `(lo, s)` -/
inductive Cov (S : Nat → Prop) : Nat → Nat → Prop
  | term {lo s : Nat} : S (nd lo s) → (∀ y, InR lo s y → S y → y = nd lo s) → Cov S lo s
  | node {lo s : Nat} : 2 ≤ s → Cov S lo (half s) → Cov S (lo + half s) (s - half s) → Cov S lo s

theorem Cov.congr {S S' : Nat → Prop} {lo s : Nat} (h : Cov S lo s) :
    0 < s → (∀ y, InR lo s y → (S y ↔ S' y)) → Cov S' lo s := by
  induction h with
  | term h1 h2 =>
    intro hs hc
    exact .term ((hc _ (nd_inR hs)).mp h1) (fun y hy hS => h2 y hy ((hc y hy).mpr hS))
  | node hs _ _ ih1 ih2 =>
    intro _ hc
    have := half_lt hs
    have hp := half_pos (by assumption)
    refine .node hs (ih1 hp ?_) (ih2 (by omega) ?_)
    · intro y hy; exact hc y ((inR_left hs).mp hy).1
    · intro y hy; exact hc y ((inR_right hs).mp hy).1

theorem Cov.nonempty {S : Nat → Prop} {lo s : Nat} (h : Cov S lo s) : 0 < s → ∃ y, InR lo s y ∧ S y := by
  induction h with
  | term h1 _ => intro hs; exact ⟨_, nd_inR hs, h1⟩
  | node hs _ _ ih1 _ =>
    intro _
    obtain ⟨y, hy, hS⟩ := ih1 (half_pos _)
    exact ⟨y, ((inR_left hs).mp hy).1, hS⟩

theorem cov_fs {n : Nat} {S : Nat → Prop} : ∀ (s lo : Nat), Sub n lo s →
    (∀ y, InR lo s y → (S y ↔ y ∈ (fsList lo s).map fun p => nd p.1 p.2)) → Cov S lo s := by
  intro s
  induction s using Nat.strong_induction_on with
  | _ s ih =>
    intro lo h hS
    by_cases hf : s = 2 ^ ht s
    · rw [Log.fsList_full hf] at hS
      refine .term ((hS _ (nd_inR h.pos)).mpr (by simp)) ?_
      intro y hy hSy
      simpa using (hS y hy).mp hSy
    · have h2 : 2 ≤ s := by
        by_contra hlt
        have := h.pos
        have : s = 1 := by omega
        subst this; simp [ht] at hf
      have hl := half_lt h2
      have hp := half_pos s
      rw [Log.fsList_part h2 hf] at hS
      have hR : ∀ y, y ∈ (fsList (lo + half s) (s - half s)).map (fun p => nd p.1 p.2) →
          InR (lo + half s) (s - half s) y := by
        intro y hy
        obtain ⟨q, hq, rfl⟩ := List.mem_map.mp hy
        obtain ⟨a, b, c, d⟩ := Log.fsList_mem _ _ (h.right h2) q hq
        exact inR_mono ⟨c, d⟩ (nd_inR a.pos)
      refine .node h2 (.term ?_ ?_) (ih _ (by omega) _ (h.right h2) ?_)
      · refine (hS _ ((inR_left h2).mp (nd_inR hp)).1).mpr (by simp)
      · intro y hy hSy
        have hy' := (inR_left h2).mp hy
        rcases List.mem_cons.mp ((hS y hy'.1).mp hSy) with h' | h'
        · exact h'
        · have := (inR_right h2).mp (hR y h'); omega
      · intro y hy
        have hy' := (inR_right h2).mp hy
        rw [hS y hy'.1, List.map_cons, List.mem_cons]
        constructor
        · rintro (h' | h')
          · subst h'
            have := (inR_left h2).mp (nd_inR (lo := lo) hp)
            simp only at hy'
            omega
          · exact h'
        · exact Or.inr

/-- `batchCopath` completes a set of nodes to one that determines the subtree.  `P` marks the nodes
whose values the verifier has from elsewhere; the others must be marked for inclusion. -/
theorem batchCopathAux_spec {n : Nat} {incl : List Nat} {P : Nat → Prop} : ∀ (s lo fuel : Nat) (seg : List Nat), Sub n lo s → s ≤ fuel →
    seg.Pairwise (· < ·) → (∀ y ∈ seg, InR lo s y) → (∀ y ∈ seg, incl.contains y = true ∨ P y) →
    ∃ cop, batchCopathAux fuel (nd lo s) n seg incl = .ok cop ∧
      (∀ y ∈ cop, InR lo s y) ∧
      (∀ y ∈ cop, y ∈ seg ∨ ∃ lo' s', Sub n lo' s' ∧ s' = 2 ^ ht s' ∧ nd lo' s' = y) ∧
      Cov (fun y => (y ∈ seg ∧ P y) ∨ y ∈ cop) lo s ∧
      (∀ lo' s', Sub n lo' s' → nd lo' s' ∈ seg → ∃ y, ((y ∈ seg ∧ P y) ∨ y ∈ cop) ∧ InR lo' s' y) := by
  intro s
  induction s using Nat.strong_induction_on with
  | _ s ih =>
    intro lo fuel seg h hf hsort hR hP
    have hpos := h.pos
    obtain ⟨f, rfl⟩ : ∃ f, fuel = f + 1 := ⟨fuel - 1, by omega⟩
    unfold batchCopathAux
    by_cases h1 : seg = []
    · subst h1
      rw [if_pos rfl, fullSubtrees_eq h]
      refine ⟨_, rfl, ?_, ?_, cov_fs s lo h (by simp), by simp⟩
      · intro y hy
        obtain ⟨q, hq, rfl⟩ := List.mem_map.mp hy
        obtain ⟨a, b, c, d⟩ := Log.fsList_mem _ _ h q hq
        exact inR_mono ⟨c, d⟩ (nd_inR a.pos)
      · intro y hy
        obtain ⟨q, hq, rfl⟩ := List.mem_map.mp hy
        obtain ⟨a, b, c, d⟩ := Log.fsList_mem _ _ h q hq
        exact Or.inr ⟨_, _, a, b, rfl⟩
    · rw [if_neg h1]
      by_cases h2 : seg = [nd lo s]
      · subst h2
        rw [if_pos rfl]
        by_cases hi : incl.contains (nd lo s) = true
        · rw [if_pos hi]
          refine ⟨_, rfl, ?_, ?_, .term (by simp) ?_, ?_⟩
          · intro y hy; simp at hy; subst hy; exact nd_inR hpos
          · intro y hy; exact Or.inl hy
          · intro y _ hy; simp at hy; tauto
          · intro lo' s' hs' hm
            rw [List.mem_singleton] at hm
            obtain ⟨rfl, rfl⟩ := hs'.unique h hm
            exact ⟨_, Or.inr (by simp), nd_inR hpos⟩
        · rw [if_neg hi]
          have hPx : P (nd lo s) := (hP _ (by simp)).resolve_left hi
          refine ⟨_, rfl, by simp, by simp, .term (by simp [hPx]) ?_, ?_⟩
          · intro y _ hy; simp at hy; exact hy.1
          · intro lo' s' hs' hm
            rw [List.mem_singleton] at hm
            obtain ⟨rfl, rfl⟩ := hs'.unique h hm
            exact ⟨_, Or.inl ⟨by simp, hPx⟩, nd_inR hpos⟩
      · rw [if_neg h2]
        have hs : 2 ≤ s := by
          by_contra hlt
          have hs1 : s = 1 := by omega
          subst hs1
          apply h2
          rw [nd_leaf]
          match seg, h1, hsort, hR with
          | [a], _, _, hR => have := inR_one.mp (hR a (by simp)); rw [this]
          | a :: b :: l, _, hsort, hR =>
            have e1 := inR_one.mp (hR a (by simp))
            have e2 := inR_one.mp (hR b (by simp))
            rw [List.pairwise_cons] at hsort
            have := hsort.1 b (by simp)
            omega
        have hl := half_lt hs
        have hp := half_pos s
        simp only [take_bs hsort, drop_bs hsort]
        rw [left_nd h hs, G.ok_bind, right_nd h hs]
        obtain ⟨a, ea, a1, a2, a3, a4⟩ := ih (half s) hl lo f (seg.filter (· < nd lo s)) (h.left hs) (by omega)
          (hsort.filter _) (by
            intro y hy
            simp only [List.mem_filter, decide_eq_true_eq] at hy
            exact (inR_left hs).mpr ⟨hR y hy.1, hy.2⟩) (fun y hy => hP y (List.mem_filter.mp hy).1)
        obtain ⟨b, eb, b1, b2, b3, b4⟩ := ih (s - half s) (by omega) (lo + half s) f (seg.filter (nd lo s < ·)) (h.right hs) (by omega)
          (hsort.filter _) (by
            intro y hy
            simp only [List.mem_filter, decide_eq_true_eq] at hy
            exact (inR_right hs).mpr ⟨hR y hy.1, hy.2⟩) (fun y hy => hP y (List.mem_filter.mp hy).1)
        rw [ea, G.ok_bind, G.ok_bind, eb, G.ok_bind]
        have cl : Cov (fun y => (y ∈ seg ∧ P y) ∨ y ∈ a ++ b) lo (half s) := by
          refine a3.congr hp ?_
          intro y hy
          have hy' := (inR_left hs).mp hy
          simp only [List.mem_filter, decide_eq_true_eq, List.mem_append]
          constructor
          · rintro (h' | h')
            · exact Or.inl ⟨h'.1.1, h'.2⟩
            · exact Or.inr (Or.inl h')
          · rintro (h' | h' | h')
            · exact Or.inl ⟨⟨h'.1, hy'.2⟩, h'.2⟩
            · exact Or.inr h'
            · have := (inR_right hs).mp (b1 y h'); omega
        refine ⟨a ++ b, rfl, ?_, ?_, .node hs cl (b3.congr (by omega) ?_), ?_⟩
        · intro y hy
          rcases List.mem_append.mp hy with hy | hy
          · exact ((inR_left hs).mp (a1 y hy)).1
          · exact ((inR_right hs).mp (b1 y hy)).1
        · intro y hy
          rcases List.mem_append.mp hy with hy | hy
          · rcases a2 y hy with h' | h'
            · exact Or.inl (List.mem_filter.mp h').1
            · exact Or.inr h'
          · rcases b2 y hy with h' | h'
            · exact Or.inl (List.mem_filter.mp h').1
            · exact Or.inr h'
        · intro y hy
          have hy' := (inR_right hs).mp hy
          simp only [List.mem_filter, decide_eq_true_eq, List.mem_append]
          constructor
          · rintro (h' | h')
            · exact Or.inl ⟨h'.1.1, h'.2⟩
            · exact Or.inr (Or.inr h')
          · rintro (h' | h' | h')
            · exact Or.inl ⟨⟨h'.1, hy'.2⟩, h'.2⟩
            · have := (inR_left hs).mp (a1 y h'); omega
            · exact Or.inr h'
        · intro lo' s' hs' hm
          rcases Nat.lt_trichotomy (nd lo' s') (nd lo s) with hx | hx | hx
          · obtain ⟨y, hy, hr⟩ := a4 lo' s' hs' (List.mem_filter.mpr ⟨hm, by simpa using hx⟩)
            refine ⟨y, ?_, hr⟩
            rcases hy with hy | hy
            · exact Or.inl ⟨(List.mem_filter.mp hy.1).1, hy.2⟩
            · exact Or.inr (List.mem_append_left _ hy)
          · obtain ⟨rfl, rfl⟩ := hs'.unique h hx
            obtain ⟨y, hy, hS⟩ := cl.nonempty hp
            exact ⟨y, hS, ((inR_left hs).mp hy).1⟩
          · obtain ⟨y, hy, hr⟩ := b4 lo' s' hs' (List.mem_filter.mpr ⟨hm, by simpa using hx⟩)
            refine ⟨y, ?_, hr⟩
            rcases hy with hy | hy
            · exact Or.inl ⟨(List.mem_filter.mp hy.1).1, hy.2⟩
            · exact Or.inr (List.mem_append_right _ hy)

/-- all nodes of the set are complete subtrees -/
def AllFull (n : Nat) (S : Nat → Prop) : Prop :=
  ∀ y, S y → ∃ lo' s', Sub n lo' s' ∧ s' = 2 ^ ht s' ∧ nd lo' s' = y

theorem fs_full_nodes {k n : Nat} (hk : 0 < k) (hkn : k ≤ n) :
    ∃ l, fullSubtrees (root k) k = .ok l ∧ l = (fsList 0 k).map (fun p => nd p.1 p.2) ∧
      ∀ y ∈ l, InR 0 n y ∧ ∃ lo' s', Sub n lo' s' ∧ s' = 2 ^ ht s' ∧ nd lo' s' = y := by
  have hs := Sub.root (n := k) hk
  refine ⟨_, by rw [root_eq hk, fullSubtrees_eq hs], rfl, ?_⟩
  intro y hy
  obtain ⟨q, hq, rfl⟩ := List.mem_map.mp hy
  obtain ⟨a, b, c, d⟩ := Log.fsList_mem _ _ hs q hq
  refine ⟨?_, _, _, a.mono b hkn, b, rfl⟩
  exact inR_mono (lo := 0) (s := n) ⟨by omega, by omega⟩ (nd_inR a.pos)

/-- nodes whose values the verifier of a batch proof already has -/
def given (leaves : List Nat) (m : Option Nat) (y : Nat) : Prop :=
  y ∈ leaves.map (2 * ·) ∨ (∃ k, m = some k ∧ y ∈ (fsList 0 k).map fun p => nd p.1 p.2)

theorem batchCopath_spec {n : Nat} {leaves : List Nat} {nP m : Option Nat} (hn : 0 < n)
    (hl : ∀ x ∈ leaves, x < n) (hnP : ∀ k, nP = some k → 0 < k ∧ k ≤ n) (hm : ∀ k, m = some k → 0 < k ∧ k ≤ n) :
    ∃ cop, batchCopath leaves n nP m = .ok cop ∧
      (∀ y, given leaves m y ∨ y ∈ cop → InR 0 n y) ∧
      AllFull n (fun y => given leaves m y ∨ y ∈ cop) ∧
      Cov (fun y => given leaves m y ∨ y ∈ cop) 0 n ∧
      (∀ k, nP = some k → ∀ p ∈ fsList 0 k, ∃ y, (given leaves m y ∨ y ∈ cop) ∧ InR p.1 p.2 y) := by
  obtain ⟨fp, efp, wp⟩ : ∃ fp, (match nP with | none => pure [] | some k => fullSubtrees (root k) k : G (List Nat)) = .ok fp ∧
      (∀ y, y ∈ fp ↔ ∃ k, nP = some k ∧ y ∈ (fsList 0 k).map fun p => nd p.1 p.2) := by
    match nP with
    | none => exact ⟨[], rfl, by simp⟩
    | some k =>
      obtain ⟨l, e1, e2, _⟩ := fs_full_nodes (n := n) (hnP k rfl).1 (hnP k rfl).2
      exact ⟨l, e1, by simp [e2]⟩
  obtain ⟨fm, efm, wm⟩ : ∃ fm, (match m with | none => pure [] | some k => fullSubtrees (root k) k : G (List Nat)) = .ok fm ∧
      (∀ y, y ∈ fm ↔ ∃ k, m = some k ∧ y ∈ (fsList 0 k).map fun p => nd p.1 p.2) := by
    match m with
    | none => exact ⟨[], rfl, by simp⟩
    | some k =>
      obtain ⟨l, e1, e2, _⟩ := fs_full_nodes (n := n) (hm k rfl).1 (hm k rfl).2
      exact ⟨l, e1, by simp [e2]⟩
  have hw : ∀ y, y ∈ sortDedup (leaves.map (2 * ·) ++ fp ++ fm) ↔ given leaves m y ∨ y ∈ fp := by
    intro y
    rw [sortDedup_mem, List.mem_append, List.mem_append, wm]
    unfold given; exact or_right_comm
  have hfull : ∀ y, given leaves m y ∨ y ∈ fp → InR 0 n y ∧ ∃ lo' s', Sub n lo' s' ∧ s' = 2 ^ ht s' ∧ nd lo' s' = y := by
    rintro y ((h | ⟨k, hk, h⟩) | h)
    · obtain ⟨x, hx, rfl⟩ := List.mem_map.mp h
      have := hl x hx
      refine ⟨⟨by omega, by simp; omega⟩, x, 1, Sub.leaf this, by simp [ht], nd_leaf x⟩
    · obtain ⟨l, _, e2, e3⟩ := fs_full_nodes (n := n) (hm k hk).1 (hm k hk).2
      exact e3 y (by rw [e2]; exact h)
    · obtain ⟨k, hk, h⟩ := (wp y).mp h
      obtain ⟨l, _, e2, e3⟩ := fs_full_nodes (n := n) (hnP k hk).1 (hnP k hk).2
      exact e3 y (by rw [e2]; exact h)
  obtain ⟨cop, ec, c1, c2, c3, c4⟩ := batchCopathAux_spec (n := n) (incl := fp) (P := given leaves m) n 0 (2 * n + 2)
    (sortDedup (leaves.map (2 * ·) ++ fp ++ fm)) (Sub.root hn) (by omega) (sortDedup_sorted _)
    (fun y hy => (hfull y ((hw y).mp hy)).1)
    (fun y hy => by
      rcases (hw y).mp hy with h | h
      · exact Or.inr h
      · exact Or.inl (by simpa using h))
  have hcov : ∀ y, ((y ∈ sortDedup (leaves.map (2 * ·) ++ fp ++ fm) ∧ given leaves m y) ∨ y ∈ cop) ↔
      (given leaves m y ∨ y ∈ cop) := by
    intro y; rw [hw]; tauto
  refine ⟨cop, ?_, ?_, ?_, c3.congr hn (fun y _ => hcov y), ?_⟩
  · unfold batchCopath
    rw [← root_eq hn] at ec
    cases nP <;> cases m <;> simp only [] at efp efm ⊢ <;> simp only [efp, efm, G.ok_bind] <;> first | exact ec | (cases efp; cases efm; exact ec)
  · rintro y (h | h)
    · exact (hfull y (Or.inl h)).1
    · exact c1 y h
  · rintro y (h | h)
    · exact (hfull y (Or.inl h)).2
    · rcases c2 y h with h' | h'
      · exact (hfull y ((hw y).mp h')).2
      · exact h'
  · intro k hk p hp
    obtain ⟨a, b, c, d⟩ := Log.fsList_mem _ _ (Sub.root (hnP k hk).1) p hp
    obtain ⟨y, hy, hr⟩ := c4 p.1 p.2 (a.mono b (hnP k hk).2) ((hw _).mpr (Or.inr ((wp _).mpr ⟨k, hk, List.mem_map.mpr ⟨p, hp, rfl⟩⟩)))
    exact ⟨y, (hcov y).mp hy, hr⟩

end Katie.LogMath
