import Verif.Model.LogMath
import Verif.Spec.LogTree
import Mathlib.Tactic.Ring
import Mathlib.Tactic.Linarith
import Mathlib.Data.Nat.Bitwise
import Mathlib.Data.Nat.Log

/-
Arithmetic of the log tree node numbers.
A node is a pair (level `K`, index `i`) with number `idx K i = 2^(K+1) * i + (2^K - 1)`.
-/

namespace Katie.LogMath
open Katie Katie.LogSpec

/-- number of the `i`-th node of level `K` -/
def idx (K i : Nat) : Nat := 2 ^ (K + 1) * i + (2 ^ K - 1)

theorem idx_testBit (K i j : Nat) :
    (idx K i).testBit j = if j < K then true else if j = K then false else i.testBit (j - (K + 1)) := by
  unfold idx
  have h : 2 ^ K - 1 < 2 ^ (K + 1) := by
    have : 2 ^ K < 2 ^ (K + 1) := Nat.pow_lt_pow_right (by norm_num) (by omega)
    omega
  rw [Nat.testBit_two_pow_mul_add _ h, Nat.testBit_two_pow_sub_one]
  by_cases h1 : j < K
  · simp [h1, Nat.lt_succ_of_lt h1]
  · by_cases h2 : j = K
    · simp [h2]
    · have : ¬ j < K + 1 := by omega
      simp [h1, h2, this]

theorem shiftAnd_eq_one (x k : Nat) : ((x >>> k) &&& 1 = 1) ↔ x.testBit k = true := by
  rw [Nat.testBit, Nat.one_and_eq_mod_two, Nat.and_one_is_mod]
  rcases Nat.mod_two_eq_zero_or_one (x >>> k) with h | h <;> simp [h]

theorem levelLoop_eq (x K : Nat) (hbit : ∀ j < K, x.testBit j = true) (hK : x.testBit K = false) :
    ∀ fuel k, k ≤ K → K < k + fuel → levelLoop fuel x k = K := by
  intro fuel
  induction fuel with
  | zero => intro k h1 h2; omega
  | succ f ih =>
    intro k h1 h2
    unfold levelLoop
    rw [if_congr (shiftAnd_eq_one x k) rfl rfl]
    by_cases hk : k = K
    · subst hk; simp [hK]
    · rw [hbit k (by omega)]
      simp only [if_true]
      exact ih (k+1) (by omega) (by omega)

theorem lt_idx (K i : Nat) : K < idx K i + 1 := by
  have : K < 2 ^ K := Nat.lt_two_pow_self
  unfold idx; omega

theorem isLeaf_iff (x : Nat) : isLeaf x = true ↔ x % 2 = 0 := by
  simp [isLeaf, Nat.and_one_is_mod]

theorem level_idx (K i : Nat) : level (idx K i) = K := by
  have hb : ∀ j < K, (idx K i).testBit j = true := by intro j hj; rw [idx_testBit]; simp [hj]
  have hK : (idx K i).testBit K = false := by rw [idx_testBit]; simp
  unfold level
  split
  · next h =>
    rw [isLeaf_iff] at h
    by_contra hne
    have := hb 0 (by omega)
    rw [Nat.testBit_zero] at this
    simp at this; omega
  · exact levelLoop_eq _ K hb hK _ 0 (by omega) (by have := lt_idx K i; omega)

/-- every number is a node number -/
theorem exists_idx (x : Nat) : ∃ K i, x = idx K i := by
  induction x using Nat.strong_induction_on with
  | _ x ih =>
    rcases Nat.even_or_odd' x with ⟨c, h | h⟩
    · exact ⟨0, c, by simp [idx, h]⟩
    · obtain ⟨K, i, hc⟩ := ih c (by omega)
      refine ⟨K+1, i, ?_⟩
      have : 1 ≤ 2 ^ K := Nat.one_le_two_pow
      subst hc h
      unfold idx
      rw [pow_succ 2 (K+1), pow_succ 2 K]
      have e : 2 ^ K * 2 * 2 * i = 2 * (2 ^ K * 2 * i) := by ring
      omega

theorem idx_inj {K i K' i' : Nat} (h : idx K i = idx K' i') : K = K' ∧ i = i' := by
  have hK : K = K' := by rw [← level_idx K i, ← level_idx K' i', h]
  subst hK
  refine ⟨rfl, ?_⟩
  unfold idx at h
  have : 2 ^ (K+1) * i = 2 ^ (K+1) * i' := by omega
  exact Nat.eq_of_mul_eq_mul_left (Nat.two_pow_pos _) this

theorem left_idx (K i : Nat) : left (idx (K+1) i) = .ok (idx K (2*i)) := by
  unfold left
  simp only [level_idx]
  rw [if_neg (by omega)]
  simp only [G.pure_eq, Except.ok.injEq, Nat.add_sub_cancel]
  apply Nat.eq_of_testBit_eq
  intro j
  rw [Nat.testBit_xor, idx_testBit, idx_testBit, Nat.one_shiftLeft, Nat.testBit_two_pow]
  by_cases h1 : j < K
  · have : ¬ K = j := by omega
    simp [h1, Nat.lt_succ_of_lt h1, this]
  · by_cases h2 : j = K
    · subst h2; simp
    · have h3 : ¬ j < K + 1 := by omega
      have h4 : ¬ K = j := by omega
      simp only [h1, h2, h3, h4, if_false, decide_false, Bool.xor_false]
      by_cases h5 : j = K + 1
      · subst h5; simp
      · rw [if_neg h5]
        have : j - (K+1) = (j - (K + 1 + 1)) + 1 := by omega
        rw [this, Nat.testBit_succ]
        simp

theorem left_leaf (i : Nat) : left (idx 0 i) = goPanic "leaf node has no children" := by
  unfold left; simp [level_idx]

theorem three_shiftLeft_testBit (K j : Nat) :
    (3 <<< K).testBit j = (decide (j = K) || decide (j = K+1)) := by
  rw [Nat.testBit_shiftLeft]
  by_cases h1 : j < K
  · have : ¬ j = K := by omega
    have : ¬ j = K+1 := by omega
    simp [*]
  · obtain ⟨d, rfl⟩ : ∃ d, j = K + d := ⟨j - K, by omega⟩
    have : K + d - K = d := by omega
    rw [this]
    match d with
    | 0 => simp
    | 1 => simp; decide
    | d + 2 =>
      have : Nat.testBit 3 (d+2) = false := by
        apply Nat.testBit_lt_two_pow
        calc 3 < 2^2 := by norm_num
          _ ≤ 2 ^ (d+2) := Nat.pow_le_pow_right (by norm_num) (by omega)
      simp [this]

theorem rightStep_idx (K i : Nat) : rightStep (idx (K+1) i) = .ok (idx K (2*i+1)) := by
  unfold rightStep
  simp only [level_idx]
  rw [if_neg (by omega)]
  simp only [G.pure_eq, Except.ok.injEq, Nat.add_sub_cancel]
  apply Nat.eq_of_testBit_eq
  intro j
  rw [Nat.testBit_xor, idx_testBit, idx_testBit, three_shiftLeft_testBit]
  by_cases h1 : j < K
  · have : ¬ j = K := by omega
    have : ¬ j = K+1 := by omega
    simp [*, Nat.lt_succ_of_lt h1]
  · by_cases h2 : j = K
    · subst h2; simp
    · have h3 : ¬ j < K + 1 := by omega
      simp only [h1, h2, h3, if_false, decide_false, Bool.false_or]
      by_cases h5 : j = K + 1
      · subst h5; simp
      · simp only [h5, if_false, decide_false, Bool.xor_false]
        have : j - (K+1) = (j - (K + 1 + 1)) + 1 := by omega
        rw [this, Nat.testBit_succ]
        congr 1
        omega

theorem parentStep_idx (K i : Nat) : parentStep (idx K i) = idx (K+1) (i/2) := by
  unfold parentStep
  simp only [level_idx]
  apply Nat.eq_of_testBit_eq
  intro j
  rw [Nat.testBit_xor, Nat.testBit_or, Nat.one_shiftLeft, Nat.testBit_two_pow, idx_testBit, idx_testBit,
    Nat.testBit_shiftLeft]
  have hb : ((idx K i) >>> (K+1)) &&& 1 = i % 2 := by
    rw [Nat.and_one_is_mod]
    congr 1
    apply Nat.eq_of_testBit_eq
    intro j
    rw [Nat.testBit_shiftRight, idx_testBit]
    have h1 : ¬ K + 1 + j < K := by omega
    have h2 : ¬ K + 1 + j = K := by omega
    simp [h1, h2]
  rw [hb]
  by_cases h1 : j < K
  · have : ¬ K = j := by omega
    have : ¬ K + 1 ≤ j := by omega
    simp [*, Nat.lt_succ_of_lt h1]
  · by_cases h2 : j = K
    · subst h2; simp
    · have h3 : ¬ j < K + 1 := by omega
      have h4 : ¬ K = j := by omega
      have h6 : K + 1 ≤ j := by omega
      simp only [h1, h2, h3, h4, h6, ge_iff_le, if_false, decide_false, Bool.or_false, decide_true, Bool.true_and]
      by_cases h5 : j = K + 1
      · subst h5
        simp [Nat.testBit_zero]
      · rw [if_neg h5]
        have e : j - (K+1) = (j - (K + 1 + 1)) + 1 := by omega
        rw [e, Nat.testBit_succ, Nat.testBit_succ]
        have : i % 2 / 2 = 0 := by omega
        rw [this]; simp

theorem shiftRight_pos (x k : Nat) : x >>> k > 0 ↔ 2 ^ k ≤ x := by
  rw [Nat.shiftRight_eq_div_pow, gt_iff_lt, Nat.div_pos_iff]
  simp [Nat.two_pow_pos]

theorem log2Loop_eq (x K : Nat) (h1 : 2 ^ K ≤ x) (h2 : x < 2 ^ (K+1)) :
    ∀ fuel k, k ≤ K + 1 → K + 1 < k + fuel → log2Loop fuel x k = K + 1 := by
  intro fuel
  induction fuel with
  | zero => intro k h1 h2; omega
  | succ f ih =>
    intro k hk hf
    unfold log2Loop
    rw [if_congr (shiftRight_pos x k) rfl rfl]
    by_cases hk' : k = K + 1
    · subst hk'; rw [if_neg (by omega)]
    · rw [if_pos]
      · exact ih (k+1) (by omega) (by omega)
      · calc 2 ^ k ≤ 2 ^ K := Nat.pow_le_pow_right (by norm_num) (by omega)
          _ ≤ x := h1

theorem log2_eq {x K : Nat} (h1 : 2 ^ K ≤ x) (h2 : x < 2 ^ (K+1)) : log2 x = K := by
  have : 0 < 2 ^ K := Nat.two_pow_pos _
  have h3 : K < 2 ^ K := Nat.lt_two_pow_self
  unfold log2
  rw [if_neg (by omega), log2Loop_eq x K h1 h2 _ 0 (by omega) (by omega)]
  omega

/-- level of that node -/
def ht (s : Nat) : Nat := if s ≤ 1 then 0 else Nat.log2 (s - 1) + 1

theorem half_eq {s : Nat} (hs : 2 ≤ s) : half s = 2 ^ (ht s - 1) := by
  unfold half ht; rw [if_neg (by omega)]; simp

theorem two_half_eq {s : Nat} (hs : 2 ≤ s) : 2 * half s = 2 ^ ht s := by
  unfold half ht; rw [if_neg (by omega), pow_succ]; ring

theorem ht_pos {s : Nat} (hs : 2 ≤ s) : 0 < ht s := by
  unfold ht; rw [if_neg (by omega)]; omega

theorem le_two_pow_ht (s : Nat) : s ≤ 2 ^ ht s := by
  by_cases hs : s ≤ 1
  · have : 1 ≤ 2 ^ ht s := Nat.one_le_two_pow
    omega
  · rw [← two_half_eq (by omega)]; exact (half_spec (by omega)).2.2

theorem two_pow_ht_lt {s : Nat} (hs : 0 < s) : 2 ^ ht s < 2 * s := by
  by_cases h : s ≤ 1
  · have : s = 1 := by omega
    subst this; simp [ht]
  · rw [← two_half_eq (by omega)]; have := half_lt (s := s) (by omega); omega

/-- `ht` is characterised by `2^K < 2 s ≤ 2^(K+1)` -/
theorem ht_unique {s K : Nat} (h1 : s ≤ 2 ^ K) (h2 : 2 ^ K < 2 * s) : ht s = K := by
  have a := le_two_pow_ht s
  have b := two_pow_ht_lt (s := s) (by have := Nat.two_pow_pos K; omega)
  by_contra hne
  rcases Nat.lt_or_gt_of_ne hne with h | h
  · have : 2 ^ (ht s + 1) ≤ 2 ^ K := Nat.pow_le_pow_right (by norm_num) h
    rw [pow_succ] at this; omega
  · have : 2 ^ (K + 1) ≤ 2 ^ ht s := Nat.pow_le_pow_right (by norm_num) h
    rw [pow_succ] at this; omega

theorem ht_two_pow (K : Nat) : ht (2 ^ K) = K :=
  ht_unique (le_refl _) (by have := Nat.two_pow_pos K; omega)

theorem half_two_pow (K : Nat) : half (2 ^ (K+1)) = 2 ^ K := by
  have h : 2 ≤ 2 ^ (K+1) := by
    rw [pow_succ]; have := Nat.one_le_two_pow (n := K); omega
  rw [half_eq h, ht_two_pow]; simp

theorem nd_eq_idx {lo s : Nat} (i : Nat) (hlo : lo = 2 ^ ht s * i) : nd lo s = idx (ht s) i := by
  unfold nd idx
  by_cases hs : s ≤ 1
  · rw [if_pos hs]; subst hlo; simp [ht, hs]
  · rw [if_neg hs]
    have h2 := two_half_eq (s := s) (by omega)
    have h3 := half_pos s
    rw [pow_succ, ← h2]
    rw [← h2] at hlo
    subst hlo
    have : 2 * half s * 2 * i = 2 * (2 * half s * i) := by ring
    omega

/-- `(lo, s)` is a subtree of the left-balanced tree with `n` leaves (superset of it). -/
structure Sub (n lo s : Nat) : Prop where
  pos : 0 < s
  dvd : 2 ^ ht s ∣ lo
  le : lo + s ≤ n
  full : s = 2 ^ ht s ∨ lo + s = n

theorem Sub.root {n : Nat} (hn : 0 < n) : Sub n 0 n := ⟨hn, by simp, by omega, by right; omega⟩

theorem Sub.left {n lo s : Nat} (h : Sub n lo s) (hs : 2 ≤ s) : Sub n lo (half s) := by
  have e := half_eq hs
  have hl := half_lt hs
  refine ⟨half_pos s, ?_, by have := h.le; omega, ?_⟩
  · rw [e, ht_two_pow]
    exact dvd_trans (pow_dvd_pow _ (by omega)) h.dvd
  · left; rw [e, ht_two_pow]

theorem ht_le_of_le {s K : Nat} (h : s ≤ 2 ^ K) : ht s ≤ K := by
  by_contra hlt
  have hs : 0 < s := by
    by_contra h0
    have : s = 0 := by omega
    subst this; simp [ht] at hlt
  have := two_pow_ht_lt hs
  have h2 : 2 ^ (K+1) ≤ 2 ^ ht s := Nat.pow_le_pow_right (by norm_num) (by omega)
  rw [pow_succ] at h2; omega

theorem Sub.right {n lo s : Nat} (h : Sub n lo s) (hs : 2 ≤ s) : Sub n (lo + half s) (s - half s) := by
  have e := half_eq hs
  have hl := half_lt hs
  have h2 := two_half_eq hs
  have hsp := (half_spec hs).2.2
  refine ⟨by omega, ?_, by have := h.le; omega, ?_⟩
  · have hle : ht (s - half s) ≤ ht s - 1 := ht_le_of_le (by rw [← e]; omega)
    apply Nat.dvd_add
    · exact dvd_trans (pow_dvd_pow _ (by omega)) h.dvd
    · conv_rhs => rw [e]
      exact pow_dvd_pow _ hle
  · rcases h.full with hf | hf
    · left
      have : s - half s = 2 ^ (ht s - 1) := by omega
      rw [this, ht_two_pow]
    · right; omega

theorem Sub.idx {n lo s : Nat} (h : Sub n lo s) : ∃ i, lo = 2 ^ ht s * i ∧ nd lo s = LogMath.idx (ht s) i := by
  obtain ⟨i, hi⟩ := h.dvd
  exact ⟨i, hi, nd_eq_idx i hi⟩

theorem nd_leaf (lo : Nat) : nd lo 1 = 2 * lo := by simp [nd]

theorem nd_two {lo s : Nat} (hs : 2 ≤ s) : nd lo s = 2 * (lo + half s) - 1 := by
  unfold nd; rw [if_neg (by omega)]

theorem level_nd {n lo s : Nat} (h : Sub n lo s) : level (nd lo s) = ht s := by
  obtain ⟨i, _, e⟩ := h.idx
  rw [e, level_idx]

theorem left_nd {n lo s : Nat} (h : Sub n lo s) (hs : 2 ≤ s) : left (nd lo s) = .ok (nd lo (half s)) := by
  obtain ⟨i, hi, e⟩ := h.idx
  obtain ⟨j, hj, e'⟩ := (h.left hs).idx
  have hp := ht_pos hs
  obtain ⟨K, hK⟩ : ∃ K, ht s = K + 1 := ⟨ht s - 1, by omega⟩
  have hh : ht (half s) = K := by rw [half_eq hs, ht_two_pow, hK]; simp
  rw [e, e', hK, left_idx, hh]
  rw [hK] at hi; rw [hh] at hj
  have : 2 ^ K * j = 2 ^ K * (2 * i) := by rw [← hj, hi, pow_succ]; ring
  rw [Nat.eq_of_mul_eq_mul_left (Nat.two_pow_pos _) this]

theorem nodeWidth_eq {n : Nat} (hn : 0 < n) : nodeWidth n = 2 * n - 1 := by
  unfold nodeWidth; rw [if_neg (by omega)]; omega

/-- the descent loop of `Right` finds the node covering the remaining `t` leaves -/
theorem rightLoop_eq {n : Nat} : ∀ (K fuel lo t : Nat), 0 < t → t ≤ 2 ^ K → 2 ^ K ∣ lo → lo + t ≤ n →
    (t = 2 ^ K ∨ lo + t = n) → K < fuel →
    rightLoop fuel (2 * lo + 2 ^ K - 1) (nodeWidth n) = .ok (nd lo t) := by
  intro K
  induction K with
  | zero =>
    intro fuel lo t h0 h1 h2 h3 h4 hf
    obtain ⟨f, rfl⟩ : ∃ f, fuel = f + 1 := ⟨fuel - 1, by omega⟩
    have ht1 : t = 1 := by simp at h1; omega
    subst ht1
    unfold rightLoop
    rw [nodeWidth_eq (by omega), if_neg (by simp; omega)]
    simp [nd]
  | succ K ih =>
    intro fuel lo t h0 h1 h2 h3 h4 hf
    obtain ⟨f, rfl⟩ : ∃ f, fuel = f + 1 := ⟨fuel - 1, by omega⟩
    unfold rightLoop
    rw [nodeWidth_eq (by omega)]
    have hpp := Nat.two_pow_pos K
    have hps : 2 ^ (K+1) = 2 * 2 ^ K := by rw [pow_succ]; ring
    by_cases hge : 2 * lo + 2 ^ (K+1) - 1 ≥ 2 * n - 1
    · rw [if_pos hge]
      obtain ⟨i, hi⟩ := h2
      have hx : 2 * lo + 2 ^ (K+1) - 1 = idx (K+1) i := by
        unfold idx
        rw [pow_succ 2 (K+1), hi]
        have : 2 ^ (K+1) * 2 * i = 2 * (2 ^ (K+1) * i) := by ring
        omega
      rw [hx, left_idx, G.ok_bind]
      have hx' : idx K (2*i) = 2 * lo + 2 ^ K - 1 := by
        unfold idx
        rw [hi]
        have : 2 ^ (K+1) * (2 * i) = 2 * (2 ^ (K+1) * i) := by ring
        omega
      rw [hx', ← nodeWidth_eq (by omega)]
      apply ih f lo t h0 _ _ h3 _ (by omega)
      · omega
      · rw [hi]; exact dvd_mul_of_dvd_left (pow_dvd_pow _ (by omega)) _
      · right; omega
    · rw [if_neg hge]
      have hht : ht t = K + 1 := ht_unique h1 (by
        rcases h4 with h4 | h4 <;> omega)
      obtain ⟨i, hi⟩ := h2
      rw [nd_eq_idx (s := t) i (by rw [hht, hi]), hht]
      simp only [G.pure_eq, Except.ok.injEq]
      unfold idx
      rw [pow_succ 2 (K+1), hi]
      have : 2 ^ (K+1) * 2 * i = 2 * (2 ^ (K+1) * i) := by ring
      omega

theorem right_nd {n lo s : Nat} (h : Sub n lo s) (hs : 2 ≤ s) :
    right (nd lo s) n = .ok (nd (lo + half s) (s - half s)) := by
  obtain ⟨i, hi, e⟩ := h.idx
  have hp := ht_pos hs
  obtain ⟨K, hK⟩ : ∃ K, ht s = K + 1 := ⟨ht s - 1, by omega⟩
  have hh : half s = 2 ^ K := by rw [half_eq hs, hK]; simp
  have hr := h.right hs
  unfold right
  rw [e, hK, rightStep_idx, G.ok_bind]
  have hx : idx K (2*i+1) = 2 * (lo + half s) + 2 ^ K - 1 := by
    unfold idx
    rw [hi, hK, hh, pow_succ]
    have := Nat.two_pow_pos K
    have : 2 ^ K * 2 * (2 * i + 1) = 2 * (2 ^ K * 2 * i + 2 ^ K) := by ring
    omega
  have hlt := lt_idx K (2*i+1)
  rw [hx] at hlt ⊢
  have hsp := (half_spec hs).2.2
  have hlt2 := half_lt hs
  apply rightLoop_eq K _ _ _ hr.pos (by omega) _ hr.le _ hlt
  · rw [hi, hh, hK]
    exact Nat.dvd_add (dvd_mul_of_dvd_left (pow_dvd_pow _ (by omega)) _) (dvd_refl _)
  · rcases h.full with hf | hf
    · left; have := two_half_eq hs; omega
    · right; omega

theorem isFull_nd {n lo s : Nat} (h : Sub n lo s) :
    isFullSubtree (nd lo s) n = true ↔ s = 2 ^ ht s := by
  unfold isFullSubtree
  simp only [level_nd h, Nat.one_shiftLeft, decide_eq_true_eq]
  have hle := h.le
  have hp := h.pos
  have h1 := le_two_pow_ht s
  have hpp := Nat.two_pow_pos (ht s)
  by_cases hs : s ≤ 1
  · have : s = 1 := by omega
    subst this
    simp [nd, ht]; omega
  · rw [nd_two (by omega)]
    have h2 := two_half_eq (s := s) (by omega)
    constructor
    · intro hx
      rcases h.full with hf | hf
      · exact hf
      · omega
    · intro hx; omega

theorem root_eq {n : Nat} (hn : 0 < n) : root n = nd 0 n := by
  unfold root
  rw [nodeWidth_eq hn]
  have h1 := le_two_pow_ht n
  have h2 := two_pow_ht_lt hn
  have e : log2 (2 * n - 1) = ht n := by
    apply log2_eq
    · omega
    · rw [pow_succ]; omega
  rw [e, Nat.one_shiftLeft]
  unfold nd
  by_cases hs : n ≤ 1
  · simp [hs, ht]
  · rw [if_neg hs, ← two_half_eq (by omega)]; simp

/-- the number range of a subtree: `2 lo ≤ nd lo s < 2 (lo + s) - 1` -/
theorem nd_lt {lo s : Nat} (hs : 0 < s) : nd lo s < 2 * (lo + s) - 1 := by
  unfold nd
  split
  · omega
  · have := half_lt (s := s) (by omega); omega

theorem nd_ge {lo s : Nat} : 2 * lo ≤ nd lo s := by
  unfold nd
  have := half_pos s
  split <;> omega

theorem isLeaf_nd {lo s : Nat} : isLeaf (nd lo s) = decide (s ≤ 1) := by
  have : isLeaf (nd lo s) = true ↔ s ≤ 1 := by
    rw [isLeaf_iff]; unfold nd
    have := half_pos s
    split <;> omega
  by_cases h : s ≤ 1
  · simp [h, this.mpr h]
  · simp only [h, decide_false]
    rw [← Bool.not_eq_true]; exact fun hh => h (this.mp hh)

theorem fullSubtreesLoop_full {n lo s fuel : Nat} (h : Sub n lo s) (hs : s = 2 ^ ht s) (hf : 0 < fuel) :
    fullSubtreesLoop fuel (nd lo s) n = .ok [nd lo s] := by
  obtain ⟨f, rfl⟩ : ∃ f, fuel = f + 1 := ⟨fuel - 1, by omega⟩
  unfold fullSubtreesLoop
  rw [if_pos ((isFull_nd h).mpr hs)]; rfl

theorem full_iff {s : Nat} (hs : 2 ≤ s) : s = 2 ^ ht s ↔ s = 2 * half s := by
  rw [two_half_eq hs]

theorem fullSubtreesLoop_eq {n : Nat} : ∀ (s lo fuel : Nat), Sub n lo s → s ≤ fuel →
    fullSubtreesLoop fuel (nd lo s) n = .ok ((fsList lo s).map fun p => nd p.1 p.2) := by
  intro s
  induction s using Nat.strong_induction_on with
  | _ s ih =>
    intro lo fuel h hf
    have hp := h.pos
    by_cases h1 : s ≤ 1
    · have : s = 1 := by omega
      subst this
      rw [fullSubtreesLoop_full h (by simp [ht]) (by omega)]
      unfold fsList; simp
    · by_cases h2 : s = 2 * half s
      · rw [fullSubtreesLoop_full h ((full_iff (by omega)).mpr h2) (by omega)]
        unfold fsList; simp [h1, ← h2]
      · have hs : 2 ≤ s := by omega
        have hl := half_lt hs
        have hhp := half_pos s
        obtain ⟨f, rfl⟩ : ∃ f, fuel = f + 1 := ⟨fuel - 1, by omega⟩
        unfold fullSubtreesLoop
        rw [if_neg (by rw [isFull_nd h, full_iff hs]; exact h2), left_nd h hs, right_nd h hs]
        simp only [G.ok_bind]
        rw [ih (s - half s) (by omega) _ f (h.right hs) (by omega)]
        conv_rhs => unfold fsList
        simp [h1, h2]

theorem fullSubtrees_eq {n lo s : Nat} (h : Sub n lo s) :
    fullSubtrees (nd lo s) n = .ok ((fsList lo s).map fun p => nd p.1 p.2) :=
  fullSubtreesLoop_eq s lo (n+1) h (by have := h.le; omega)

end Katie.LogMath

namespace Katie.LogMath
open Katie Katie.LogSpec

theorem _root_.Katie.LogSpec.At.sub {n lo s : Nat} {p c : List Nat} (hn : 0 < n) (h : At n lo s p c) : Sub n lo s := by
  induction h with
  | root => exact Sub.root hn
  | left _ hs ih => exact ih.left hs
  | right _ hs ih => exact ih.right hs

/-- going up from a node whose ancestors up to level `K'+d` are beyond the right edge -/
theorem parentLoop_up {n lo t K' : Nat} (ht : 0 < t) (htK : t ≤ 2 ^ K') (hn : lo + t = n) :
    ∀ d fuel, 2 ^ (K' + d) ∣ lo →
    parentLoop (fuel + d) (parentStep (2 * lo + 2 ^ K' - 1)) (nodeWidth n)
      = parentLoop fuel (parentStep (2 * lo + 2 ^ (K' + d) - 1)) (nodeWidth n) := by
  have key : ∀ K i, lo = 2 ^ K * i → 2 * lo + 2 ^ K - 1 = idx K i := by
    intro K i h
    unfold idx
    rw [h, pow_succ]
    have := Nat.two_pow_pos K
    have : 2 ^ K * 2 * i = 2 * (2 ^ K * i) := by ring
    omega
  intro d
  induction d with
  | zero => intro fuel _; simp
  | succ d ih =>
    intro fuel hd
    have h1 : 2 ^ (K' + d) ∣ lo := dvd_trans (pow_dvd_pow _ (by omega)) hd
    have e : fuel + (d + 1) = (fuel + 1) + d := by omega
    rw [e, ih (fuel + 1) h1]
    obtain ⟨i, hi⟩ := hd
    have hi' : lo = 2 ^ (K' + d) * (2 * i) := by
      rw [hi, ← add_assoc, pow_succ]; ring
    rw [key _ _ hi', parentStep_idx]
    have h2 : (2 * i) / 2 = i := by omega
    rw [h2]
    conv_lhs => unfold parentLoop
    have h3 : idx (K' + d + 1) i = 2 * lo + 2 ^ (K' + (d + 1)) - 1 := by
      rw [key (K' + (d+1)) i hi]; rfl
    rw [h3, if_pos]
    rw [nodeWidth_eq (by omega)]
    have : 2 * 2 ^ K' ≤ 2 ^ (K' + (d + 1)) := by
      calc 2 * 2 ^ K' = 2 ^ (K' + 1) := by rw [pow_succ]; ring
        _ ≤ _ := Nat.pow_le_pow_right (by norm_num) (by omega)
    omega

theorem nd_ne_root {n lo s : Nat} (h : Sub n lo s) (hs : s < n) : nd lo s ≠ root n := by
  rw [root_eq (by omega)]
  have hp := h.pos
  obtain ⟨i, hi, e⟩ := h.idx
  obtain ⟨j, hj, e'⟩ := (Sub.root (n := n) (by omega)).idx
  rw [e, e']
  intro hc
  obtain ⟨h1, h2⟩ := idx_inj hc
  have hj0 : j = 0 := by
    rcases Nat.mul_eq_zero.mp hj.symm with h' | h'
    · exact absurd h' (by positivity)
    · exact h'
  have hi0 : lo = 0 := by rw [hi, h2, hj0]; simp
  subst hi0
  have hle := le_two_pow_ht n
  rcases h.full with hf | hf
  · rw [h1] at hf; omega
  · omega

theorem parent_left {n lo s : Nat} (h : Sub n lo s) (hs : 2 ≤ s) :
    parent (nd lo (half s)) n = .ok (nd lo s) := by
  have hl := half_lt hs
  have hle := h.le
  unfold parent
  rw [if_neg (nd_ne_root (h.left hs) (by omega))]
  obtain ⟨i, hi, e⟩ := h.idx
  have hp := ht_pos hs
  obtain ⟨K, hK⟩ : ∃ K, ht s = K + 1 := ⟨ht s - 1, by omega⟩
  have hh : ht (half s) = K := by rw [half_eq hs, ht_two_pow, hK]; simp
  have hx : nd lo (half s) = idx K (2 * i) := by
    rw [nd_eq_idx (s := half s) (2 * i), hh]
    rw [hh, hi, hK, pow_succ]; ring
  have hlt := nd_lt (lo := lo) h.pos
  rw [hx, parentStep_idx, show 2 * i / 2 = i by omega, ← hK, ← e]
  obtain ⟨f, hf⟩ : ∃ f, idx K (2*i) + n + 64 = f + 1 := ⟨_, rfl⟩
  rw [hf]
  unfold parentLoop
  rw [nodeWidth_eq (by omega), if_neg (by omega)]; rfl

theorem parent_right {n lo s : Nat} (h : Sub n lo s) (hs : 2 ≤ s) :
    parent (nd (lo + half s) (s - half s)) n = .ok (nd lo s) := by
  have hl := half_lt hs
  have hle := h.le
  have hpos := half_pos s
  have hr := h.right hs
  unfold parent
  rw [if_neg (nd_ne_root hr (by omega))]
  obtain ⟨i, hi, e⟩ := h.idx
  have hp := ht_pos hs
  obtain ⟨K, hK⟩ : ∃ K, ht s = K + 1 := ⟨ht s - 1, by omega⟩
  have hh : half s = 2 ^ K := by rw [half_eq hs, hK]; simp
  have hsp := (half_spec hs).2.2
  obtain ⟨j, hj, ej⟩ := hr.idx
  have key : ∀ K i, lo + half s = 2 ^ K * i → 2 * (lo + half s) + 2 ^ K - 1 = idx K i := by
    intro K i h
    unfold idx
    rw [h, pow_succ]
    have := Nat.two_pow_pos K
    have : 2 ^ K * 2 * i = 2 * (2 ^ K * i) := by ring
    omega
  have hlo : lo + half s = 2 ^ K * (2 * i + 1) := by
    rw [hi, hK, hh, pow_succ]; ring
  have hlt := nd_lt (lo := lo) h.pos
  have final : ∀ f, parentLoop (f+1) (parentStep (2 * (lo + half s) + 2 ^ K - 1)) (nodeWidth n) = .ok (nd lo s) := by
    intro f
    rw [key _ _ hlo, parentStep_idx, show (2 * i + 1) / 2 = i by omega, ← hK, ← e]
    unfold parentLoop
    rw [nodeWidth_eq (by omega), if_neg (by omega)]; rfl
  have hx : nd (lo + half s) (s - half s) = 2 * (lo + half s) + 2 ^ ht (s - half s) - 1 := by
    rw [ej, key _ _ hj]
  rcases Nat.eq_or_lt_of_le (show s - half s ≤ 2 ^ K by omega) with heq | hlt'
  · rw [hx, heq, ht_two_pow]
    exact final _
  · have hfull : lo + s = n := by
      rcases h.full with hf | hf
      · have := two_half_eq hs; omega
      · exact hf
    have hKle : ht (s - half s) ≤ K := ht_le_of_le (by omega)
    obtain ⟨d, hd⟩ : ∃ d, K = ht (s - half s) + d := ⟨K - ht (s - half s), by omega⟩
    have hKn : K < n := by
      have := Nat.lt_two_pow_self (n := K)
      omega
    obtain ⟨f, hf⟩ : ∃ f, nd (lo + half s) (s - half s) + n + 64 = (f + 1) + d :=
      ⟨nd (lo + half s) (s - half s) + n + 64 - d - 1, by omega⟩
    rw [hf, hx, parentLoop_up (t := s - half s) hr.pos (le_two_pow_ht _) (by omega) d (f+1) (by
      rw [← hd, hlo]; exact dvd_mul_right _ _), ← hd]
    exact final f

theorem sibling_left {n lo s : Nat} (h : Sub n lo s) (hs : 2 ≤ s) :
    sibling (nd lo (half s)) n = .ok (nd (lo + half s) (s - half s)) := by
  unfold sibling
  rw [parent_left h hs, G.ok_bind, right_nd h hs, if_pos]
  have := nd_lt (lo := lo) (half_pos s)
  rw [nd_two hs]; exact this

theorem sibling_right {n lo s : Nat} (h : Sub n lo s) (hs : 2 ≤ s) :
    sibling (nd (lo + half s) (s - half s)) n = .ok (nd lo (half s)) := by
  unfold sibling
  rw [parent_right h hs, G.ok_bind, left_nd h hs, if_neg]
  have := nd_ge (lo := lo + half s) (s := s - half s)
  rw [nd_two hs]; omega

theorem _root_.Katie.LogSpec.At.len {n lo s : Nat} {p c : List Nat} (h : At n lo s p c) : p.length + s ≤ n ∧ c.length = p.length := by
  induction h with
  | root => simp
  | left _ hs ih => have := half_lt hs; simp; omega
  | right _ hs ih => have := half_lt hs; have := half_pos (by assumption); simp; omega

theorem _root_.Katie.LogSpec.At.sz {n lo s : Nat} {p c : List Nat} (h : At n lo s p c) : p = [] ↔ s = n := by
  cases h with
  | root => simp
  | left h hs => have := half_lt hs; have := h.len; simp; omega
  | right h hs => have := half_lt hs; have := half_pos (by assumption); have := h.len; simp; omega

theorem directPathLoop_eq {n lo s : Nat} {p c : List Nat} (hn : 0 < n) (h : At n lo s p c) :
    ∀ fuel, p.length < fuel → directPathLoop fuel (nd lo s) n (root n) = .ok p := by
  induction h with
  | root =>
    intro fuel hf
    obtain ⟨f, rfl⟩ : ∃ f, fuel = f + 1 := ⟨fuel - 1, by omega⟩
    unfold directPathLoop
    rw [if_neg (by rw [root_eq hn]; simp)]; rfl
  | @left lo s p c h hs ih =>
    intro fuel hf
    obtain ⟨f, rfl⟩ : ∃ f, fuel = f + 1 := ⟨fuel - 1, by omega⟩
    have hsub := h.sub hn
    have := half_lt hs
    have := hsub.le
    unfold directPathLoop
    rw [if_pos (nd_ne_root (hsub.left hs) (by omega)), parent_left hsub hs, G.ok_bind,
      ih f (by simp at hf; omega)]
    rfl
  | @right lo s p c h hs ih =>
    intro fuel hf
    obtain ⟨f, rfl⟩ : ∃ f, fuel = f + 1 := ⟨fuel - 1, by omega⟩
    have hsub := h.sub hn
    have := half_lt hs
    have := half_pos s
    have := hsub.le
    unfold directPathLoop
    rw [if_pos (nd_ne_root (hsub.right hs) (by omega)), parent_right hsub hs, G.ok_bind,
      ih f (by simp at hf; omega)]
    rfl

theorem directPath_eq {n lo s : Nat} {p c : List Nat} (hn : 0 < n) (h : At n lo s p c) :
    directPath (nd lo s) n = .ok p :=
  directPathLoop_eq hn h _ (by have := h.len; omega)

theorem copath_aux {n lo s : Nat} {p c : List Nat} (hn : 0 < n) (h : At n lo s p c) :
    ((nd lo s :: p).dropLast).mapM (fun y => sibling y n) = (.ok c : G (List Nat)) := by
  induction h with
  | root => simp
  | @left lo s p c h hs ih =>
    have : (nd lo (half s) :: nd lo s :: p).dropLast = nd lo (half s) :: (nd lo s :: p).dropLast := rfl
    rw [this, List.mapM_cons, sibling_left (h.sub hn) hs, G.ok_bind, ih]; rfl
  | @right lo s p c h hs ih =>
    have : (nd (lo + half s) (s - half s) :: nd lo s :: p).dropLast
        = nd (lo + half s) (s - half s) :: (nd lo s :: p).dropLast := rfl
    rw [this, List.mapM_cons, sibling_right (h.sub hn) hs, G.ok_bind, ih]; rfl

theorem copath_eq {n lo s : Nat} {p c : List Nat} (hn : 0 < n) (h : At n lo s p c) :
    copath (nd lo s) n = .ok c := by
  unfold copath
  by_cases hp : p = []
  · have := h.sz.mp hp
    cases h with
    | root => rw [if_pos (root_eq hn).symm]; rfl
    | left => simp at hp
    | right => simp at hp
  · have hne : s < n := by
      have := (h.sub hn).le
      have := mt h.sz.mpr hp
      omega
    rw [if_neg (nd_ne_root (h.sub hn) hne), directPath_eq hn h, G.ok_bind, copath_aux hn h]

/-- every number below the node width is a node of the tree -/
theorem exists_at {n : Nat} : ∀ s lo p c x, At n lo s p c → 0 < s → 2 * lo ≤ x → x < 2 * (lo + s) - 1 →
    ∃ lo' s' p' c', At n lo' s' p' c' ∧ nd lo' s' = x := by
  intro s
  induction s using Nat.strong_induction_on with
  | _ s ih =>
    intro lo p c x h hs h1 h2
    by_cases hs1 : s ≤ 1
    · have : s = 1 := by omega
      subst this
      exact ⟨lo, 1, p, c, h, by rw [nd_leaf]; omega⟩
    · have hs2 : 2 ≤ s := by omega
      have hl := half_lt hs2
      have hp := half_pos s
      rcases Nat.lt_trichotomy x (nd lo s) with hx | hx | hx
      · rw [nd_two hs2] at hx
        exact ih (half s) hl lo _ _ x (h.left hs2) hp h1 (by omega)
      · exact ⟨lo, s, p, c, h, hx.symm⟩
      · rw [nd_two hs2] at hx
        exact ih (s - half s) (by omega) (lo + half s) _ _ x (h.right hs2) (by omega) (by omega) (by omega)

theorem chunk_idx (K i : Nat) : chunk (idx K i) = .ok (idx (K + (3 - K % 4)) (i / 2 ^ (3 - K % 4))) := by
  unfold chunk
  have h4 : K % 4 < 4 := Nat.mod_lt _ (by norm_num)
  have step : ∀ f K i, K % 4 ≠ 3 → chunkLoop (f+1) (idx K i) = chunkLoop f (idx (K+1) (i/2)) := by
    intro f K i h
    conv_lhs => unfold chunkLoop
    rw [level_idx, if_pos h, parentStep_idx]
  have stop : ∀ f K i, K % 4 = 3 → chunkLoop (f+1) (idx K i) = .ok (idx K i) := by
    intro f K i h
    unfold chunkLoop
    rw [level_idx, if_neg (by omega)]; rfl
  have dd : ∀ a b : Nat, i / a / b = i / (a * b) := fun a b => Nat.div_div_eq_div_mul i a b
  obtain h | h | h | h : K % 4 = 3 ∨ K % 4 = 2 ∨ K % 4 = 1 ∨ K % 4 = 0 := by omega
  · rw [stop _ _ _ h, h]; simp
  · rw [step _ _ _ (by omega), stop _ _ _ (by omega), h]; norm_num
  · rw [step _ _ _ (by omega), step _ _ _ (by omega), stop _ _ _ (by omega), h, dd]; norm_num
  · rw [step _ _ _ (by omega), step _ _ _ (by omega), step _ _ _ (by omega), stop _ _ _ (by omega), h, dd, dd]; norm_num

/-- the complete subtrees listed by `fsList` are consecutive, non-empty, complete and cover exactly
the leaves `lo … lo+s-1` -/
theorem fsList_cover : ∀ s lo, 0 < s →
    (∀ p ∈ fsList lo s, ∃ k, p.2 = 2 ^ k) ∧
    ((fsList lo s).map Prod.snd).Pairwise (· > ·) ∧
    (fsList lo s).flatMap (fun p => List.range' p.1 p.2) = List.range' lo s := by
  intro s
  induction s using Nat.strong_induction_on with
  | _ s ih =>
    intro lo hs
    unfold fsList
    by_cases h1 : s ≤ 1
    · have : s = 1 := by omega
      subst this
      refine ⟨?_, ?_, ?_⟩
      · intro p hp; simp at hp; exact ⟨0, by simp [hp]⟩
      · simp
      · simp
    · have hs2 : 2 ≤ s := by omega
      have hl := half_lt hs2
      have hp := half_pos s
      have hsp := half_spec hs2
      by_cases h2 : s = 2 * half s
      · obtain ⟨⟨k, hk⟩, _⟩ := hsp
        simp only [h1, dite_false]
        rw [if_pos h2]
        refine ⟨?_, ?_, ?_⟩
        · intro p hp
          simp only [List.mem_singleton] at hp
          exact ⟨k+1, by rw [hp, pow_succ, ← hk]; simp; omega⟩
        · simp
        · simp
      · obtain ⟨i1, i2, i3⟩ := ih (s - half s) (by omega) (lo + half s) (by omega)
        simp only [h1, dite_false]
        rw [if_neg h2]
        refine ⟨?_, ?_, ?_⟩
        · intro p hp
          rcases List.mem_cons.mp hp with hp | hp
          · exact hsp.1.imp (fun k hk => by rw [hp]; exact hk)
          · exact i1 p hp
        · simp only [List.map_cons, List.pairwise_cons]
          refine ⟨?_, i2⟩
          intro b hb
          obtain ⟨q, hq, rfl⟩ := List.mem_map.mp hb
          have : ∀ x ∈ List.range' q.1 q.2, x < lo + s := by
            intro x hx
            have : x ∈ (fsList (lo + half s) (s - half s)).flatMap (fun p => List.range' p.1 p.2) :=
              List.mem_flatMap.mpr ⟨q, hq, hx⟩
            rw [i3, List.mem_range'_1] at this; omega
          have h0 : ∀ x ∈ List.range' q.1 q.2, lo + half s ≤ x := by
            intro x hx
            have : x ∈ (fsList (lo + half s) (s - half s)).flatMap (fun p => List.range' p.1 p.2) :=
              List.mem_flatMap.mpr ⟨q, hq, hx⟩
            rw [i3, List.mem_range'_1] at this; omega
          obtain ⟨k, hk⟩ := i1 q hq
          have hqp : 0 < q.2 := by rw [hk]; positivity
          have e1 := this (q.1 + q.2 - 1) (by rw [List.mem_range'_1]; omega)
          have e2 := h0 q.1 (by rw [List.mem_range'_1]; omega)
          omega
        · simp only [List.flatMap_cons, i3]
          rw [List.range'_append_1]
          congr 1; omega

end Katie.LogMath
