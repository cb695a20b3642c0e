import Verif.Lemmas.LogAppend
import Verif.Lemmas.LogEval

/-
The path and copath of the last leaf of a log.
-/

namespace Katie.LogMath
open Katie Katie.LogSpec Katie.Log

/-- siblings along the right edge -/
theorem spine_cop {N lo s : Nat} {p c : List Nat} (hN : 0 < N) (h : At N lo s p c) (he : lo + s = N) :
    ∀ y, y ∈ c ↔ ∃ K, lo.testBit K = true ∧ y = idx K (lo / 2 ^ K - 1) := by
  induction h with
  | root => intro y; simp
  | @left lo s p c h hs ih =>
    have := (h.sub hN).le
    have := half_lt hs
    omega
  | @right lo s p c h hs ih =>
    intro y
    have hsub := h.sub hN
    have hl := half_lt hs
    have ih := ih (by omega)
    have hp := ht_pos hs
    obtain ⟨k, hk⟩ : ∃ k, ht s = k + 1 := ⟨ht s - 1, by omega⟩
    have hh : half s = 2 ^ k := by rw [half_eq hs, hk]; simp
    obtain ⟨i, hi⟩ := hsub.dvd
    rw [hk] at hi
    have hnd : nd lo (half s) = idx k (2 * i) := by
      have := nd_eq_idx (lo := lo) (s := half s) (2 * i) (by rw [hh, ht_two_pow, hi, pow_succ]; ring)
      rw [this, hh, ht_two_pow]
    have hlt : 2 ^ k < 2 ^ (k + 1) := Nat.pow_lt_pow_right (by norm_num) (by omega)
    have tb : ∀ K, (lo + half s).testBit K = if K < k + 1 then decide (K = k) else lo.testBit K := by
      intro K
      rw [hh, hi, Nat.testBit_two_pow_mul_add _ hlt, Nat.testBit_two_pow]
      by_cases h1 : K < k + 1
      · rw [if_pos h1, if_pos h1]; congr 1; exact propext eq_comm
      · rw [if_neg h1, if_neg h1]
        have := Nat.testBit_two_pow_mul_add i (b := 0) (Nat.two_pow_pos (k+1)) K
        rw [Nat.add_zero, if_neg h1] at this
        rw [this]
    have lob : ∀ K, lo.testBit K = true → k + 1 ≤ K := by
      intro K hK
      by_contra hc
      have := Nat.testBit_two_pow_mul_add i (b := 0) (Nat.two_pow_pos (k+1)) K
      rw [Nat.add_zero, if_pos (by omega), ← hi] at this
      simp [this] at hK
    have dv : ∀ K, k + 1 ≤ K → (lo + half s) / 2 ^ K = lo / 2 ^ K := by
      intro K hK
      obtain ⟨d, rfl⟩ : ∃ d, K = (k + 1) + d := ⟨K - (k+1), by omega⟩
      rw [pow_add, ← Nat.div_div_eq_div_mul, ← Nat.div_div_eq_div_mul, hh, hi,
        Nat.mul_add_div (Nat.two_pow_pos _), Nat.div_eq_of_lt hlt, Nat.mul_div_cancel_left _ (Nat.two_pow_pos _), Nat.add_zero]
    have dk : (lo + half s) / 2 ^ k = 2 * i + 1 := by
      rw [hh, hi, pow_succ, show 2 ^ k * 2 * i + 2 ^ k = 2 ^ k * (2 * i + 1) by ring, Nat.mul_div_cancel_left _ (Nat.two_pow_pos _)]
    rw [List.mem_cons, ih]
    constructor
    · rintro (rfl | ⟨K, h1, h2⟩)
      · refine ⟨k, by rw [tb]; simp, ?_⟩
        rw [hnd, dk]; simp
      · have := lob K h1
        exact ⟨K, by rw [tb, if_neg (by omega)]; exact h1, by rw [dv K this]; exact h2⟩
    · rintro ⟨K, h1, h2⟩
      rw [tb] at h1
      by_cases hK : K < k + 1
      · rw [if_pos hK] at h1
        have : K = k := by simpa using h1
        subst this
        left
        rw [h2, dk, hnd]; simp
      · rw [if_neg hK] at h1
        right
        exact ⟨K, h1, by rw [h2, dv K (by omega)]⟩

/-- the last complete subtree on the right edge -/
theorem spine_top {N : Nat} (hN : 0 < N) : ∀ s lo p c, At N lo s p c → lo + s = N → 
    (s = 2 ^ ht s → s = N ∨ 2 ^ (ht s + 1) ∣ lo) → (∀ y ∈ p, isFullSubtree y N = false) →
    ∃ t p0 c0, At N (N - 2 ^ t) (2 ^ t) p0 c0 ∧ 2 ^ t ∣ N ∧ ¬ 2 ^ (t + 1) ∣ N ∧ (∀ y ∈ p0, isFullSubtree y N = false) := by
  intro s
  induction s using Nat.strong_induction_on with
  | _ s ih =>
    intro lo p c h he hf hp
    have hsub := h.sub hN
    by_cases hs : s = 2 ^ ht s
    · refine ⟨ht s, p, c, ?_, ?_, ?_, hp⟩
      · rw [← hs, show N - s = lo by omega]; exact h
      · rw [← he]
        exact Nat.dvd_add hsub.dvd (by rw [← hs])
      · intro hd
        have hlt : 2 ^ ht s < 2 ^ (ht s + 1) := Nat.pow_lt_pow_right (by norm_num) (by omega)
        rcases hf hs with h1 | h1
        · have := Nat.le_of_dvd hN hd
          omega
        · rw [← he] at hd
          have := (Nat.dvd_add_right h1).mp hd
          have := Nat.le_of_dvd hsub.pos this
          omega
    · have hs2 : 2 ≤ s := by
        by_contra hc
        have : s = 1 := by have := hsub.pos; omega
        subst this
        simp [ht] at hs
      have hl := half_lt hs2
      have hpos := half_pos s
      have hht := ht_pos hs2
      obtain ⟨k, hk⟩ : ∃ k, ht s = k + 1 := ⟨ht s - 1, by omega⟩
      have hh : half s = 2 ^ k := by rw [half_eq hs2, hk]; simp
      have hle := le_two_pow_ht s
      refine ih (s - half s) (by omega) (lo + half s) _ _ (h.right hs2) (by omega) ?_ ?_
      · intro hf'
        right
        have hlt : ht (s - half s) < k := by
          have : 2 ^ ht (s - half s) < 2 ^ k := by
            rw [← hf', hh]
            rw [hk, pow_succ] at hle hs
            omega
          exact (Nat.pow_lt_pow_iff_right (by norm_num)).mp this
        refine Nat.dvd_add ?_ ?_
        · exact dvd_trans (pow_dvd_pow _ (by omega)) hsub.dvd
        · exact (pow_dvd_pow 2 (by omega : ht (s - half s) + 1 ≤ k)).trans ⟨1, by omega⟩
      · intro y hy
        rw [List.mem_cons] at hy
        rcases hy with rfl | hy
        · rw [Bool.eq_false_iff]
          intro hc
          exact hs ((isFull_nd hsub).mp hc)
        · exact hp y hy

/-- index of the ancestor of the last leaf -/
theorem last_idx {N n K : Nat} (hn : N = n + 1) (hd : 2 ^ K ∣ N) : N - 2 ^ K = 2 ^ K * (n / 2 ^ K) ∧ N = 2 ^ K * (n / 2 ^ K + 1) := by
  obtain ⟨i, hi⟩ := hd
  have hp := Nat.two_pow_pos K
  have hi0 : 0 < i := by
    by_contra h0
    have : i = 0 := by omega
    subst this; omega
  have : n / 2 ^ K = i - 1 := by
    rw [Nat.div_eq_iff hp]
    have : (i - 1) * 2 ^ K + 2 ^ K = 2 ^ K * i := by
      conv_rhs => rw [show i = (i - 1) + 1 by omega]
      ring
    omega
  rw [this]
  have e : 2 ^ K * (i - 1) + 2 ^ K = 2 ^ K * i := by
    conv_rhs => rw [show i = (i - 1) + 1 by omega]
    ring
  constructor
  · omega
  · rw [show i - 1 + 1 = i by omega]; exact hi

/-- path and copath of the last leaf -/
theorem last_path {N n : Nat} (hn : N = n + 1) : ∃ t p0 c, 2 ^ t ∣ N ∧ ¬ 2 ^ (t + 1) ∣ N ∧
    At N n 1 ((List.range' 1 t).map (fun K => idx K (n / 2 ^ K)) ++ p0) c ∧
    (∀ y ∈ p0, isFullSubtree y N = false) ∧
    (∀ y, y ∈ c ↔ ∃ K, n.testBit K = true ∧ y = idx K (n / 2 ^ K - 1)) := by
  have hN : 0 < N := by omega
  obtain ⟨t, p0, c0, h0, hd, hnd, hp0⟩ := spine_top hN N 0 [] [] At.root (by omega) (by intro _; left; rfl) (by simp)
  have key : ∀ d j, j + d = t → ∃ c, At N (N - 2 ^ j) (2 ^ j) ((List.range' (j + 1) d).map (fun K => idx K (n / 2 ^ K)) ++ p0) c := by
    intro d
    induction d with
    | zero =>
      intro j hj
      have : j = t := by omega
      subst this
      exact ⟨c0, by simpa using h0⟩
    | succ d ih =>
      intro j hj
      obtain ⟨c, hc⟩ := ih (j + 1) (by omega)
      have h2 : 2 ≤ 2 ^ (j + 1) := by rw [pow_succ]; have := Nat.one_le_two_pow (n := j); omega
      have hr := hc.right h2
      have hle := (hc.sub hN).le
      have hdj : 2 ^ (j + 1) ∣ N := dvd_trans (pow_dvd_pow _ (by omega)) hd
      have hlN := Nat.le_of_dvd hN hdj
      have hndx : nd (N - 2 ^ (j + 1)) (2 ^ (j + 1)) = idx (j + 1) (n / 2 ^ (j + 1)) := by
        have := nd_eq_idx (lo := N - 2 ^ (j + 1)) (s := 2 ^ (j + 1)) (n / 2 ^ (j + 1)) (by rw [ht_two_pow]; exact (last_idx hn hdj).1)
        rw [this, ht_two_pow]
      rw [half_two_pow, hndx] at hr
      have e1 : N - 2 ^ (j + 1) + 2 ^ j = N - 2 ^ j := by rw [pow_succ] at *; omega
      have e2 : 2 ^ (j + 1) - 2 ^ j = 2 ^ j := by rw [pow_succ]; omega
      rw [e1, e2] at hr
      rw [List.range'_succ]
      exact ⟨_, hr⟩
  obtain ⟨c, hc⟩ := key t 0 (by omega)
  have e : N - 2 ^ 0 = n := by simp; omega
  rw [e] at hc
  exact ⟨t, p0, c, hd, hnd, by simpa using hc, hp0, spine_cop hN hc (by simp; omega)⟩

theorem filter_mod4 (t : Nat) : (List.range' 1 t).filter (fun K => K % 4 == 0) = (List.range (t / 4)).map (fun q => 4 * (q + 1)) := by
  induction t with
  | zero => rfl
  | succ t ih =>
    rw [List.range'_1_concat, List.filter_append, ih]
    by_cases h : (1 + t) % 4 = 0
    · rw [show (t + 1) / 4 = t / 4 + 1 by omega, List.range_succ, List.map_append]
      simp [h]; omega
    · rw [show (t + 1) / 4 = t / 4 by omega]
      simp [h]

end Katie.LogMath
