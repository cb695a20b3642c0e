import Verif.Lemmas.ServeSearch

/-
How long the paths of the search tree are: logarithmic in the size of the log.
-/

namespace Katie.SearchTree
open Katie SearchSpec

theorem log2_lt_of_lt_pow {m k : Nat} (hm : 0 < m) (h : m < 2 ^ k) : Nat.log2 m < k := by
  by_contra hc
  have := (log2_spec hm).1
  have : 2 ^ k ≤ 2 ^ Nat.log2 m := Nat.pow_le_pow_right (by norm_num) (by omega)
  omega

/-- a node has at most as many ancestors as its subtree is smaller than the tree, in powers of two -/
theorem _root_.Katie.SearchSpec.At.depth {n lo hi : Nat} {anc : List Nat} (h : At n lo hi anc) :
    anc.length + Nat.log2 (hi - lo) ≤ Nat.log2 n := by
  induction h with
  | root hn => simp
  | @left lo hi anc h hl ih =>
    have hb := h.bounds
    obtain ⟨k1, k2⟩ := log2_spec (m := hi - lo) (by omega)
    have e : rt lo hi = lo + 2 ^ Nat.log2 (hi - lo) - 1 := rfl
    have : Nat.log2 (rt lo hi - lo) < Nat.log2 (hi - lo) := log2_lt_of_lt_pow (by omega) (by omega)
    simp only [List.length_cons]
    omega
  | @right lo hi anc h hr ih =>
    have hb := h.bounds
    obtain ⟨k1, k2⟩ := log2_spec (m := hi - lo) (by omega)
    have e : rt lo hi = lo + 2 ^ Nat.log2 (hi - lo) - 1 := rfl
    have e2 : 2 ^ (Nat.log2 (hi - lo) + 1) = 2 * 2 ^ Nat.log2 (hi - lo) := by ring
    have : Nat.log2 (hi - (rt lo hi + 1)) < Nat.log2 (hi - lo) := log2_lt_of_lt_pow (by omega) (by omega)
    simp only [List.length_cons]
    omega

theorem frontier_length {n : Nat} (h0 : 0 < n) (hn : n < 2 ^ 64) {f : List Nat} (hf : frontier n = .ok f) :
    f.length ≤ Nat.log2 n + 1 := by
  obtain ⟨lo, anc, hat, -, hf'⟩ := frontier_eq h0 hn
  rw [hf] at hf'
  cases hf'
  have := hat.depth
  simp
  omega

/-- `UpdateView` looks at no more than two paths -/
theorem updateView_length {n : Nat} (h0 : 0 < n) (hn : n < 2 ^ 64) {m : Option Nat} (hm : ∀ k, m = some k → 0 < k ∧ k ≤ n)
    {xs : List Nat} (h : SearchTree.updateView n m = .ok xs) : xs.length ≤ 2 * Nat.log2 n + 1 := by
  have first : extendRight [root n] n = .ok xs → xs.length ≤ 2 * Nat.log2 n + 1 := by
    intro h
    unfold extendRight at h
    have : frontier n = .ok xs := by
      unfold frontier
      simpa using h
    have := frontier_length h0 hn this
    omega
  unfold SearchTree.updateView at h
  cases m with
  | none => exact first h
  | some k =>
    obtain ⟨hk0, hkn⟩ := hm k rfl
    simp only at h
    split at h
    · cases h; simp
    · split at h
      · exact first h
      · rename_i hkn' _
        obtain ⟨lo, hi, anc, hat, e⟩ := exists_at n 0 n [] (by omega) (.root h0) (k - 1) (by omega) (by omega)
        have hb := hat.bounds
        rw [← e, rightDirectPath_eq hat, G.ok_bind, e] at h
        rcases top_right hat (x := k - 1) (by omega) (by omega) with ⟨ha, rfl⟩ | ⟨pre, a, lo', anc', rfl, hat', hra, hxa, ha⟩
        · have hnil : anc.filter (fun y => y > k - 1) = [] := by
            rw [List.filter_eq_nil_iff]; intro y hy; have := ha y hy; simp; omega
          rw [hnil] at h
          cases h
          simp
        · obtain ⟨rest, lo2, anc2, hw, hat2, he2, hp, -⟩ := walkRight_eq hn _ lo' (n + 1) anc' hat' (by omega : n - lo' ≤ n) (by omega)
          rw [hra] at hw
          have hnil : anc'.filter (fun y => y > k - 1) = [] := by
            rw [List.filter_eq_nil_iff]; intro y hy; have := ha y hy; simp; omega
          have hlast : ((pre ++ a :: anc').filter (fun y => y > k - 1)).getLast? = some a := by
            rw [List.filter_append, List.filter_cons_of_pos (by simpa using hxa), hnil]
            simp
          unfold extendRight at h
          rw [hlast] at h
          simp only [hw, G.ok_bind, G.pure_eq] at h
          cases h
          have h1 := hat.depth
          have h2 := hat2.depth
          have h3 := congrArg List.length hp
          have h4 := List.length_filter_le (fun y => decide (y > k - 1)) (pre ++ a :: anc')
          simp only [List.length_append, List.length_cons, List.length_reverse, List.length_nil] at *
          omega

end Katie.SearchTree
