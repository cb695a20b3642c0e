import Verif.Lemmas.SearchTree

/-
C16: the implicit search tree over log entries.  C18: what `UpdateView` covers.

Specification: `Verif/Spec/SearchTree.lean` (`At n lo hi anc`: the range `[lo, hi)` belongs to a
subtree of the search tree over `0 … n-1` whose root `rt lo hi` has ancestors `anc`).
-/

namespace Katie.Props
open Katie Katie.SearchSpec Katie.SearchTree
open Katie.LogMath (left)

/-- Every position is the root of exactly one subtree, which contains it, and the subtrees left and
right of it contain exactly the smaller and the greater positions of its range (search tree order). -/
theorem C16_every_position_once {n x : Nat} (hx : x < n) :
    ∃ lo hi anc, (IsNode n x lo hi anc ∧ lo ≤ x ∧ x < hi ∧ hi ≤ n) ∧
      ∀ lo' hi' anc', IsNode n x lo' hi' anc' → lo' = lo ∧ hi' = hi ∧ anc' = anc := by
  obtain ⟨lo, hi, anc, h, e⟩ := exists_at n 0 n [] (by omega) (.root (by omega)) x (by omega) hx
  refine ⟨lo, hi, anc, ⟨⟨h, e⟩, e ▸ h.bounds⟩, ?_⟩
  rintro lo' hi' anc' ⟨h', e'⟩
  obtain ⟨h1, h2⟩ := at_unique h' h (by rw [e, e'])
  exact ⟨h1, h2, anc_unique h' h (by rw [e, e'])⟩

/-- Root, `Left`, `Right`, `Parent` are those of the search tree: the left child is the root of the
positions below `x` in its range, the right child of those above; they panic where there is none. -/
theorem C16_root_children_parent {n x lo hi : Nat} {anc : List Nat} (h : IsNode n x lo hi anc) :
    root n = rt 0 n ∧
    (lo < x → left x = .ok (rt lo x)) ∧ (¬ lo < x → Panics (left x)) ∧
    (x + 1 < hi → right x n = .ok (rt (x + 1) hi)) ∧ (¬ x + 1 < hi → Panics (right x n)) ∧
    (∀ p rest, anc = p :: rest → parent x n = .ok p) ∧ (anc = [] → Panics (parent x n)) := by
  obtain ⟨h, rfl⟩ := h
  refine ⟨root_eq h.pos, ?_, ?_, right_rt h, right_panic h, ?_, ?_⟩
  · intro hl; rw [left_rt h, if_pos hl]
  · intro hl; rw [left_rt h, if_neg hl]; exact ⟨_, rfl⟩
  · rintro p rest rfl; exact h.parent
  · rintro rfl
    have : rt lo hi = root n := by rw [root_eq h.pos]; cases h; rfl
    unfold parent; rw [if_pos this]; exact ⟨_, rfl⟩

example : IsNode 7 5 4 7 [3] ∧ right 5 7 = .ok 6 ∧ left 5 = .ok 4 ∧ parent 6 7 = .ok 5 :=
  ⟨⟨At.right (.root (by decide)) (by decide), by decide⟩, by decide, by decide, by decide⟩

/-- `IsLeaf` holds exactly for the positions without a left child. -/
theorem C16_isLeaf {n x lo hi : Nat} {anc : List Nat} (h : IsNode n x lo hi anc) :
    LogMath.isLeaf x = true ↔ lo = x := by
  obtain ⟨h, rfl⟩ := h
  obtain ⟨k, i, r⟩ := h.rng
  have hb := r.bounds
  rw [LogMath.isLeaf_iff]
  have h1 := r.hlo; have h2 := r.idx; have h3 := r.rt
  rw [h3] at hb ⊢
  rcases k with _ | k
  · simp only [zero_add, pow_one, pow_zero] at h1 h2; omega
  · have e1 : 2 ^ (k + 1) = 2 * 2 ^ k := by ring
    have e2 : 2 ^ (k + 1 + 1) * i = 2 * (2 * 2 ^ k * i) := by ring
    have := Nat.two_pow_pos k
    omega

/-- The direct paths: exactly the ancestors to the left / right, from the leaf towards the root. -/
theorem C16_direct_paths {n x lo hi : Nat} {anc : List Nat} (h : IsNode n x lo hi anc) :
    leftDirectPath x = .ok (anc.filter (fun y => y < x)) ∧
    rightDirectPath x n = .ok (anc.filter (fun y => y > x)) ∧ x ∉ anc := by
  obtain ⟨h, rfl⟩ := h
  refine ⟨leftDirectPath_eq h, rightDirectPath_eq h, ?_⟩
  intro hm
  have := anc_outside h _ hm
  have := h.bounds
  omega

example : leftDirectPath 9 = .ok [7] ∧ rightDirectPath 9 13 = .ok [11] ∧
    IsNode 13 9 8 11 [11, 7] := by
  refine ⟨by decide, by decide, ?_, by decide⟩
  exact At.left (hi := 13) (At.right (hi := 13) (.root (by decide)) (by decide)) (by decide)

/-- The frontier is the path from the root to the last position. -/
theorem C16_frontier {n : Nat} (h0 : 0 < n) (hn : n < 2 ^ 64) :
    ∃ lo hi anc, IsNode n (n - 1) lo hi anc ∧ frontier n = .ok (anc.reverse ++ [n - 1]) := by
  obtain ⟨lo, anc, h, e, hf⟩ := frontier_eq h0 hn
  exact ⟨lo, n, anc, ⟨h, e⟩, hf⟩

example : frontier 13 = .ok [7, 11, 12] := by decide

/-! ### C18 -/

/-- The English claim of C18: updating from `m` to `n` covers the new frontier. -/
def CoversFrontier (m n : Nat) : Prop :=
  ∀ known new needed, frontier m = .ok known → updateView n (some m) = .ok new →
    frontier n = .ok needed → ∀ y ∈ needed, y ∈ known ∨ y ∈ new

/-- The claim is false: going from 4 to 7 entries, nothing new is requested, although entries 5 and 6
are on the frontier of the 7-entry log and unknown to the client. -/
theorem C18_update_view_covers_false : ¬ ∀ m n, 0 < m → m ≤ n → n < 2 ^ 64 → CoversFrontier m n := by
  intro h
  have := h 4 7 (by decide) (by decide) (by decide) [3] [] [3, 5, 6] (by decide) (by decide) (by decide) 6
  simp at this

/-- Exactly when the view update is complete: `UpdateView` covers the frontier unless `m < n` and the
client's last entry `m - 1` is itself on the frontier of the `n`-entry log; in that case it requests
nothing at all and the client never learns the last entry.  Only entries of the log are requested. -/
theorem C18_update_view_covers_partial {m n : Nat} (hm : 0 < m) (hmn : m < n) (hn : n < 2 ^ 64) :
    ∃ known new needed, frontier m = .ok known ∧ updateView n (some m) = .ok new ∧
      frontier n = .ok needed ∧ (∀ y ∈ new, y < n) ∧
      (m - 1 ∉ needed → ∀ y ∈ needed, y ∈ known ∨ y ∈ new) ∧
      (m - 1 ∈ needed → new = [] ∧ n - 1 ∈ needed ∧ n - 1 ∉ known) := by
  obtain ⟨loM, ancM, hM, eM, hfM⟩ := frontier_eq hm (by omega : m < 2 ^ 64)
  obtain ⟨loN, ancN, hN, eN, hfN⟩ := frontier_eq (by omega : 0 < n) hn
  obtain ⟨lo, hi, anc, h, e⟩ := exists_at n 0 n [] (by omega) (.root (by omega)) (m - 1) (by omega) (by omega)
  have hb := h.bounds
  have hrd := rightDirectPath_eq h
  have hld := leftDirectPath_eq h
  have hldM := leftDirectPath_eq hM
  rw [e] at hrd hld
  rw [eM] at hldM
  have hknown : ∀ y ∈ anc, y < m - 1 → y ∈ ancM.reverse ++ [m - 1] := by
    intro y hy hlt
    rw [hldM] at hld
    have : y ∈ ancM.filter (fun y => y < m - 1) := by
      rw [Except.ok.inj hld]; simp [hy, hlt]
    simp at this ⊢
    exact Or.inl this.1
  have hup : updateView n (some m) = extendRight (anc.filter (fun y => y > m - 1)) n := by
    unfold updateView
    simp only []
    rw [if_neg (by omega), if_neg (by omega), hrd]; rfl
  rcases top_right h (x := m - 1) (by omega) (by omega) with ⟨ha, rfl⟩ | ⟨pre, a, lo', anc', rfl, hat, hra, hxa, ha⟩
  · have hnil : anc.filter (fun y => y > m - 1) = [] := by
      rw [List.filter_eq_nil_iff]; intro y hy; have := ha y hy; simp; omega
    refine ⟨_, [], _, hfM, ?_, hfN, by simp, ?_, ?_⟩
    · rw [hup, hnil]; rfl
    · intro hnot
      exfalso
      obtain ⟨rest, lo2, anc2, hw, hat2, he2, hp, -⟩ := walkRight_eq hn _ lo (hi - lo + 1) anc h (le_refl _) (by omega)
      have := anc_unique hat2 hN (by rw [he2, eN])
      rw [← this, hp, e] at hnot
      simp at hnot
    · intro _
      refine ⟨rfl, by simp, ?_⟩
      intro hmem
      rcases List.mem_append.1 hmem with hmem | hmem
      · have := anc_lt hM _ (List.mem_reverse.1 hmem); omega
      · simp at hmem; omega
  · obtain ⟨rest, lo2, anc2, hw, hat2, he2, hp, hgt⟩ := walkRight_eq hn _ lo' (n + 1) anc' hat (by omega : n - lo' ≤ n) (by omega)
    have heq := anc_unique hat2 hN (by rw [he2, eN])
    subst heq
    rw [hra] at hw hp hgt
    have hlast : ((pre ++ a :: anc').filter (fun y => y > m - 1)).getLast? = some a := by
      have : anc'.filter (fun y => y > m - 1) = [] := by
        rw [List.filter_eq_nil_iff]; intro y hy; have := ha y hy; simp; omega
      rw [List.filter_append, List.filter_cons_of_pos (by simpa using hxa), this]
      simp
    refine ⟨_, (pre ++ a :: anc').filter (fun y => y > m - 1) ++ rest, _, hfM, ?_, hfN, ?_, ?_, ?_⟩
    · rw [hup]
      unfold extendRight
      rw [hlast]
      simp only [hw]; rfl
    · intro y hy
      rcases List.mem_append.1 hy with hy | hy
      · exact anc_lt h y (List.mem_filter.1 hy).1
      · have : y ∈ anc2.reverse ++ [n - 1] := by rw [hp]; simp [hy]
        rcases List.mem_append.1 this with hy | hy
        · exact anc_lt hN y (List.mem_reverse.1 hy)
        · rw [List.mem_singleton.1 hy]; omega
    · intro _ y hy
      rw [hp] at hy
      rcases List.mem_append.1 hy with hy | hy
      · left
        have hy := List.mem_reverse.1 hy
        exact hknown y (by simp [hy]) (ha y hy)
      · right
        rcases List.mem_cons.1 hy with rfl | hy
        · simp only [List.mem_append, List.mem_filter]; left; simp; exact hxa
        · simp [hy]
    · intro hmem
      exfalso
      rw [hp] at hmem
      rcases List.mem_append.1 hmem with hy | hy
      · have := ha _ (List.mem_reverse.1 hy); omega
      · rcases List.mem_cons.1 hy with hy | hy
        · omega
        · have := hgt _ hy; omega

-- both cases occur
example : frontier 3 = .ok [1, 2] ∧ updateView 7 (some 3) = .ok [3, 5, 6] ∧ frontier 7 = .ok [3, 5, 6] := by decide
example : frontier 4 = .ok [3] ∧ updateView 7 (some 4) = .ok [] := by decide

/-- A client with no previous view gets the whole frontier, and an unchanged tree needs nothing. -/
theorem C18_first_view {n : Nat} (h0 : 0 < n) (hn : n < 2 ^ 64) :
    updateView n none = frontier n ∧ updateView n (some 0) = frontier n ∧ updateView n (some n) = .ok [] := by
  have h1 : extendRight [root n] n = frontier n := by
    unfold extendRight frontier
    simp
  refine ⟨h1, ?_, by simp [updateView]⟩
  unfold updateView
  simp only []
  rw [if_neg (by omega), if_pos trivial]
  exact h1

/-- With size zero the frontier computation panics (C17 uses this). -/
theorem C17_frontier_zero_panics : Panics (frontier 0) := ⟨"leaf node has no children", by decide⟩

end Katie.Props
