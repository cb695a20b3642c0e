import Verif.Lemmas.LogEval

/-
C01: the node numbering helpers of tree/log/math describe one left-balanced tree.

The specification (`Verif/Spec/LogTree.lean`) is the inductive relation `At n lo s path cop`:
"the subtree over the `s` leaves from `lo` on occurs in the left-balanced tree over `n` leaves", with
the in-order numbers `nd` of its ancestors and of the siblings on the way up.
-/

namespace Katie.Props
open Katie Katie.LogMath Katie.LogSpec

/-- Left/right child, parent and sibling of every inner node of the tree over `n` leaves: the left
child covers the first `half s` leaves, the right one the others, and parent and sibling invert them. -/
theorem C01_children_parent_sibling {n lo s : Nat} {p c : List Nat} (h : At n lo s p c) (hs : 2 ≤ s) :
    left (nd lo s) = .ok (nd lo (half s)) ∧
    right (nd lo s) n = .ok (nd (lo + half s) (s - half s)) ∧
    parent (nd lo (half s)) n = .ok (nd lo s) ∧
    parent (nd (lo + half s) (s - half s)) n = .ok (nd lo s) ∧
    sibling (nd lo (half s)) n = .ok (nd (lo + half s) (s - half s)) ∧
    sibling (nd (lo + half s) (s - half s)) n = .ok (nd lo (half s)) := by
  have hn : 0 < n := by
    by_contra h0
    have : n = 0 := by omega
    subst this
    have := h.len
    omega
  have hsub := h.sub hn
  exact ⟨left_nd hsub hs, right_nd hsub hs, parent_left hsub hs, parent_right hsub hs,
    sibling_left hsub hs, sibling_right hsub hs⟩

example : At 7 4 3 [7] [3] :=
  At.right (n := 7) (lo := 0) (s := 7) .root (by decide)

example : left (nd 4 3) = .ok 9 ∧ right (nd 4 3) 7 = .ok 12 ∧ parent 12 7 = .ok 11 ∧ sibling 12 7 = .ok 9 := by
  decide

/-- The root covers all leaves and has no parent. -/
theorem C01_root {n : Nat} (hn : 0 < n) :
    At n 0 n [] [] ∧ root n = nd 0 n ∧ Panics (parent (root n) n) :=
  ⟨.root, root_eq hn, by unfold parent; simp [Panics, goPanic]⟩

/-- Leaves have no children: asking for them panics. -/
theorem C01_leaf_no_children (x n : Nat) : Panics (left (nd x 1)) ∧ Panics (right (nd x 1) n) := by
  have e : nd x 1 = idx 0 x := by simp [nd, idx]
  have hl : level (nd x 1) = 0 := by rw [e, level_idx]
  constructor
  · unfold left; simp [hl, Panics, goPanic]
  · unfold right rightStep; simp [hl, Panics, goPanic]

/-- The numbers `0 … 2n-2` are exactly the nodes of the tree, each of one subtree only. -/
theorem C01_numbering_bijective {n : Nat} (hn : 0 < n) :
    (∀ x, x < 2 * n - 1 → ∃ lo s p c, At n lo s p c ∧ nd lo s = x) ∧
    (∀ lo s p c, At n lo s p c → nd lo s < 2 * n - 1) ∧
    (∀ lo s p c lo' s' p' c', At n lo s p c → At n lo' s' p' c' → nd lo s = nd lo' s' → lo = lo' ∧ s = s') := by
  refine ⟨?_, ?_, ?_⟩
  · intro x hx
    exact exists_at n 0 [] [] x .root hn (by omega) (by omega)
  · intro lo s p c h
    have := nd_lt (lo := lo) (h.sub hn).pos
    have := (h.sub hn).le
    omega
  · intro lo s p c lo' s' p' c' h h' e
    exact (h.sub hn).unique (h'.sub hn) e

/-- The parent chain of every node reaches the root; the copath is the list of siblings on the way. -/
theorem C01_paths {n lo s : Nat} {p c : List Nat} (hn : 0 < n) (h : At n lo s p c) :
    directPath (nd lo s) n = .ok p ∧ copath (nd lo s) n = .ok c ∧
    (nd lo s :: p).getLast? = some (root n) := by
  refine ⟨directPath_eq hn h, copath_eq hn h, ?_⟩
  induction h with
  | root => simp [root_eq hn]
  | left h hs ih => rw [List.getLast?_cons_cons]; exact ih
  | right h hs ih => rw [List.getLast?_cons_cons]; exact ih

example : directPath (2 * 5) 7 = .ok [9, 11, 7] ∧ copath (2 * 5) 7 = .ok [8, 12, 3] := by decide

/-- Every leaf of the tree is a node of it. -/
theorem C01_leaf {n x : Nat} (hx : x < n) : ∃ p c, At n x 1 p c := by
  obtain ⟨lo, s, p, c, h, e⟩ := exists_at n 0 [] [] (nd x 1) .root (by omega) (by omega) (by rw [nd_leaf]; omega)
  obtain ⟨rfl, rfl⟩ := (h.sub (by omega)).unique (Sub.leaf hx) e
  exact ⟨p, c, h⟩

/-- A node is reported full iff the number of leaves below it is a power of two, and the full subtrees
of a tree are complete, in left-to-right order with strictly decreasing sizes, disjoint, and cover
exactly the leaves `0 … n-1`. -/
theorem C01_full_subtrees {n : Nat} (hn : 0 < n) :
    (∀ lo s p c, At n lo s p c → (isFullSubtree (nd lo s) n = true ↔ ∃ k, s = 2 ^ k)) ∧
    ∃ fs : List (Nat × Nat),
      fullSubtrees (root n) n = .ok (fs.map fun p => nd p.1 p.2) ∧
      (∀ p ∈ fs, (∃ k, p.2 = 2 ^ k) ∧ ∃ pa co, At n p.1 p.2 pa co) ∧
      (fs.map Prod.snd).Pairwise (· > ·) ∧
      fs.flatMap (fun p => List.range' p.1 p.2) = List.range n := by
  have hroot := Sub.root hn
  refine ⟨?_, fsList 0 n, ?_, ?_, ?_, ?_⟩
  · intro lo s p c h
    rw [isFull_nd (h.sub hn)]
    constructor
    · exact fun e => ⟨_, e⟩
    · rintro ⟨k, rfl⟩; rw [ht_two_pow]
  · rw [root_eq hn]; exact fullSubtrees_eq hroot
  · intro p hp
    refine ⟨(fsList_cover n 0 hn).1 p hp, ?_⟩
    obtain ⟨a, b, c, d⟩ := Log.fsList_mem _ _ hroot p hp
    have hlt := nd_lt (lo := p.1) a.pos
    obtain ⟨lo, s, pa, co, h, e⟩ := exists_at n 0 [] [] (nd p.1 p.2) .root hn (by omega) (by omega)
    obtain ⟨h1, h2⟩ := (h.sub hn).unique a e
    rw [← h1, ← h2]
    exact ⟨pa, co, h⟩
  · exact (fsList_cover n 0 hn).2.1
  · rw [(fsList_cover n 0 hn).2.2, List.range_eq_range']

example : fullSubtrees (root 13) 13 = .ok [7, 19, 24] := by decide

/-- The storage chunk of the node at level `K`, index `i` is the node 0 to 3 levels above it, at a level
`≡ 3 (mod 4)`, whose subtree contains it. -/
theorem C01_chunk (K i : Nat) :
    ∃ d j, d ≤ 3 ∧ (K + d) % 4 = 3 ∧ 2 ^ d * j ≤ i ∧ i < 2 ^ d * (j + 1) ∧
      level (2 ^ (K + 1) * i + (2 ^ K - 1)) = K ∧
      chunk (2 ^ (K + 1) * i + (2 ^ K - 1)) = .ok (2 ^ (K + d + 1) * j + (2 ^ (K + d) - 1)) := by
  refine ⟨3 - K % 4, i / 2 ^ (3 - K % 4), by omega, by omega, Nat.mul_div_le _ _, ?_, level_idx K i, chunk_idx K i⟩
  exact Nat.lt_mul_div_succ i (Nat.two_pow_pos _)

example : chunk 20 = .ok 23 ∧ chunk 23 = .ok 23 ∧ chunk 31 = .ok 127 := by decide

end Katie.Props
