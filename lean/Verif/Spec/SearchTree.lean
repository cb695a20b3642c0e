/-
Specification of the implicit search tree over log entries `0 .. n-1`, by recursion on ranges
and independent of the bit arithmetic of the code.

The root of the range `[lo, hi)` is the entry `rt lo hi`; its left subtree is the tree over
`[lo, rt lo hi)` and its right subtree the tree over `[rt lo hi + 1, hi)`.
-/

namespace Katie.SearchSpec

/-- root of the search tree over the entries `lo ≤ y < hi`: the left subtree is as large as a
perfect tree that fits. -/
def rt (lo hi : Nat) : Nat := lo + 2 ^ Nat.log2 (hi - lo) - 1

/-- `At n lo hi anc`: the range `[lo, hi)` is the range of a subtree of the search tree with `n`
entries, and `anc` are the ancestors of its root, nearest first. -/
inductive At (n : Nat) : Nat → Nat → List Nat → Prop
  | root : 0 < n → At n 0 n []
  | left {lo hi anc} : At n lo hi anc → lo < rt lo hi → At n lo (rt lo hi) (rt lo hi :: anc)
  | right {lo hi anc} : At n lo hi anc → rt lo hi + 1 < hi →
      At n (rt lo hi + 1) hi (rt lo hi :: anc)

/-- `IsNode n x lo hi anc`: entry `x` is the root of the subtree with range `[lo, hi)`. -/
def IsNode (n x lo hi : Nat) (anc : List Nat) : Prop := At n lo hi anc ∧ rt lo hi = x

end Katie.SearchSpec
