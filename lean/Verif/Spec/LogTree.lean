import Verif.Model.Basic

/-
Specification of the log tree, independent of node numbers: the left-balanced binary tree over a
list of leaves splits `s ≥ 2` leaves at the largest power of two smaller than `s`.
-/

namespace Katie.LogSpec
open Katie

/-- The largest power of two smaller than `s` (for `s ≥ 2`; see `half_spec`). -/
def half (s : Nat) : Nat := 2 ^ Nat.log2 (s - 1)

theorem half_lt {s : Nat} (hs : 2 ≤ s) : half s < s := by
  have := Nat.log2_self_le (n := s - 1) (by omega)
  unfold half; omega

theorem half_pos (s : Nat) : 0 < half s := Nat.two_pow_pos _

/-- `half s` is the largest power of two smaller than `s`. -/
theorem half_spec {s : Nat} (hs : 2 ≤ s) :
    (∃ k, half s = 2 ^ k) ∧ half s < s ∧ s ≤ 2 * half s := by
  refine ⟨⟨_, rfl⟩, half_lt hs, ?_⟩
  have : s - 1 < 2 ^ (Nat.log2 (s - 1) + 1) := Nat.lt_log2_self
  unfold half; rw [Nat.pow_succ] at this; omega

/-- In-order number of the root of the subtree over the `s` leaves starting at leaf `lo`: a subtree
over `s` leaves has `2 s - 1` nodes, so `2 lo` numbers (nodes and gaps) come before it, and its left
child, over `half s` leaves, uses `2 (half s) - 1` more. -/
def nd (lo s : Nat) : Nat := if s ≤ 1 then 2 * lo else 2 * (lo + half s) - 1

/-- `At n lo s path cop`: the subtree over leaves `lo … lo+s-1` occurs in the left-balanced tree over
`n` leaves; `path` are the numbers of its proper ancestors from its parent up to the root, and `cop`
the numbers of the siblings of the nodes on the way up. -/
inductive At (n : Nat) : Nat → Nat → List Nat → List Nat → Prop
  | root : At n 0 n [] []
  | left {lo s : Nat} {p c : List Nat} : At n lo s p c → 2 ≤ s →
      At n lo (half s) (nd lo s :: p) (nd (lo + half s) (s - half s) :: c)
  | right {lo s : Nat} {p c : List Nat} : At n lo s p c → 2 ≤ s →
      At n (lo + half s) (s - half s) (nd lo s :: p) (nd lo (half s) :: c)

/-- The maximal complete subtrees of `(lo, s)` as intervals `(start, size)`, left to right. -/
def fsList (lo s : Nat) : List (Nat × Nat) :=
  if h : s ≤ 1 then [(lo, s)]
  else if s = 2 * half s then [(lo, s)]
  else
    have := half_pos s
    have := half_lt (s := s) (by omega)
    (lo, half s) :: fsList (lo + half s) (s - half s)
termination_by s
decreasing_by omega

/-- A node value: the digest, and whether it stands for a leaf. -/
structure Val where
  leaf : Bool
  value : Bytes
  deriving DecidableEq, Repr

/-- Byte form of a child inside its parent's hash input: one byte 0 (leaf) / 1 (intermediate),
then the digest. -/
def Val.enc (v : Val) : Bytes := (if v.leaf then 0 else 1) :: v.value

/-- Merkle value of a non-empty list of leaf values. -/
def merkle (H : Bytes → Bytes) (L : List Bytes) : Val :=
  if h : L.length ≤ 1 then ⟨true, L.headD []⟩
  else
    have : half L.length < L.length := half_lt (by omega)
    have := half_pos L.length
    ⟨false, H ((merkle H (L.take (half L.length))).enc ++ (merkle H (L.drop (half L.length))).enc)⟩
termination_by L.length
decreasing_by all_goals simp; omega

/-- Root digest of the log with leaf values `L`. -/
def rootHash (H : Bytes → Bytes) (L : List Bytes) : Bytes := (merkle H L).value

/-- The strings hashed when computing `merkle H L`. -/
def inputs (H : Bytes → Bytes) (L : List Bytes) : List Bytes :=
  if h : L.length ≤ 1 then []
  else
    have : half L.length < L.length := half_lt (by omega)
    have := half_pos L.length
    ((merkle H (L.take (half L.length))).enc ++ (merkle H (L.drop (half L.length))).enc)
      :: (inputs H (L.take (half L.length)) ++ inputs H (L.drop (half L.length)))
termination_by L.length
decreasing_by all_goals simp; omega

/-- The maximal complete subtrees of a log of `L`, left to right: peel off the largest power of two
of leaves while more than one power of two remains. -/
def heads (H : Bytes → Bytes) (L : List Bytes) : List Bytes :=
  if h : L.length ≤ 1 then L
  else
    have : half L.length < L.length := half_lt (by omega)
    have := half_pos L.length
    if L.length = 2 * half L.length then [(merkle H L).value]
    else (merkle H (L.take (half L.length))).value :: heads H (L.drop (half L.length))
termination_by L.length
decreasing_by simp; omega

end Katie.LogSpec
