import Verif.Model.Basic
import Mathlib.Data.List.Perm.Basic

/-
What a prefix tree is, independently of the code: a finite map from VRF outputs to commitments, given as a
list of pairs, and the hash of the compressed binary trie over it.
-/

namespace Katie.PrefixSpec
open Katie

/-- a VRF output and its commitment -/
abbrev Pair := Bytes × Bytes

/-- the bits of a byte, most significant first -/
def byteBits (b : UInt8) : List Bool := [7, 6, 5, 4, 3, 2, 1, 0].map b.toNat.testBit

/-- the bits of a byte string, most significant first -/
def bits (v : Bytes) : List Bool := v.flatMap byteBits

/-- bit `d`, `false` beyond the end -/
def bitAt (v : Bytes) (d : Nat) : Bool := (bits v).getD d false

/-- The hash of the trie over `S` from depth `d` on, with at most `k` levels left: nothing is the all-zero
string, one entry is a leaf, more entries are a parent of the entries with bit `d` clear and the entries
with bit `d` set. -/
def trieHash (H : Bytes → Bytes) (hs : Nat) : Nat → Nat → List Pair → Bytes
  | _, _, [] => List.replicate hs 0
  | _, _, [(v, c)] => H (2 :: (v ++ c))
  | 0, _, _ :: _ :: _ => []
  | k + 1, d, a :: b :: S =>
    H (3 :: (trieHash H hs k (d + 1) ((a :: b :: S).filter fun e => !bitAt e.1 d) ++
      trieHash H hs k (d + 1) ((a :: b :: S).filter fun e => bitAt e.1 d)))

/-- The root hash of the prefix tree with the entries `S` (VRF outputs of `hs` bytes). -/
def rootHash (H : Bytes → Bytes) (hs : Nat) (S : List Pair) : Bytes := trieHash H hs (8 * hs) 0 S

/-- A finite map: all VRF outputs and commitments have `hs` bytes, no VRF output occurs twice. -/
structure IsMap (hs : Nat) (S : List Pair) : Prop where
  len : ∀ e ∈ S, e.1.length = hs ∧ e.2.length = hs
  distinct : (S.map Prod.fst).Nodup

/-- One change of the map: pairs to add, VRF outputs to remove. -/
structure Batch where
  add : List Pair
  remove : List Bytes
  deriving DecidableEq, Repr

/-- the map after a change: removals first, then additions -/
def Batch.apply (b : Batch) (S : List Pair) : List Pair :=
  S.filter (fun e => decide (e.1 ∉ b.remove)) ++ b.add

/-- the map after a sequence of changes -/
def contents (bs : List Batch) : List Pair := bs.foldl (fun S b => b.apply S) []

/-- A change that makes sense for the map `S`: sizes are right, no VRF output is listed twice, added VRF
outputs are absent or removed by the same change, removed ones are present. -/
structure Batch.Valid (hs : Nat) (S : List Pair) (b : Batch) : Prop where
  addLen : ∀ e ∈ b.add, e.1.length = hs ∧ e.2.length = hs
  addDistinct : (b.add.map Prod.fst).Nodup
  removeLen : ∀ v ∈ b.remove, v.length = hs
  removeDistinct : b.remove.Nodup
  fresh : ∀ e ∈ b.add, e.1 ∈ S.map Prod.fst → e.1 ∈ b.remove
  present : ∀ v ∈ b.remove, v ∈ S.map Prod.fst

/-- the entries whose VRF output begins with the bits `p` -/
def under (p : List Bool) (S : List Pair) : List Pair := S.filter fun e => decide (p <+: bits e.1)

/-- Wherever the change leaves at most one of two or more entries with a common beginning, it lists entries in both
halves.  (Then a tree that is only known along the listed VRF outputs is known well enough to carry out the change; a
change without removals always has this property.) -/
def Batch.Resolved (S : List Pair) (b : Batch) : Prop :=
  ∀ p, 2 ≤ (under p S).length → (under p (b.apply S)).length ≤ 1 →
    ∀ c, ∃ v ∈ b.add.map Prod.fst ++ b.remove, p ++ [c] <+: bits v

/-- The strings hashed when computing the hash of the trie. -/
def trieInputs (H : Bytes → Bytes) (hs : Nat) : Nat → Nat → List Pair → List Bytes
  | _, _, [] => []
  | _, _, [(v, c)] => [2 :: (v ++ c)]
  | 0, _, _ :: _ :: _ => []
  | k + 1, d, a :: b :: S =>
    (3 :: (trieHash H hs k (d + 1) ((a :: b :: S).filter fun e => !bitAt e.1 d) ++
      trieHash H hs k (d + 1) ((a :: b :: S).filter fun e => bitAt e.1 d))) ::
    (trieInputs H hs k (d + 1) ((a :: b :: S).filter fun e => !bitAt e.1 d) ++
      trieInputs H hs k (d + 1) ((a :: b :: S).filter fun e => bitAt e.1 d))

/-- The strings hashed when computing the root hash. -/
def rootInputs (H : Bytes → Bytes) (hs : Nat) (S : List Pair) : List Bytes :=
  trieInputs H hs (8 * hs) 0 S

/-- two different strings, one from each list, with the same digest -/
def Collides (H : Bytes → Bytes) (A B : List Bytes) : Prop :=
  ∃ a ∈ A, ∃ b ∈ B, a ≠ b ∧ H a = H b

/-- one of the strings has the all-zero digest -/
def ZeroDigest (H : Bytes → Bytes) (hs : Nat) (A : List Bytes) : Prop :=
  ∃ a ∈ A, H a = List.replicate hs 0

end Katie.PrefixSpec
