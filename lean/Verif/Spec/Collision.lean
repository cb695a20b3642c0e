import Verif.Spec.LogTree
import Verif.Model.Log

/-
How "unless the hash inputs contain a collision" is stated: two *explicit* lists of strings, one hashed
by the honest computation over the log, one hashed by the verifier, with two different strings of equal
digest.  (A bare "some collision exists" would be true of every compressing hash.)
-/

namespace Katie.LogSpec
open Katie Katie.Log

/-- two different strings, one from each list, with the same digest -/
def Collides (H : Bytes → Bytes) (A B : List Bytes) : Prop :=
  ∃ a ∈ A, ∃ b ∈ B, a ≠ b ∧ H a = H b

/-- byte form of a verifier's node -/
def encND (d : NodeData) : Bytes := (if d.leaf then 0 else 1) :: d.value

/-- The strings a verifier hashes while evaluating a proof, read off its final node map: for each node
of the map whose two children are in the map, the concatenation of the children. -/
def evalInputs (n : Nat) (M : NMap) : List Bytes :=
  M.filterMap fun p =>
    match LogMath.left p.1, LogMath.right p.1 n with
    | .ok l, .ok r =>
      match M.lookup l, M.lookup r with
      | some a, some b => some (encND a ++ encND b)
      | _, _ => none
    | _, _ => none

/-- The strings hashed when rolling up a list of subtree values from the right. -/
def rollInputs (H : Bytes → Bytes) : List NodeData → List Bytes
  | [] => []
  | [_] => []
  | a :: rest =>
    (encND a ++ encND (acc H rest)) :: rollInputs H rest
where
  /-- the rolled-up value -/
  acc (H : Bytes → Bytes) : List NodeData → NodeData
  | [] => ⟨true, []⟩
  | [a] => a
  | a :: rest => ⟨false, H (encND a ++ encND (acc H rest))⟩

/-- The strings hashed by `log.Root` on a list of full-subtree values. -/
def rootInputs (H : Bytes → Bytes) (n : Nat) (fullSubtrees : List Bytes) : List Bytes :=
  match LogMath.fullSubtrees (LogMath.root n) n with
  | .ok xs => rollInputs H (List.zipWith (fun x v => ⟨LogMath.isLeaf x, v⟩) xs fullSubtrees)
  | .error _ => []

end Katie.LogSpec
