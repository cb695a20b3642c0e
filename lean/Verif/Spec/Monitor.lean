import Verif.Spec.Distinguished
import Verif.Spec.Trace

/-
Vocabulary for the monitoring theorems.
-/

namespace Katie.SearchSpec
open Katie

/-- `y` is an ancestor of `x` in the search tree over `n` entries, and to its right -/
def RightAnc (n x y : Nat) : Prop := ∃ lo hi anc, IsNode n x lo hi anc ∧ y ∈ anc ∧ x < y

/-- `x` itself or an ancestor to its right -/
def RightUp (n x y : Nat) : Prop := y = x ∨ RightAnc n x y

/-- the last entry on the way up from `x` along ancestors to the right -/
def Top (n x t : Nat) : Prop := RightUp n x t ∧ ∀ y, RightUp n x y → y ≤ t

/-- no entry on the way up from `x` is distinguished -/
def NoDist (W : Nat) (ts : Nat → Nat) (n x : Nat) : Prop := ∀ d, RightUp n x d → ¬ Distinguished (Wide W) ts n d

/-- `y` has to be inspected when monitoring `x`: it is above `x`, to its right, and not above the first distinguished entry `d`
(if the label's owner monitors from `start` on and `d` is right of it: nor that entry itself, as the owner inspects it anyway) -/
def ToInspect (W : Nat) (ts : Nat → Nat) (n : Nat) (start : Option Nat) (x y : Nat) : Prop :=
  RightAnc n x y ∧ ∀ d, RightUp n x d → Distinguished (Wide W) ts n d → y ≤ d ∧ (y = d → ∀ s, start = some s → d ≤ s)

/-- the least number with property `P`, if there is one -/
def IsLeast' (P : Nat → Prop) : Option Nat → Prop
  | some m => P m ∧ ∀ y, P y → m ≤ y
  | none => ∀ y, ¬ P y

end Katie.SearchSpec

namespace Katie.Alg
open Katie

/-- A monitoring ladder for version `v` or a greater one was obtained from entry `y` and verified. -/
def Verified (tr : List Ev) (y v : Nat) : Prop := ∃ v', v ≤ v' ∧ (⟨.monitor y v', .ok ()⟩ : Ev) ∈ tr

end Katie.Alg
