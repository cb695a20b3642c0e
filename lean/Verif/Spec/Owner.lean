import Verif.Spec.Monitor
import Verif.Model.Algorithms

/-
Vocabulary for owner monitoring.
-/

namespace Katie.Alg
open Katie

/-- Upcoming versions are listed from left to right, and are right of the starting position. -/
def Owner.WF (o : Owner) : Prop := o.upcoming.Pairwise (· ≤ ·) ∧ ∀ u ∈ o.upcoming, o.starting < u

/-- The greatest version at `y`: that at the starting position plus the number of later versions created up to `y`. -/
def Owner.versionAt (o : Owner) (y : Nat) : Int := o.verAtStarting + (o.upcoming.countP (· ≤ y) : Nat)

/-- A search ladder was obtained from entry `y` and showed that `v` is the greatest version there (none, if `v` is negative).
Versions are 32 bits wide.  `om` tells whether lookups made before may be left out. -/
def ShownGreatest (tr : List Ev) (y : Nat) (v : Int) (om : Bool := false) : Prop :=
  (v < 0 ∧ (⟨.search y 0 om, .ok (-1 : Int)⟩ : Ev) ∈ tr) ∨
  (0 ≤ v ∧ (⟨.search y (v.toNat % 2 ^ 32) om, .ok (0 : Int)⟩ : Ev) ∈ tr)

/-- The provider said that the proof is exhausted. -/
def Stopped (tr : List Ev) : Prop := ∃ x v, (⟨.stop x v, .ok true⟩ : Ev) ∈ tr

/-- Once exhausted, a proof stays so. -/
def StopSticks (tr : List Ev) : Prop :=
  ∀ t1 t2, tr = t1 ++ t2 → Stopped t1 → ∀ x v b, (⟨.stop x v, .ok b⟩ : Ev) ∈ t2 → b = true

end Katie.Alg
