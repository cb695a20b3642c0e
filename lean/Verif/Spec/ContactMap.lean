import Verif.Spec.Monitor
import Verif.Model.Client

/-
Vocabulary for the theorems on the monitoring map that a client keeps for a label: which positions of the log it still
has to monitor, each with a version of the label.
-/

namespace Katie.ContactSpec
open Katie Katie.Wire Katie.Alg Katie.SearchSpec

/-- Monitoring the entries `es` takes care of version `v` at position `x`: `x` itself or an entry above and to its right is
monitored, for version `v` or a later one. -/
def Covers (n : Nat) (es : List MonitorMapEntry) (x v : Nat) : Prop :=
  ∃ e ∈ es, RightUp n x e.position ∧ v ≤ e.version

/-- `order` lists the entries of a map, in whichever order -/
def IsOrder (order : PMap → List (Nat × Nat)) : Prop := ∀ m, (order m).Perm m

/-- by increasing position -/
def Ascending (order : PMap → List (Nat × Nat)) : Prop := ∀ m, (order m).Pairwise (fun a b => a.1 ≤ b.1)

/-- strictly increasing positions, in the tree -/
structure Positions (n : Nat) (es : List MonitorMapEntry) : Prop where
  sorted : es.Pairwise (fun a b => a.position < b.position)
  inTree : ∀ e ∈ es, e.position < n

/-- Strictly increasing positions and versions, and every position is the entry where the version appeared or one above and
to the right of it.  `index` are the positions where the versions of the label appeared. -/
structure Acceptable (index : List Nat) (n : Nat) (es : List MonitorMapEntry) : Prop where
  sorted : es.Pairwise (fun a b => a.position < b.position ∧ a.version < b.version)
  placed : ∀ e ∈ es, ∃ first, index[e.version]? = some first ∧ RightUp n first e.position

end Katie.ContactSpec
