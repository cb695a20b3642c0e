import Verif.Model.Memory

/-
The uses of a database on which the two implementations are compared.
-/

namespace Katie.MemorySpec
open Katie Katie.DB

/-- the method only reads -/
def Reads : Call → Prop
  | .getTreeHead | .getIndexes _ | .getVersion _ _ | .getEntries _ | .getChunks _ | .getTiles _ => True
  | _ => False

/-- where the use of a database has got to: the number of stores (the original and its clones); whether a tree head was
stored; whether there were writes since the last commit; and the clones made since the last write, when nothing was pending -/
structure Phase where
  count : Nat := 1
  headPut : Bool := false
  pending : Bool := false
  fresh : List Nat := []

/-- A tree head that is stored is not nil, and there is a tree head before there is one of the auditor. -/
def Sensible (p : Phase) : Call → Prop
  | .putTreeHead raw => raw ≠ none
  | .putAuditorTreeHead raw => raw = none ∨ p.headPut = true
  | _ => True

/-- the phase after a write or a commit -/
def Phase.after (p : Phase) : Call → Phase
  | .commit => { p with pending := false }
  | .putTreeHead _ => { p with pending := true, fresh := [], headPut := true }
  | _ => { p with pending := true, fresh := [] }

/-- Writes go to the original store only.  A clone is made from the original or from a usable clone; it is used for reading
only, and only if it was made when nothing was pending and nothing was written since. -/
def Disciplined : Phase → List Step → Prop
  | _, [] => True
  | p, .clone i :: ss =>
    (i = 0 ∨ i ∈ p.fresh) ∧
    Disciplined { p with count := p.count + 1, fresh := if p.pending then p.fresh else p.count :: p.fresh } ss
  | p, .call i c :: ss =>
    (Reads c ∧ (i = 0 ∨ i ∈ p.fresh) ∧ Disciplined p ss) ∨ (¬ Reads c ∧ i = 0 ∧ Sensible p c ∧ Disciplined (p.after c) ss)

end Katie.MemorySpec
