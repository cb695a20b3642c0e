import Verif.Model.Prefix
import Verif.Spec.Prefix

/-
Executions of the prefix tree: sequences of successful calls of `Mutate` on the same store.
-/

namespace Katie.PrefixSpec
open Katie Katie.Prefix

/-- pairs as the code's `Entry` -/
def entries (l : List Pair) : List Entry := l.map (fun e => ⟨e.1, e.2⟩)

/-- `History cs bs st`: starting from an empty store, the calls of `Mutate` with the batches `bs`, each at the
version produced by the one before, have succeeded and left the store `st`.  From the second version on a
batch is not empty (`Mutate` with nothing to do leaves an unreadable version, see
`Katie.Props.C13_noop_unreadable`).  The bounds keep tile ids in the range of `uint64`. -/
inductive History (cs : Suite) : List Batch → Store → Prop
  | nil : History cs [] []
  | step {bs : List Batch} {st : Store} {b : Batch} {res : MutateResult} : History cs bs st →
      mutate cs st bs.length (entries b.add) b.remove = .ok res →
      (bs = [] ∨ b.add ≠ [] ∨ b.remove ≠ []) →
      bs.length + 1 < 2 ^ 64 → (contents (bs ++ [b])).length < 2 ^ 54 →
      History cs (bs ++ [b]) res.store

end Katie.PrefixSpec
