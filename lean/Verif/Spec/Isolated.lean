import Verif.Spec.Server
import Verif.Model.ServerOps

/-
Specification of concurrent reading.  A `Tree` that only answers requests reads through a connection without a snapshot
(/repo/db/leveldb.go:95-97 `Clone`), but keeps the tree head that was current when it was made
(/repo/tree/transparency/transparency.go:66-104).  While it works, another `Tree` makes changes.
-/

namespace Katie.ServerSpec
open Katie Katie.Wire Katie.Server

/-- the database at some moment after the changes `cs`: more changes were made since, all of them `ok` -/
def Moment (env : Env) (cs : List Change) (us : List AuditorUpdate) (ok : Change → Prop) (st : Store) : Prop :=
  ∃ cs' us' t', Runs env (cs ++ cs') (us ++ us') t' ∧ st = t'.db ∧ ∀ c ∈ cs', ok c

/-- What a reader sees that reads each key at a moment of its own: nothing ties together the keys of one table, or the
tables. -/
structure ReadsFrom (S : Store → Prop) (st : Store) : Prop where
  entries : ∀ k, ∃ s, S s ∧ st.entries.lookup k = s.entries.lookup k
  index : ∀ k, ∃ s, S s ∧ st.index.lookup k = s.index.lookup k
  versions : ∀ k, ∃ s, S s ∧ st.versions.lookup k = s.versions.lookup k
  log : ∀ k, ∃ s, S s ∧ st.log.lookup k = s.log.lookup k
  tiles : ∀ k, ∃ s, S s ∧ st.tiles.lookup k = s.tiles.lookup k

/-- the server `t`, keeping its tree head, but reading from `st` -/
def reading (t : Tree) (st : Store) : Tree := { t with tx := st }

/-- the change leaves label `l` in place: it may add versions -/
def Keeps (l : Bytes) (c : Change) : Prop := l ∉ c.remove

/-- the change does not concern label `l` -/
def LeavesAlone (l : Bytes) (c : Change) : Prop := l ∉ c.remove ∧ l ∉ c.add.map LabelValue.label

end Katie.ServerSpec
