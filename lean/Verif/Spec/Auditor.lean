import Verif.Spec.LogTree
import Verif.Spec.Distinguished
import Verif.Spec.Codec
import Verif.Spec.Prefix
import Verif.Model.Auditor

/-
Specification of auditing: what the auditor has audited is a list of log entries, together with the updates that
led to them.
-/

namespace Katie.AuditSpec
open Katie Katie.Wire Katie.Audit

/-- the leaf of the log tree that stands for a log entry: the hash of its 8-byte timestamp and its prefix tree root -/
def leafHash (cs : Log.Suite) (e : LogEntry) : Bytes := cs.H (putBE 8 e.timestamp ++ e.prefixTree)

/-- the timestamp of entry `x` -/
def timeOf (W : List LogEntry) (x : Nat) : Nat :=
  match W[x]? with
  | some e => e.timestamp
  | none => 0

/-- An audited update, with the log entry it leads to. -/
structure Audited where
  update : AuditorUpdate
  entry : LogEntry

/-- `Chain cs A`: in the audited history `A`, each entry has the timestamp of its update, which is not less than that
of the entry before; evaluating the update's proof gives the root of the entry before and the root of the entry. -/
inductive Chain (cs : Log.Suite) : List Audited → Prop
  | nil : Chain cs []
  | snoc {A : List Audited} {u : AuditorUpdate} {before after : Bytes} : Chain cs A →
      (∀ p, A.getLast? = some p → p.entry.timestamp ≤ u.timestamp) →
      Prefix.evaluateBeforeAfter cs u.added u.removed u.proof = .ok (before, after) →
      (∀ p, A.getLast? = some p → before = p.entry.prefixTree) →
      Chain cs (A ++ [⟨u, ⟨u.timestamp, after⟩⟩])

/-- the audited log -/
def log (A : List Audited) : List LogEntry := A.map Audited.entry

/-- The auditor's state describes the log `W`: its size, the heads of its log tree, the timestamp and prefix tree root
of its last entry, and the timestamps on the frontier. -/
structure Describes (cs : Log.Suite) (W : List LogEntry) (s : AState) : Prop where
  pos : 0 < W.length
  size : s.treeSize = W.length
  heads : s.fullSubtrees = LogSpec.heads cs.H (W.map (leafHash cs))
  time : s.timestamp = timeOf W (W.length - 1)
  root : ∀ e, W.getLast? = some e → s.prefixTree = e.prefixTree
  frontier : ∃ fr, SearchTree.frontier W.length = .ok fr ∧ s.timestamps = fr.map (timeOf W)

/-- the same for an auditor that may not have accepted anything yet -/
def DescribesO (cs : Log.Suite) (W : List LogEntry) : Option AState → Prop
  | none => W = []
  | some s => Describes cs W s

/-- The fields of a state have the ranges of their Go types and the lengths that `NewAuditorState` assumes, and the
state is signed. -/
structure StateTyped (hashSize : Nat) (s : AState) : Prop where
  signed : s.signature.isSome
  timestamp : Fits 8 s.timestamp
  treeSize : Fits 8 s.treeSize
  subtrees : s.fullSubtrees.length = onesCount s.treeSize ∧ Each (fun b : Bytes => b.length = hashSize) s.fullSubtrees
  times : ∃ fr, SearchTree.frontier s.treeSize = .ok fr ∧ s.timestamps.length = fr.length ∧ Each (Fits 8) s.timestamps
  root : s.prefixTree.length = hashSize
  inserted : Each (fun i : Inserted => Fits 8 i.pos ∧ i.vrf.length = hashSize) s.inserted

/-- `h` is a head of the log `W`, signed with `sign`: its size, the timestamp of its last entry, and a signature over
those and the root of the Merkle tree of all its entries. -/
def HeadOf (cs : Log.Suite) (cfg : Config) (sign : Bytes → G Bytes) (W : List LogEntry) (h : AuditorTreeHead) : Prop :=
  0 < W.length ∧ h.treeSize = W.length ∧ h.timestamp = timeOf W (W.length - 1) ∧
  ∃ tbs, auditorTreeHeadTBS cfg h.timestamp h.treeSize (LogSpec.rootHash cs.H (W.map (leafHash cs))) = .ok tbs ∧
    sign tbs = .ok h.signature

/-- An update whose fields have the ranges of their Go types and whose byte strings have the size of a hash, as they
have when the update was read from the wire. -/
def UpdateOk (cs : Log.Suite) (u : AuditorUpdate) : Prop := u.Typed ⟨cs.hashSize, 0, 0⟩

/-- the heads returned by a call of `Commit` -/
def returned (r : G AuditorTreeHead) : List AuditorTreeHead :=
  match r with
  | .ok h => [h]
  | .error _ => []

/-- the history after `u` was processed with this result -/
def extended (us : List AuditorUpdate) (u : AuditorUpdate) (r : G Unit) : List AuditorUpdate :=
  match r with
  | .ok _ => us ++ [u]
  | .error _ => us

/-- the part of the history that the database knows: all of it, if the database was written -/
def keptAfter (us kept : List AuditorUpdate) (a b : Auditor) : List AuditorUpdate :=
  if b.stored = a.stored then kept else us

/-- `Exec cs cfg key sign U P us kept hs a`: an auditor that is now `a`, has accepted the updates `us`, of which `kept`
would survive a restart, and has returned the heads `hs` since it was first started.  It is started with an empty
database, processes updates with property `U`, commits to a database that behaves as one with property `P`, and is
restarted, all in any order.  (The number of log entries stays below `2^64 - 1`, so that the tree size does not
overflow.) -/
inductive Exec (cs : Log.Suite) (cfg : Config) (key : Bytes) (sign : Bytes → G Bytes) (U : AuditorUpdate → Prop)
    (P : (Bytes → G Unit) → Prop) :
    List AuditorUpdate → List AuditorUpdate → List AuditorTreeHead → Auditor → Prop
  | start {a : Auditor} : newAuditor cs.hashSize cfg key none = .ok a → Exec cs cfg key sign U P [] [] [] a
  | update {us kept : List AuditorUpdate} {hs : List AuditorTreeHead} {a : Auditor} {u : AuditorUpdate} :
      Exec cs cfg key sign U P us kept hs a → U u → size a.state + 1 < 2 ^ 64 →
      Exec cs cfg key sign U P (extended us u (process cs cfg u a).1) kept hs (process cs cfg u a).2
  | commit {us kept : List AuditorUpdate} {hs : List AuditorTreeHead} {a : Auditor} {put : Bytes → G Unit} :
      Exec cs cfg key sign U P us kept hs a → P put →
      Exec cs cfg key sign U P us (keptAfter us kept a (Audit.commit cs cfg sign put a).2)
        (hs ++ returned (Audit.commit cs cfg sign put a).1) (Audit.commit cs cfg sign put a).2
  | restart {us kept : List AuditorUpdate} {hs : List AuditorTreeHead} {a b : Auditor} :
      Exec cs cfg key sign U P us kept hs a → newAuditor cs.hashSize cfg key a.stored = .ok b →
      Exec cs cfg key sign U P kept kept hs b

end Katie.AuditSpec

namespace Katie.AuditSpec
open Katie Katie.Wire

/-- the change of the prefix tree that an update lists -/
def batchOf (u : AuditorUpdate) : PrefixSpec.Batch :=
  ⟨u.added.map (fun e => (e.vrf, e.com)), u.removed.map (fun e => e.vrf)⟩

/-- the timestamp of entry `x` of the log described by these updates -/
def times (us : List AuditorUpdate) (x : Nat) : Nat :=
  match us[x]? with
  | some u => u.timestamp
  | none => 0

end Katie.AuditSpec
