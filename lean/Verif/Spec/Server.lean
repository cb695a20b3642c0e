import Verif.Spec.Auditor
import Verif.Spec.PrefixHistory
import Verif.Model.Server

/-
Specification of the server's state: what each label's versions should be after a sequence of changes, and the
executions of the server.
-/

namespace Katie.ServerSpec
open Katie Katie.Wire Katie.Server Katie.PrefixSpec

/-- one version of a label: the log entry that introduced it, its value, and the opening of its commitment -/
structure Version where
  pos : Nat
  value : UpdateValue
  opening : Bytes
  deriving DecidableEq, Repr

/-- the values that a change adds to label `l`, in the order in which they were submitted -/
def added (l : Bytes) (c : Change) : List UpdateValue := (c.add.filter (fun p => p.label == l)).map LabelValue.value

/-- what is left of the versions of label `l` after the removals of a change -/
def kept (l : Bytes) (c : Change) (vs : List Version) : List Version := if l ∈ c.remove then [] else vs

/-- the new versions of label `l`, if it has `k` versions after the removals, and the change is made in log entry `n` -/
def fresh (l : Bytes) (n : Nat) (c : Change) (k : Nat) : List Version :=
  (added l c).mapIdx (fun i x => ⟨n, x, c.opening l (k + i)⟩)

/-- the versions of label `l` after the change: a removed label starts again without versions, new versions come last -/
def step (l : Bytes) (n : Nat) (c : Change) (vs : List Version) : List Version :=
  kept l c vs ++ fresh l n c (kept l c vs).length

/-- The versions of label `l` after the changes `cs`; the `v`-th element of the list is version `v`. -/
def versionsOf (l : Bytes) (cs : List Change) : List Version :=
  cs.zipIdx.foldl (fun vs e => step l e.2 e.1 vs) []

/-- the pair in the prefix tree for version `v` of label `l` -/
def pairOf (env : Env) (l : Bytes) (v : Nat) (x : Version) : G Pair := do
  let vrf ← computeVrf env l v
  let body ← commitmentValue l v x.value
  pure (vrf.1, Commit.commit env.cs x.opening body)

/-- the log described by the updates for the auditor: timestamps, and the root hash over everything added and not
removed so far -/
def logOf (cs : Log.Suite) (us : List AuditorUpdate) : List LogEntry :=
  us.mapIdx (fun i u => ⟨u.timestamp, rootHash cs.H cs.hashSize (contents ((us.take (i + 1)).map AuditSpec.batchOf))⟩)

/-- What the environment guarantees about a call of `Mutate`: any order of processing is a permutation, the time is a
64-bit number, openings have the right length, and values have the form that the mode of operation asks for. -/
structure ChangeOk (env : Env) (c : Change) : Prop where
  order : ∀ l, (c.order l).Perm l
  now : c.now < 2 ^ 64
  opening : ∀ l v, (c.opening l v).length = env.sz.opening
  value : ∀ p ∈ c.add, p.value.Typed env.cfg

/-- the history is within the bounds of the data types: positions, versions, tiles -/
structure InRange (cs : List Change) : Prop where
  size : cs.length < 2 ^ 63
  pairs : (cs.flatMap Change.add).length < 2 ^ 54
  versions : ∀ l, (versionsOf l cs).length ≤ 2 ^ 32

/-- `Runs env cs us t`: a server that is now `t`, has made the changes `cs`, and has returned the updates `us` for the
auditor.  It starts with an empty database and is restarted any number of times, always after a call of `Mutate` that
failed.  From the second change on, a change has to change something (see `C13_noop_unreadable` for what happens
otherwise). -/
inductive Runs (env : Env) : List Change → List AuditorUpdate → Tree → Prop
  | start {t : Tree} : newTree env {} = .ok t → Runs env [] [] t
  | change {cs : List Change} {us : List AuditorUpdate} {t t' : Tree} {c : Change} {u : AuditorUpdate} :
      Runs env cs us t → mutate env c t = (.ok u, t') → ChangeOk env c → InRange (cs ++ [c]) →
      (cs = [] ∨ u.added ≠ [] ∨ u.removed ≠ []) → Runs env (cs ++ [c]) (us ++ [u]) t'
  | restart {cs : List Change} {us : List AuditorUpdate} {t t' : Tree} :
      Runs env cs us t → newTree env t.db = .ok t' → Runs env cs us t'
  | failed {cs : List Change} {us : List AuditorUpdate} {t t₁ t' : Tree} {c : Change} {e : Fault} :
      Runs env cs us t → mutate env c t = (.error e, t₁) → newTree env t₁.db = .ok t' → Runs env cs us t'

/-- an auditor processes all of these updates, accepting each; the auditor afterwards -/
def auditAll (cs : Log.Suite) (cfg : Config) : List AuditorUpdate → Audit.Auditor → G Audit.Auditor
  | [], a => .ok a
  | u :: us, a =>
    match Audit.process cs cfg u a with
    | (.error e, _) => .error e
    | (.ok (), a) => auditAll cs cfg us a

/-- Every update is one that an auditor can check: nothing is both added and removed, and where at most one of several
entries with a common beginning is left, both halves have listed entries. -/
def Checkable (us : List AuditorUpdate) : Prop :=
  ∀ i u, us[i]? = some u →
    ((AuditSpec.batchOf u).add.map Prod.fst ++ (AuditSpec.batchOf u).remove).Nodup ∧
    (AuditSpec.batchOf u).Resolved (contents ((us.take i).map AuditSpec.batchOf))

end Katie.ServerSpec
