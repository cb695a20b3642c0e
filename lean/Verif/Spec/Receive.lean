import Verif.Model.Client
import Verif.Spec.Distinguished

/-
A client that receives arbitrary bytes.
-/

namespace Katie.ReceiveSpec
open Katie Katie.Wire Katie.Alg Katie.Client

/-- The computation ends, with a result or with an error, or with one of the given panics. -/
def Answers {α : Type} (panics : List String) (r : G α) : Prop :=
  (∃ a, r = .ok a) ∨ (∃ m, r = .error (.err m)) ∨ ∃ m ∈ panics, r = .error (.panic m)

/-- What is assumed of the client: its configuration was accepted by `NewClient`, the hash function has at least 32 bytes
of output, and its VRF key always returns. -/
structure Ready (env : CEnv) : Prop where
  accepted : newClient env.cfg = .ok ()
  long : 32 ≤ env.cs.hashSize
  hash : ∀ b, (env.cs.H b).length = env.cs.hashSize
  vrf : ∀ a b, Answers [] (env.vrfVerify a b)

/-- the client has seen a tree that is not empty -/
def Seen (s : ClientState) : Prop := 0 < s.treeHead.treeSize ∧ s.treeHead.treeSize < 2 ^ 64

/-- The first version for which the binary ladder does not end (C19). -/
def tooGreat : Nat := 2 ^ 31 - 1

/-- What the client has stored about a label is about the tree that it has seen, and about versions that are not too
great. -/
structure Sane (s : ClientState) (ls : ClientLabelState) : Prop where
  contact : ∀ e ∈ ls.contact, e.position < s.treeHead.treeSize ∧ e.version < tooGreat
  owner : ∀ o, ls.owner = some o → -1 ≤ o.verAtStarting ∧ o.verAtStarting + o.upcomingVers.length < tooGreat ∧
    o.upcomingVers.Pairwise (· ≤ ·)

/-- decode the response to a search, then verify it -/
def receiveSearch (env : CEnv) (now : Nat) (order : PMap → List (Nat × Nat)) (s : ClientState) (label : Bytes)
    (version : Option Nat) (st : CStore) (raw : Bytes) : G CStore := do
  let (res, _) ← newSearchResponse env.cfg env.sz (searchRequest (some s) label version) raw
  Client.search env now order (some s) (searchRequest (some s) label version) res st

/-- the same for an initialization -/
def receiveInit (env : CEnv) (now : Nat) (s : ClientState) (ls : ClientLabelState) (label : Bytes) (start : Nat) (st : CStore)
    (raw : Bytes) : G CStore := do
  let (res, _) ← newOwnerInitResponse env.cfg env.sz raw
  Client.ownerInit env now (some s) ls ⟨getLast (some s), label, start⟩ res st

/-- the same for the monitoring by a contact -/
def receiveContact (env : CEnv) (now : Nat) (s : ClientState) (ls : ClientLabelState) (label : Bytes) (st : CStore)
    (raw : Bytes) : G CStore := do
  let (res, _) ← newMonitorResponse env.cfg env.sz raw
  Client.contactMonitor env now (some s) ls ⟨getLast (some s), label, ls.contact⟩ res st

/-- the same for the monitoring by the owner -/
def receiveOwner (env : CEnv) (now : Nat) (s : ClientState) (ls : ClientLabelState) (o : LabelOwnerState) (label : Bytes)
    (st : CStore) (raw : Bytes) : G CStore := do
  let (res, _) ← newMonitorResponse env.cfg env.sz raw
  Client.ownerMonitor env now (some s) ls o ⟨getLast (some s), label, ls.contact, o.starting, greatestVersion o⟩ res st

/-- the same for an update -/
def receiveUpdate (env : CEnv) (now : Nat) (sv : Stream) (st : CStore) (raw : Bytes) : G (Stream × CStore) := do
  let (res, _) ← newUpdateResponse env.cfg env.sz raw
  sv.verify env now res st

/-- the version that a response to a search is about is not too great -/
def SearchInRange (env : CEnv) (s : ClientState) (label : Bytes) (version : Option Nat) (raw : Bytes) : Prop :=
  (∀ v, version = some v → v < tooGreat) ∧
  ∀ res rest v, newSearchResponse env.cfg env.sz (searchRequest (some s) label version) raw = .ok (res, rest) →
    res.version = some v → v < tooGreat

/-- the versions of a response to an initialization are not too great -/
def InitInRange (env : CEnv) (raw : Bytes) : Prop :=
  ∀ res rest, newOwnerInitResponse env.cfg env.sz raw = .ok (res, rest) → ∀ v ∈ res.greatestVersions, v < tooGreat

/-- The log entries that the client has retained are distinct entries of one log, whose timestamps do not decrease. -/
def Retained (s : ClientState) : Prop :=
  ∃ (n : Nat) (E : Nat → LogEntry) (f : List Nat), SearchSpec.GoodTimes (fun x => (E x).timestamp) n ∧ f.Nodup ∧
    (∀ x ∈ f, x < n) ∧ s.logEntries = f.map (fun x => (x, E x))

end Katie.ReceiveSpec
