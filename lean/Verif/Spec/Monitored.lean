import Verif.Spec.Served
import Verif.Spec.ContactMap

/-
What a client knows about a label that it monitors, and the steps of monitoring before the tree head is checked.
-/

namespace Katie.ServedSpec
open Katie Katie.Wire Katie.Alg Katie.Ladder Katie.Server Katie.Client Katie.ServerSpec

/-- What the client has retained about versions of the label is right: every version once, with its VRF output; the
commitments are those of the values that the log has. -/
structure Retains (env : Env) (cs : List Change) (l : Bytes) (versions : List RetainedVersion) : Prop where
  once : (versions.map (·.version)).Nodup
  vrf : ∀ r ∈ versions, ∃ proof, computeVrf env l r.version = .ok (r.vrfOutput, proof)
  commitment : ∀ r ∈ versions, ∀ c, r.commitment = some c →
    ∃ x, (versionsOf l cs)[r.version]? = some x ∧ pairOf env l r.version x = .ok (r.vrfOutput, c)

/-- The client has retained the versions of the ladders that it will see: for every monitored entry the versions up to
its own, with the commitments; for every version that the owner knows the versions of its ladder, with the commitments up to
this version. -/
structure Prepared (versions : List RetainedVersion) (contact : List MonitorMapEntry) (owner : Option LabelOwnerState) : Prop where
  contact : ∀ e ∈ contact, ∀ b, monitoringBinaryLadder e.version = .ok b → ∀ v ∈ b, ∃ r ∈ versions, r.version = v ∧ r.commitment ≠ none
  zero : ∀ o, owner = some o → ∃ r ∈ versions, r.version = 0
  owner : ∀ o, owner = some o → ∀ k : Nat, o.verAtStarting ≤ k → (k : Int) ≤ o.verAtStarting + o.upcomingVers.length →
    ∀ b, searchBinaryLadder k k [] [] = .ok b → ∀ v ∈ b, ∃ r ∈ versions, r.version = v ∧ (v ≤ k → r.commitment ≠ none)

/-- What the owner knows is right: the version at the starting position, and where the next versions appeared (`index` are
the positions of all versions). -/
structure OwnerKnows (index : List Nat) (n : Nat) (starting : Nat) (verAtStarting : Int) (upcoming : List Nat) : Prop where
  start : starting < n
  version : verAtStarting = (index.countP (· ≤ starting) : Int) - 1
  upcoming : upcoming <+: index.drop (verAtStarting + 1).toNat

/-- what `ContactMonitor` and `OwnerMonitor` start with -/
def monitorOf (c : PMap) (o : Option Owner) (m : Monitor) : Monitor :=
  match o with
  | none => { m with contact := some c }
  | some o => { m with contact := some c, owner := some o }

/-- the owner state for the algorithm -/
def ownerOf (o : LabelOwnerState) : Owner := ⟨o.starting, o.verAtStarting, o.upcomingVers⟩

/-- The steps of `contactMonitor` and `ownerMonitor` (client.go:372-400, 422-448, client_crypto.go:205-224) before the tree
head is checked: the monitor, the verifier, what is to be retained, the root hash, and the root hash at the auditor's size. -/
def checkedMonitor (env : CEnv) (now : Nat) (state : Option ClientState) (last : Option Nat) (versions : List RetainedVersion)
    (contact : List MonitorMapEntry) (owner : Option LabelOwnerState) (res : MonitorResponse) :
    G (Monitor × Verifier × Provider.Result × Bytes × Bytes) := do
  let v ← newVerifier state last res.fullTreeHead res.monitor
  let v ← addRetainedVersions env versions v
  let v ← v.updateView env now
  let (m, v) ← v.run env (newMonitor env.cfg v.n)
  let (m, v) ← v.run env (Alg.contactMonitor (monitorOf (contactMap contact) (owner.map ownerOf) m))
  let (m, v) ← if owner = none then pure (m, v) else v.run env (Alg.ownerMonitor m)
  match v.p.finish env.cs (Received.handle env.cs) v.n v.nP v.m with
  | (.error e, _) => .error e
  | (.ok result, p) => do
    let root ← Log.root env.cs v.n result.fullSubtrees
    let rootP ← auditorRoot env v.nP result.additional
    pure (m, { v with p := p }, result, root, rootP)

/-- `contactMonitor` is these steps, the check of the tree head, and the new state of the label. -/
theorem contactMonitor_eq (env : CEnv) (now : Nat) (state : Option ClientState) (ls : ClientLabelState) (req : ContactMonitorRequest)
    (res : MonitorResponse) (st : CStore) :
    Client.contactMonitor env now state ls req res st = (do
      let (m, v, result, root, rootP) ← checkedMonitor env now state req.last ls.versions ls.contact none res
      let v ← verifyTreeHead env v root rootP
      let updated ← newState v result
      let contact ← contactStruct? m.contact
      let ls ← updateRetainedVersions { ls with contact := contact } v.p.state
      let (dle, _) ← v.run env (rightmostDistinguished env.cfg v.n)
      match dle with
      | none => goErr "unable to compute rightmost distinguished log entry"
      | some x => putLabelState st updated req.label ls x) := by
  unfold Client.contactMonitor checkedMonitor
  cases newVerifier state req.last res.fullTreeHead res.monitor with
  | error e => rfl
  | ok v =>
  simp only [G.ok_bind]
  cases addRetainedVersions env ls.versions v with
  | error e => rfl
  | ok v =>
  simp only [G.ok_bind]
  cases v.updateView env now with
  | error e => rfl
  | ok v =>
  simp only [G.ok_bind]
  cases v.run env (newMonitor env.cfg v.n) with
  | error e => rfl
  | ok r =>
  obtain ⟨m, v⟩ := r
  simp only [G.ok_bind, Option.map_none, monitorOf]
  cases v.run env (Alg.contactMonitor { m with contact := some (contactMap ls.contact) }) with
  | error e => rfl
  | ok r =>
  obtain ⟨m, v⟩ := r
  simp only [G.ok_bind, if_true, G.pure_eq]
  unfold Verifier.finish
  cases v.p.finish env.cs (Received.handle env.cs) v.n v.nP v.m with
  | mk r p =>
  cases r with
  | error e => rfl
  | ok result =>
  simp only
  cases Log.root env.cs v.n result.fullSubtrees with
  | error e => rfl
  | ok root =>
  simp only [G.ok_bind]
  cases auditorRoot env v.nP result.additional with
  | error e => rfl
  | ok rootP =>
  simp only [G.ok_bind, G.pure_eq]
  cases verifyTreeHead env { v with p := p } root rootP with
  | error e => rfl
  | ok w =>
  simp only [G.ok_bind]
  cases newState w result with
  | error e => rfl
  | ok s => rfl

/-- `ownerMonitor` is these steps, the check of the tree head, and the new state of the label. -/
theorem ownerMonitor_eq (env : CEnv) (now : Nat) (state : Option ClientState) (ls : ClientLabelState) (o : LabelOwnerState)
    (req : OwnerMonitorRequest) (res : MonitorResponse) (st : CStore) :
    Client.ownerMonitor env now state ls o req res st = (do
      let (m, v, result, root, rootP) ← checkedMonitor env now state req.last ls.versions ls.contact (some o) res
      let v ← verifyTreeHead env v root rootP
      let updated ← newState v result
      let contact ← contactStruct? m.contact
      match m.owner with
      | none => goPanic "nil pointer dereference"
      | some o => do
        let ls ← updateRetainedVersions
          { ls with contact := contact, owner := some ⟨o.starting, o.verAtStarting, o.upcoming⟩ } v.p.state
        putLabelState st updated req.label ls o.starting) := by
  unfold Client.ownerMonitor checkedMonitor
  cases newVerifier state req.last res.fullTreeHead res.monitor with
  | error e => rfl
  | ok v =>
  simp only [G.ok_bind]
  cases addRetainedVersions env ls.versions v with
  | error e => rfl
  | ok v =>
  simp only [G.ok_bind]
  cases v.updateView env now with
  | error e => rfl
  | ok v =>
  simp only [G.ok_bind]
  cases v.run env (newMonitor env.cfg v.n) with
  | error e => rfl
  | ok r =>
  obtain ⟨m, v⟩ := r
  simp only [G.ok_bind, Option.map_some, monitorOf, ownerOf]
  cases v.run env (Alg.contactMonitor
    { m with contact := some (contactMap ls.contact), owner := some ⟨o.starting, o.verAtStarting, o.upcomingVers⟩ }) with
  | error e => rfl
  | ok r =>
  obtain ⟨m, v⟩ := r
  simp only [G.ok_bind, reduceCtorEq, if_false]
  cases v.run env (Alg.ownerMonitor m) with
  | error e => rfl
  | ok r =>
  obtain ⟨m, v⟩ := r
  simp only [G.ok_bind]
  unfold Verifier.finish
  cases v.p.finish env.cs (Received.handle env.cs) v.n v.nP v.m with
  | mk r p =>
  cases r with
  | error e => rfl
  | ok result =>
  simp only
  cases Log.root env.cs v.n result.fullSubtrees with
  | error e => rfl
  | ok root =>
  simp only [G.ok_bind]
  cases auditorRoot env v.nP result.additional with
  | error e => rfl
  | ok rootP =>
  simp only [G.ok_bind, G.pure_eq]
  cases verifyTreeHead env { v with p := p } root rootP with
  | error e => rfl
  | ok w =>
  simp only [G.ok_bind]
  cases newState w result with
  | error e => rfl
  | ok s => rfl

end Katie.ServedSpec
