import Verif.Spec.Served

/-
The steps of the initialization of a label owner before the tree head is checked.
-/

namespace Katie.ServedSpec
open Katie Katie.Wire Katie.Alg Katie.Ladder Katie.Server Katie.Client Katie.ServerSpec

/-- The steps of `ownerInit` (client.go:266-300, client_crypto.go:205-224) before the tree head is checked: the monitor, the
verifier, what is to be retained, the root hash, and the root hash at the auditor's size. -/
def checkedInit (env : CEnv) (now : Nat) (state : Option ClientState) (req : OwnerInitRequest) (res : OwnerInitResponse) :
    G (Monitor × Verifier × Provider.Result × Bytes × Bytes) := do
  let v ← newVerifier state req.last res.fullTreeHead res.init
  let ladder ← allLadderVersions res.greatestVersions
  let v ← processLadder env req.label res.binaryLadder ladder [] v
  commitmentsPresent res.greatestVersions (ladder.zip res.binaryLadder)
  let v ← v.updateView env now
  let (m, v) ← v.run env (newMonitor env.cfg v.n)
  let (r, v) ← v.run env (Alg.ownerInit m req.start res.greatestVersions)
  match v.p.finish env.cs (Received.handle env.cs) v.n v.nP v.m with
  | (.error e, _) => .error e
  | (.ok result, p) => do
    let root ← Log.root env.cs v.n result.fullSubtrees
    let rootP ← auditorRoot env v.nP result.additional
    pure (r.1, { v with p := p }, result, root, rootP)

/-- `ownerInit` is these steps, the check of the tree head, and the new state of the label. -/
theorem ownerInit_eq (env : CEnv) (now : Nat) (state : Option ClientState) (ls : ClientLabelState) (req : OwnerInitRequest)
    (res : OwnerInitResponse) (st : CStore) :
    Client.ownerInit env now state ls req res st = (do
      let (m, v, result, root, rootP) ← checkedInit env now state req res
      let v ← verifyTreeHead env v root rootP
      let updated ← newState v result
      match m.owner with
      | none => goPanic "nil pointer dereference"
      | some o => do
        let ls := { ls with owner := some ⟨o.starting, o.verAtStarting, o.upcoming⟩ }
        let v ← addRetainedVersions env ls.versions v
        let ls ← updateRetainedVersions ls v.p.state
        putLabelState st updated req.label ls req.start) := by
  unfold Client.ownerInit checkedInit
  cases newVerifier state req.last res.fullTreeHead res.init with
  | error e => rfl
  | ok v =>
  cases h1 : allLadderVersions res.greatestVersions with
  | error e => simp only [G.ok_bind]; rfl
  | ok ladder =>
  cases h2 : processLadder env req.label res.binaryLadder ladder [] v with
  | error e => simp only [G.ok_bind, h2]; rfl
  | ok v =>
  cases h3 : commitmentsPresent res.greatestVersions (ladder.zip res.binaryLadder) with
  | error e => simp only [G.ok_bind, h2, h3]; rfl
  | ok u =>
  cases h4 : v.updateView env now with
  | error e => simp only [G.ok_bind, h2, h3, h4]; rfl
  | ok v =>
  simp only [G.ok_bind, h2, h3, h4]
  cases v.run env (newMonitor env.cfg v.n) with
  | error e => rfl
  | ok r =>
  obtain ⟨m, v⟩ := r
  simp only [G.ok_bind]
  cases v.run env (Alg.ownerInit m req.start res.greatestVersions) with
  | error e => rfl
  | ok r =>
  obtain ⟨r, v⟩ := r
  simp only [G.ok_bind]
  unfold Verifier.finish
  cases v.p.finish env.cs (Received.handle env.cs) v.n v.nP v.m with
  | mk x p =>
  cases x with
  | error e => rfl
  | ok result =>
  simp only
  cases Log.root env.cs v.n result.fullSubtrees with
  | error e => rfl
  | ok root =>
  simp only [G.ok_bind]
  cases auditorRoot env v.nP result.additional with
  | error e => rfl
  | ok rootP =>
  simp only [G.ok_bind, G.pure_eq]
  cases verifyTreeHead env { v with p := p } root rootP with
  | error e => rfl
  | ok w =>
  simp only [G.ok_bind]
  cases newState w result with
  | error e => rfl
  | ok s => rfl

end Katie.ServedSpec
