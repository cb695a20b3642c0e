import Verif.Model.ServerOps
import Verif.Model.Auditor
import Verif.Model.Commitment

/-
Model of the client: /repo/tree/transparency/client.go and client_crypto.go.

* `time.Now()` (read inside `algorithms.UpdateView`) is the argument `now`.
* The public keys are the functions `sigVerify`, `auditorVerify`, `leafVerify` and `vrfVerify`.  Whether a key is nil
  is in the configuration.
* The store (`db.ClientStore`, db.go:66-90) is an interface without an implementation in the repository.  The model is
  a store that does what the interface says and never fails.  `GetStaleLabel` may return any stale label: the model
  takes the choice as an argument.
* A `VerifyFunc` keeps the state that was read when the request was made; the model passes it explicitly.  Every
  verification function ends with its only write, so it is a function from the store to the new store or an error.
* Go goes through maps in random order.  Where this matters (`simplifyMonitoringMap`) the order is an argument.
-/

namespace Katie.Client
open Katie Katie.Wire Katie.Alg Katie.Ladder Katie.Server

/-- what a client is configured with, and the public keys as functions -/
structure CEnv where
  cs : Log.Suite
  sz : Sizes
  cfg : Config
  /-- `VrfKey.Verify` -/
  vrfVerify : Bytes → Bytes → G Bytes
  /-- `SignatureKey.Verify` -/
  sigVerify : Bytes → Bytes → Bool
  /-- `AuditorPublicKey.Verify` -/
  auditorVerify : Bytes → Bytes → Bool
  /-- `LeafPublicKey.Verify` -/
  leafVerify : Bytes → Bytes → Bool

/-- client.go:25-46 `NewClient`: whether the configuration is accepted -/
def newClient (cfg : Config) : G Unit :=
  let ok :=
    if cfg.mode = contactMonitoring then cfg.leafKey.isNone && cfg.auditorKey.isNone
    else if cfg.mode = thirdPartyManagement then cfg.leafKey.isSome && cfg.auditorKey.isNone
    else if cfg.mode = thirdPartyAuditing then cfg.leafKey.isNone && cfg.auditorKey.isSome
    else false
  let ok := if cfg.maxLifetime > 0 ∧ cfg.maxLifetime ≤ cfg.rmw then false else ok
  if ¬ ok then goErr "invalid configuration given" else pure ()

/-! ### the store -/

/-- db.go:66-90 `ClientStore` -/
structure CStore where
  state : Option Bytes := none
  labels : List (Bytes × Bytes × Nat) := []
  deriving DecidableEq, Repr

/-- db.go:83-89 `PutLabelState` -/
def CStore.putLabel (st : CStore) (raw label : Bytes) (rawLabel : Option Bytes) (terminal : Nat) : CStore :=
  let rest := st.labels.filter (fun e => e.1 ≠ label)
  ⟨some raw, match rawLabel with
    | none => rest
    | some r => (label, r, terminal) :: rest⟩

/-- client.go:48-65 `getState` -/
def getState (env : CEnv) (st : CStore) : G (Option ClientState) :=
  match st.state with
  | none => pure none
  | some raw => do
    let s ← readAll (newClientState env.cfg env.sz) "unexpected data appended to client state" raw
    pure (some s)

/-- client_crypto.go:278-292 `parseLabelState` -/
def parseLabelState (env : CEnv) : Option Bytes → G ClientLabelState
  | none => pure ⟨[], none, []⟩
  | some raw => readAll (newClientLabelState env.sz) "unexpected data appended to client label state" raw

/-- client.go:67-73 `getLabelState` -/
def getLabelState (env : CEnv) (st : CStore) (label : Bytes) : G ClientLabelState :=
  parseLabelState env ((st.labels.lookup label).map (·.1))

/-- client.go:89-95 `putState` -/
def putState (st : CStore) (updated : ClientState) : G CStore := do
  let raw ← updated.marshal
  pure { st with state := some raw }

/-- client.go:107-113: the label state to store, if there is anything to store -/
def rawLabelState (ls : ClientLabelState) : G (Option Bytes) :=
  if ls.contact.length > 0 ∨ ls.owner ≠ none then do
    let raw ← ls.marshal
    pure (some raw)
  else pure none

/-- client.go:97-115 `putLabelState` -/
def putLabelState (st : CStore) (updated : ClientState) (label : Bytes) (ls : ClientLabelState) (terminal : Nat) :
    G CStore := do
  let raw ← updated.marshal
  let rawLabel ← rawLabelState ls
  pure (st.putLabel raw label rawLabel terminal)

/-! ### the verifier -/

/-- client_crypto.go:16-27 `verifier` (the handle is the state of the provider) -/
structure Verifier where
  state : Option ClientState
  fth : FullTreeHead
  p : Provider Received
  n : Nat
  nP : Option Nat
  m : Option Nat

/-- client_crypto.go:36-44: the provider with the retained entries -/
def retainedProvider (state : Option ClientState) (proof : CombinedTreeProof) : G (Provider Received) :=
  match state with
  | none => pure (newProvider ⟨proof, [], {}⟩)
  | some s =>
    match (newProvider (⟨proof, [], {}⟩ : Received)).addRetained s.fullSubtrees s.logEntries with
    | (.error e, _) => .error e
    | (.ok _, p) => .ok p

/-- client_crypto.go:46-54: the size of the new tree -/
def treeSizeOf (fth : FullTreeHead) (last : Option Nat) : G Nat :=
  match fth.treeHead with
  | some th => pure th.treeSize
  | none =>
    match last with
    | some l => pure l
    | none => goErr "no tree head was provided when required"

/-- client_crypto.go:29-62 `newVerifier` -/
def newVerifier (state : Option ClientState) (last : Option Nat) (fth : FullTreeHead) (proof : CombinedTreeProof) :
    G Verifier := do
  let p ← retainedProvider state proof
  let n ← treeSizeOf fth last
  pure ⟨state, fth, p, n, fth.auditor.map (·.treeSize), last⟩

/-- run an algorithm on the provider -/
def Verifier.run {α : Type} (env : CEnv) (prog : Prog α) (v : Verifier) : G (α × Verifier) :=
  match v.p.run (Received.handle env.cs) prog with
  | (.error e, _) => .error e
  | (.ok a, p) => .ok (a, { v with p := p })

/-- client_crypto.go:64-66 `updateView` -/
def Verifier.updateView (env : CEnv) (now : Nat) (v : Verifier) : G Verifier := do
  let (_, v) ← v.run env (Alg.updateView env.cfg now v.n v.m)
  pure v

/-- one call of `v.handle.AddVersion` -/
def Verifier.addVersion (env : CEnv) (v : Verifier) (ver : Nat) (vrf : Bytes) (com : Option Bytes) : G Verifier := do
  let s ← v.p.state.addVersion env.cs ver vrf com
  pure { v with p := { v.p with state := s } }

/-- client_crypto.go:88-96 `addLabelState` -/
def addRetainedVersions (env : CEnv) : List RetainedVersion → Verifier → G Verifier
  | [], v => pure v
  | e :: rest, v => do
    let v ← v.addVersion env e.version e.vrfOutput e.commitment
    addRetainedVersions env rest v

/-- client_crypto.go:121-126: the commitment of a version -/
def ladderCommitment (manual : List (Nat × Bytes)) (ver : Nat) (step : BinaryLadderStep) : G (Option Bytes) :=
  match manual.lookup ver with
  | some c => if step.commitment ≠ none then goErr "commitment provided when not expected" else pure (some c)
  | none => pure step.commitment

/-- client_crypto.go:111-131: the loop of `processLadder` -/
def processSteps (env : CEnv) (label : Bytes) (manual : List (Nat × Bytes)) :
    List (Nat × BinaryLadderStep) → Verifier → G Verifier
  | [], v => pure v
  | (ver, step) :: rest, v => do
    let input ← vrfInput label ver
    let vrf ← env.vrfVerify input step.proof
    let com ← ladderCommitment manual ver step
    let v ← v.addVersion env ver vrf com
    processSteps env label manual rest v

/-- client_crypto.go:101-134 `processLadder` -/
def processLadder (env : CEnv) (label : Bytes) (ladder : List BinaryLadderStep) (vers : List Nat)
    (manual : List (Nat × Bytes)) (v : Verifier) : G Verifier :=
  if ladder.length ≠ vers.length then goErr "incorrect number of binary ladder steps provided"
  else processSteps env label manual (vers.zip ladder) v

/-- client_crypto.go:165-200: the checks of the auditor's tree head -/
def verifyAuditor (env : CEnv) (v : Verifier) (a : AuditorTreeHead) (rootP : Bytes) : G Verifier := do
  (match v.state with
    | none => pure ()
    | some s =>
      match s.auditor with
      | none => goErr "missing previous auditor tree head"
      | some old =>
        if old.treeSize < env.cfg.auditorStartPos then
          goErr "previous auditor tree size does not cover new auditor start position"
        else pure () : G Unit)
  match v.p.getTimestamp (Received.handle env.cs) (sub64 v.n 1) with
  | (.error e, _) => .error e
  | (.ok rightmost, p) =>
    if a.timestamp > rightmost then goErr "auditor timestamp is greater than rightmost log entry timestamp"
    else if rightmost - a.timestamp > env.cfg.maxAuditorLag then
      goErr "auditor timestamp is too far behind rightmost log entry timestamp"
    else if a.treeSize > v.n then goErr "auditor tree size is greater than transparency log tree size"
    else do
      let tbs ← auditorTreeHeadTBS env.cfg a.timestamp a.treeSize rootP
      if env.cfg.auditorKey = none then goPanic "nil pointer dereference"
      else if ¬ env.auditorVerify tbs a.signature then goErr "failed to verify auditor signature"
      else pure { v with p := p }

/-- client_crypto.go:136-201 `verifyTreeHead` -/
def verifyTreeHead (env : CEnv) (v : Verifier) (root rootP : Bytes) : G Verifier :=
  match v.fth.treeHead with
  | none => if v.state = none then goErr "same tree head not allowed when client has no state" else pure v
  | some th =>
    if v.state.any (fun s => decide (s.treeHead.treeSize ≤ v.n)) then
      goErr "provided tree size is not greater than advertised"
    else do
      let tbs ← treeHeadTBS env.cfg v.n root
      if ¬ env.sigVerify tbs th.signature then goErr "failed to verify tree head signature"
      else
        match v.fth.auditor with
        | none => pure v
        | some a => verifyAuditor env v a rootP

/-- client_crypto.go:232-242: the new state.  `v.state.TreeHead` is read even if the client has no state. -/
def newState (v : Verifier) (r : Provider.Result) : G ClientState :=
  match v.state with
  | none => goPanic "nil pointer dereference"
  | some s => pure ⟨v.fth.treeHead.getD s.treeHead, v.fth.auditor, r.fullSubtrees, r.logEntries⟩

/-- client_crypto.go:218-224: the root of the tree that the auditor signed -/
def auditorRoot (env : CEnv) (nP : Option Nat) (additional : List Bytes) : G Bytes :=
  match nP with
  | none => pure []
  | some k => Log.root env.cs k additional

/-- client_crypto.go:205-243 `finish` -/
def Verifier.finish (env : CEnv) (v : Verifier) : G (ClientState × Verifier) :=
  match v.p.finish env.cs (Received.handle env.cs) v.n v.nP v.m with
  | (.error e, _) => .error e
  | (.ok result, p) => do
    let root ← Log.root env.cs v.n result.fullSubtrees
    let rootP ← auditorRoot env v.nP result.additional
    let v ← verifyTreeHead env { v with p := p } root rootP
    let updated ← newState v result
    pure (updated, v)

/-- client_crypto.go:245-250 `getLast` -/
def getLast (state : Option ClientState) : Option Nat := state.map (·.treeHead.treeSize)

/-- client_crypto.go:252-267 `getDistinguished`: a provider without a handle; the error of `AddRetained` is ignored -/
def getDistinguished (env : CEnv) (state : Option ClientState) : G Nat :=
  match state with
  | none => goErr "unable to make request with no state"
  | some s => do
    let p := ((newProvider ()).addRetained [] s.logEntries).2
    let r ← (p.run Audit.nilHandle (Alg.rightmostDistinguished env.cfg s.treeHead.treeSize)).1
    match r with
    | none => goErr "unable to make request if no distinguished log entries exist"
    | some x => pure x

/-- client_crypto.go:269-276 `greatestVersion` -/
def greatestVersion (o : LabelOwnerState) : Option Nat :=
  let greatest := o.verAtStarting + o.upcomingVers.length
  if greatest ≥ 0 then some (greatest.toNat % 2 ^ 32) else none

/-- client_crypto.go:296-324 `verifyUpdateValue` -/
def verifyUpdateValue (env : CEnv) (label : Bytes) (ver : Nat) (val : UpdateValue) : G Unit :=
  if env.cfg.mode ≠ thirdPartyManagement then
    if val.signature ≠ none then goErr "leaf signature provided when not expected" else pure ()
  else do
    let tbs ← updateTBS env.cfg label ver val.value
    if env.cfg.leafKey = none then goPanic "nil pointer dereference"
    else if ¬ env.leafVerify tbs (val.signature.getD []) then goErr "leaf signature verification failed"
    else pure ()

/-- client_crypto.go:326-342 `computeCommitment` -/
def computeCommitment (env : CEnv) (opening label : Bytes) (ver : Nat) (val : UpdateValue) : G Bytes := do
  let body ← commitmentValue label ver val
  pure (Commit.commit env.cs opening body)

/-! ### the monitoring map -/

/-- monitor.go:19-25 `NewContactState` -/
def contactMap (entries : List MonitorMapEntry) : PMap :=
  entries.foldl (fun m e => m.set e.position e.version) []

/-- insert into a list sorted by position -/
def insertEntry (e : MonitorMapEntry) : List MonitorMapEntry → List MonitorMapEntry
  | [] => [e]
  | f :: l => if e.position ≤ f.position then e :: f :: l else f :: insertEntry e l

/-- monitor.go:27-41 `ContactState.Struct` -/
def contactStruct (m : PMap) : List MonitorMapEntry :=
  (m.map (fun e => (⟨e.1, e.2⟩ : MonitorMapEntry))).foldr insertEntry []

/-- the same on a possibly nil `*ContactState` -/
def contactStruct? : Option PMap → G (List MonitorMapEntry)
  | none => goPanic "nil pointer dereference"
  | some m => pure (contactStruct m)

/-- client_crypto.go:350-355: whether the entry is redundant -/
def redundant (n : Nat) (ptrs : PMap) (pos ver : Nat) : G Bool := do
  let path ← SearchTree.rightDirectPath pos n
  match path with
  | [] => pure false
  | x :: _ =>
    match ptrs.lookup x with
    | none => pure false
    | some parent => pure (decide (ver ≤ parent))

/-- client_crypto.go:349-358: one pass over the map, whose entries come in the order of the first list; an entry that
has been deleted is not visited -/
def simplifyPass (n : Nat) : List (Nat × Nat) → PMap → Bool → G (PMap × Bool)
  | [], ptrs, modified => pure (ptrs, modified)
  | (pos, ver) :: rest, ptrs, modified => do
    let r ← redundant n ptrs pos ver
    if r then simplifyPass n rest (ptrs.filter (fun e => e.1 ≠ pos)) true
    else simplifyPass n rest ptrs modified

/-- client_crypto.go:345-364 `simplifyMonitoringMap`; `order` is the order in which Go goes through the map -/
def simplify (order : PMap → List (Nat × Nat)) (n : Nat) : Nat → PMap → G PMap
  | 0, _ => .error .diverge
  | fuel + 1, ptrs => do
    let (ptrs, modified) ← simplifyPass n (order ptrs) ptrs false
    if modified then simplify order n fuel ptrs else pure ptrs

/-- client_crypto.go:377-384: mark the path; the last position marked -/
def markPath (ver : Nat) : List Nat → PMap → Nat → PMap × Nat
  | [], ptrs, x => (ptrs, x)
  | pos :: rest, ptrs, x =>
    if (ptrs.lookup pos).any (fun v => decide (v > ver)) then (ptrs, x)
    else markPath ver rest (ptrs.set pos ver) pos

/-- client_crypto.go:369-389 `updateContactState`: the new map and the terminal position -/
def updateContactState (order : PMap → List (Nat × Nat)) (contact : List MonitorMapEntry) (x n ver : Nat) :
    G (List MonitorMapEntry × Nat) := do
  let path ← SearchTree.rightDirectPath x n
  let (ptrs, x) := markPath ver (x :: path) (contactMap contact) x
  let ptrs ← simplify order n (ptrs.length + 1) ptrs
  pure (contactStruct ptrs, x)

/-! ### retained versions -/

/-- client_crypto.go:403-407 -/
def contactRequired : List MonitorMapEntry → G (List Nat)
  | [] => pure []
  | e :: rest => do
    let l ← monitoringBinaryLadder e.version
    let more ← contactRequired rest
    pure (l ++ more)

/-- client_crypto.go:409-422 -/
def ownerRequired : Option LabelOwnerState → G (List Nat)
  | none => pure []
  | some o =>
    let start := if o.verAtStarting ≥ 0 then [o.verAtStarting.toNat % 2 ^ 32] else []
    allLadderVersions (start ++ (List.range o.upcomingVers.length).map
      (fun i => ((o.verAtStarting + i + 1) % 2 ^ 32).toNat))

/-- client_crypto.go:424-436: in ascending order (Go: in random order) -/
def retainAll (vs : Versions) : List Nat → G (List RetainedVersion)
  | [] => pure []
  | v :: rest =>
    match vs.lookup v with
    | none => goErr "required version not found"
    | some k => do
      let more ← retainAll vs rest
      pure (⟨v, k.vrf, k.com⟩ :: more)

/-- client_crypto.go:393-440 `updateRetainedVersions` -/
def updateRetainedVersions (ls : ClientLabelState) (s : Received) : G ClientLabelState := do
  let a ← contactRequired ls.contact
  let b ← ownerRequired ls.owner
  let vs ← retainAll s.versions (sortedSet (a ++ b))
  pure { ls with versions := vs }

/-! ### requests and the verification of responses -/

/-- client.go:117-145: the request of `GreatestVersionSearch` and `FixedVersionSearch` -/
def searchRequest (state : Option ClientState) (label : Bytes) (version : Option Nat) : SearchRequest :=
  ⟨getLast state, label, version⟩

/-- client.go:157-167: the target version -/
def targetOf (req : SearchRequest) (res : SearchResponse) : G Nat :=
  match req.version, res.version with
  | some v, _ => pure v
  | none, some v => pure v
  | none, none => goErr "unexpected error occurred"

/-- client.go:151-205: what is verified before the state of the label is touched; the terminal position, the new state
and the verifier -/
def verifySearch (env : CEnv) (now : Nat) (state : Option ClientState) (req : SearchRequest) (res : SearchResponse) :
    G (Nat × ClientState × Verifier) := do
  let v ← newVerifier state req.last res.fullTreeHead res.search
  let target ← targetOf req res
  verifyUpdateValue env req.label target res.value
  let ladder ← searchBinaryLadder target target [] []
  let commitment ← computeCommitment env res.opening req.label target res.value
  let v ← processLadder env req.label res.binaryLadder ladder [(target, commitment)] v
  let v ← v.updateView env now
  let (terminal, v) ← v.run env
    (if req.version = none then greatestVersionSearch env.cfg target v.n else fixedVersionSearch env.cfg target v.n)
  let (updated, v) ← v.finish env
  pure (terminal, updated, v)

/-- client.go:147-233 `search`: the `VerifyFunc` -/
def search (env : CEnv) (now : Nat) (order : PMap → List (Nat × Nat)) (state : Option ClientState) (req : SearchRequest)
    (res : SearchResponse) (st : CStore) : G CStore := do
  let (terminal, updated, v) ← verifySearch env now state req res
  if env.cfg.mode ≠ contactMonitoring then putState st updated
  else do
    let (dle, v) ← v.run env (rightmostDistinguished env.cfg v.n)
    if dle.any (fun x => decide (terminal ≤ x)) then putState st updated
    else do
      let ls ← getLabelState env st req.label
      let v ← addRetainedVersions env ls.versions v
      let target ← targetOf req res
      let (contact, terminal) ← updateContactState order ls.contact terminal v.n target
      let ls ← updateRetainedVersions { ls with contact := contact } v.p.state
      putLabelState st updated req.label ls terminal

/-- client.go:237-259 `OwnerInit`: the request, with the state and the label state that its `VerifyFunc` keeps -/
def ownerInitRequest (env : CEnv) (st : CStore) (label : Bytes) :
    G (OwnerInitRequest × Option ClientState × ClientLabelState) := do
  let state ← getState env st
  let ls ← getLabelState env st label
  if ls.owner ≠ none then goErr "label is already owned"
  else do
    let start ← getDistinguished env state
    pure (⟨getLast state, label, start⟩, state, ls)

/-- client.go:280-289: a commitment for each of the greatest versions -/
def commitmentsPresent (greatest : List Nat) : List (Nat × BinaryLadderStep) → G Unit
  | [] => pure ()
  | (ver, step) :: rest =>
    if greatest.contains ver ∧ step.commitment = none then goErr "commitment not provided when expected"
    else commitmentsPresent greatest rest

/-- client.go:266-317 `ownerInit`: the `VerifyFunc` -/
def ownerInit (env : CEnv) (now : Nat) (state : Option ClientState) (ls : ClientLabelState) (req : OwnerInitRequest)
    (res : OwnerInitResponse) (st : CStore) : G CStore := do
  let v ← newVerifier state req.last res.fullTreeHead res.init
  let ladder ← allLadderVersions res.greatestVersions
  let v ← processLadder env req.label res.binaryLadder ladder [] v
  commitmentsPresent res.greatestVersions (ladder.zip res.binaryLadder)
  let v ← v.updateView env now
  let (m, v) ← v.run env (newMonitor env.cfg v.n)
  let (r, v) ← v.run env (Alg.ownerInit m req.start res.greatestVersions)
  let (updated, v) ← v.finish env
  match r.1.owner with
  | none => goPanic "nil pointer dereference"
  | some o => do
    let ls := { ls with owner := some ⟨o.starting, o.verAtStarting, o.upcoming⟩ }
    let v ← addRetainedVersions env ls.versions v
    let ls ← updateRetainedVersions ls v.p.state
    putLabelState st updated req.label ls req.start

/-- the request made by `Monitor` -/
inductive MonitorReq where
  | contact (req : ContactMonitorRequest)
  | owner (req : OwnerMonitorRequest)

/-- client.go:75-87, 325-365 `Monitor`; `pick` is the answer of `GetStaleLabel`, nil or one of the stale labels.
`none`: no label needs to be monitored. -/
def monitorRequest (env : CEnv) (st : CStore) (pick : Option Bytes) :
    G (Option (MonitorReq × Option ClientState × ClientLabelState)) := do
  let state ← getState env st
  let _cutoff ← getDistinguished env state
  match pick with
  | none => pure none
  | some label => do
    let ls ← getLabelState env st label
    match ls.owner with
    | none =>
      if ls.contact.length = 0 then goErr "unexpected error occurred"
      else pure (some (.contact ⟨getLast state, label, ls.contact⟩, state, ls))
    | some o =>
      pure (some (.owner ⟨getLast state, label, ls.contact, o.starting, greatestVersion o⟩, state, ls))

/-- client.go:372-414 `contactMonitor`: the `VerifyFunc` (its argument is of the right type) -/
def contactMonitor (env : CEnv) (now : Nat) (state : Option ClientState) (ls : ClientLabelState)
    (req : ContactMonitorRequest) (res : MonitorResponse) (st : CStore) : G CStore := do
  let v ← newVerifier state req.last res.fullTreeHead res.monitor
  let v ← addRetainedVersions env ls.versions v
  let v ← v.updateView env now
  let (m, v) ← v.run env (newMonitor env.cfg v.n)
  let (m, v) ← v.run env (Alg.contactMonitor { m with contact := some (contactMap ls.contact) })
  let (updated, v) ← v.finish env
  let contact ← contactStruct? m.contact
  let ls ← updateRetainedVersions { ls with contact := contact } v.p.state
  let (dle, _) ← v.run env (rightmostDistinguished env.cfg v.n)
  match dle with
  | none => goErr "unable to compute rightmost distinguished log entry"
  | some x => putLabelState st updated req.label ls x

/-- client.go:422-460 `ownerMonitor`: the `VerifyFunc` (its argument is of the right type; `o` is the owner state of
the label, which is there when the request is made) -/
def ownerMonitor (env : CEnv) (now : Nat) (state : Option ClientState) (ls : ClientLabelState) (o : LabelOwnerState)
    (req : OwnerMonitorRequest) (res : MonitorResponse) (st : CStore) : G CStore := do
  let v ← newVerifier state req.last res.fullTreeHead res.monitor
  let v ← addRetainedVersions env ls.versions v
  let v ← v.updateView env now
  let (m, v) ← v.run env (newMonitor env.cfg v.n)
  let (m, v) ← v.run env (Alg.contactMonitor
    { m with contact := some (contactMap ls.contact), owner := some ⟨o.starting, o.verAtStarting, o.upcomingVers⟩ })
  let (m, v) ← v.run env (Alg.ownerMonitor m)
  let (updated, v) ← v.finish env
  let contact ← contactStruct? m.contact
  match m.owner with
  | none => goPanic "nil pointer dereference"
  | some o => do
    let ls ← updateRetainedVersions
      { ls with contact := contact, owner := some ⟨o.starting, o.verAtStarting, o.upcoming⟩ } v.p.state
    putLabelState st updated req.label ls o.starting

/-! ### updates -/

/-- client.go:504-509 `StreamVerifier` -/
structure Stream where
  state : Option ClientState
  ls : ClientLabelState
  req : UpdateRequest

/-- client.go:466-500 `Update` -/
def updateRequest (env : CEnv) (st : CStore) (label : Bytes) (values : List Bytes) : G (UpdateRequest × Stream) := do
  let state ← getState env st
  let ls ← getLabelState env st label
  match ls.owner with
  | none => goErr "label must be owned to be updated"
  | some o =>
    let req : UpdateRequest := ⟨getLast state, label, greatestVersion o, values⟩
    pure (req, ⟨state, ls, req⟩)

/-- client.go:525-542: the loop of `verifyValues` -/
def updateCommitments (env : CEnv) (label : Bytes) (startVer : Nat) : Nat → List (Bytes × UpdateInfo) →
    G (List (Nat × Bytes))
  | _, [] => pure []
  | i, (val, info) :: rest => do
    let ver := (startVer + i) % 2 ^ 32
    let update : UpdateValue := ⟨val, info.signature⟩
    verifyUpdateValue env label ver update
    let c ← computeCommitment env info.opening label ver update
    let more ← updateCommitments env label startVer (i + 1) rest
    pure ((ver, c) :: more)

/-- client.go:511-545 `verifyValues` -/
def verifyValues (env : CEnv) (sv : Stream) (values : List Bytes) (res : UpdateResponse) :
    G (Nat × List (Nat × Bytes)) :=
  if res.info.length = 0 ∨ res.info.length ≠ values.length then goErr "unable to process update response"
  else
    match sv.ls.owner with
    | none => goPanic "nil pointer dereference"
    | some o => do
      let startVer := match greatestVersion o with
        | none => 0
        | some g => (g + 1) % 2 ^ 32
      let coms ← updateCommitments env sv.req.label startVer 0 (values.zip res.info)
      pure (startVer, coms)

/-- client.go:566-571: no commitment for a new version.  The ladder is indexed before its length is checked. -/
def noNewCommitments (startVer : Nat) : List Nat → List BinaryLadderStep → G Unit
  | [], _ => pure ()
  | ver :: vers, [] => if ver ≥ startVer then goPanic "index out of range" else noNewCommitments startVer vers []
  | ver :: vers, s :: steps =>
    if ver ≥ startVer ∧ s.commitment ≠ none then goErr "commitment provided when not expected"
    else noNewCommitments startVer vers steps

/-- client.go:549-612 `StreamVerifier.Verify` -/
def Stream.verify (env : CEnv) (now : Nat) (sv : Stream) (res : UpdateResponse) (st : CStore) : G (Stream × CStore) := do
  let (startVer, coms) ← verifyValues env sv (if res.values.length = 0 then sv.req.values else res.values) res
  let ladder ← updateLadderVersions startVer ((startVer + (res.info.length - 1)) % 2 ^ 32)
  noNewCommitments startVer ladder res.binaryLadder
  let v ← newVerifier sv.state (getLast sv.state) res.fullTreeHead res.update
  let v ← addRetainedVersions env sv.ls.versions v
  let v ← processLadder env sv.req.label res.binaryLadder ladder coms v
  let v ← v.updateView env now
  let (m, v) ← v.run env (newMonitor env.cfg v.n)
  let owner := sv.ls.owner.map (fun o => (⟨o.starting, o.verAtStarting, o.upcomingVers⟩ : Owner))
  let (m, v) ← v.run env
    (monitorUpdate { m with contact := some (contactMap sv.ls.contact), owner := owner } res.position res.info.length)
  let (updated, v) ← v.finish env
  let contact ← contactStruct? m.contact
  match m.owner with
  | none => goPanic "nil pointer dereference"
  | some o => do
    let ls ← updateRetainedVersions
      { sv.ls with contact := contact, owner := some ⟨o.starting, o.verAtStarting, o.upcoming⟩ } v.p.state
    let st ← putLabelState st updated sv.req.label ls o.starting
    pure (⟨some updated, ls, sv.req⟩, st)

end Katie.Client
