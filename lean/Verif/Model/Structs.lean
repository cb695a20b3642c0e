import Verif.Model.Codec
import Verif.Model.Config
import Verif.Model.Prefix

/-
Model of /repo/tree/transparency/structs (tree_head.go, proofs.go, crypto.go, operations.go, third_party.go,
client.go, config.go `Marshal`) and of the wire format in /repo/tree/prefix/proof.go.

`Sizes` is what these files use of `suites.CipherSuite`.  Go numeric types become `Nat`; a writer writes the
low-order bytes, as the conversion to the Go type would.
-/

namespace Katie.Wire
open Katie

/-- `HashSize()`, `VrfProofSize()`, `CommitmentOpeningSize()` of a cipher suite -/
structure Sizes where
  hash : Nat
  vrfProof : Nat
  opening : Nat
  deriving DecidableEq, Repr

/-! ### config.go -/

/-- `x.Bytes()` of an interface value that may be nil -/
def keyBytes : Option Bytes → G Bytes
  | none => goPanic "invalid memory address or nil pointer dereference"
  | some b => .ok b

/-- config.go:76-93, the mode-dependent part of `PublicConfig.Marshal` -/
def modePart (c : Config) : G Bytes :=
  if c.mode = thirdPartyManagement then do
    let k ← keyBytes c.leafKey
    wBytes 2 "leaf public key" k
  else if c.mode = thirdPartyAuditing then
    wNum 8 c.maxAuditorLag +> wNum 8 c.auditorStartPos +> (do
      let k ← keyBytes c.auditorKey
      wBytes 2 "auditor public key" k)
  else .ok []

/-- config.go:67-99 `PublicConfig.Marshal` -/
def marshalConfig (c : Config) : G Bytes :=
  wNum 2 c.suite +> wNum 1 c.mode +> wBytes 2 "signature public key" c.sigKey +>
  wBytes 2 "vrf public key" c.vrfKey +> modePart c +>
  wNum 8 c.maxAhead +> wNum 8 c.maxBehind +> wNum 8 c.rmw +>
  (if c.maxLifetime > 0 then wOptional true +> wNum 8 c.maxLifetime else wOptional false)

/-! ### tree_head.go -/

/-- tree_head.go:8-11 -/
structure TreeHead where
  treeSize : Nat
  signature : Bytes
  deriving DecidableEq, Repr

/-- tree_head.go:13-23 `NewTreeHead` -/
def newTreeHead : Rd TreeHead := do
  let treeSize ← rNum 8
  let signature ← rBytes 2
  pure ⟨treeSize, signature⟩

/-- tree_head.go:25-28 -/
def TreeHead.marshal (th : TreeHead) : G Bytes :=
  wNum 8 th.treeSize +> wBytes 2 "signature" th.signature

/-- tree_head.go:30-34 `TreeHeadTBS`, 36-43 `Marshal` -/
def treeHeadTBS (c : Config) (treeSize : Nat) (root : Bytes) : G Bytes :=
  marshalConfig c +> wNum 8 treeSize +> wRaw root

/-- tree_head.go:45-49 -/
structure AuditorTreeHead where
  timestamp : Nat
  treeSize : Nat
  signature : Bytes
  deriving DecidableEq, Repr

/-- tree_head.go:51-65 `NewAuditorTreeHead` -/
def newAuditorTreeHead : Rd AuditorTreeHead := do
  let timestamp ← rNum 8
  let treeSize ← rNum 8
  let signature ← rBytes 2
  pure ⟨timestamp, treeSize, signature⟩

/-- tree_head.go:67-71 -/
def AuditorTreeHead.marshal (a : AuditorTreeHead) : G Bytes :=
  wNum 8 a.timestamp +> wNum 8 a.treeSize +> wBytes 2 "auditor signature" a.signature

/-- tree_head.go:73-88 `AuditorTreeHeadTBS` and its `Marshal` -/
def auditorTreeHeadTBS (c : Config) (timestamp treeSize : Nat) (root : Bytes) : G Bytes :=
  marshalConfig c +> wNum 8 timestamp +> wNum 8 treeSize +> wRaw root

/-- tree_head.go:97-100; the pointers may be nil -/
structure FullTreeHead where
  treeHead : Option TreeHead
  auditor : Option AuditorTreeHead
  deriving DecidableEq, Repr

/-- tree_head.go:102-130 `NewFullTreeHead`; head types :92-95 -/
def newFullTreeHead (c : Config) : Rd FullTreeHead := do
  let headType ← rNum 1
  if headType = 1 then pure ⟨none, none⟩
  else if headType = 2 then do
    let th ← newTreeHead
    if c.mode = thirdPartyAuditing then do
      let a ← newAuditorTreeHead
      pure ⟨some th, some a⟩
    else pure ⟨some th, none⟩
  else Rd.err "unexpected head type read"

/-- tree_head.go:132-148 -/
def FullTreeHead.marshal (f : FullTreeHead) : G Bytes :=
  match f.treeHead with
  | none => wNum 1 1
  | some th =>
    wNum 1 2 +> th.marshal +>
      (match f.auditor with
       | none => .ok []
       | some a => a.marshal)

/-! ### /repo/tree/prefix/proof.go -/

/-- proof.go:88-91, 101-106, 115-118 `Marshal` of a search result (`byte(p.depth)` keeps the low byte) -/
def marshalRes : Prefix.Res → G Bytes
  | .inclusion d => wNum 1 1 +> wNum 1 d
  | .nonInclusionLeaf v c d => wNum 1 2 +> wRaw v +> wRaw c +> wNum 1 d
  | .nonInclusionParent d => wNum 1 3 +> wNum 1 d

/-- proof.go:120-162 `unmarshalSearchResult` -/
def newRes (sz : Sizes) : Rd Prefix.Res := do
  let t ← rNum 1
  if t = 1 then do
    let d ← rNum 1
    pure (.inclusion d)
  else if t = 2 then do
    let v ← rFull sz.hash
    let c ← rFull sz.hash
    let d ← rNum 1
    pure (.nonInclusionLeaf v c d)
  else if t = 3 then do
    let d ← rNum 1
    pure (.nonInclusionParent d)
  else Rd.err "invalid prefix search result type read"

/-- proof.go:24-52 `NewPrefixProof` -/
def newPrefixProof (sz : Sizes) : Rd Prefix.Proof := do
  let results ← rSlice 1 (newRes sz)
  let elements ← rSlice 2 (rFull sz.hash)
  pure ⟨results, elements⟩

/-- proof.go:54-72 `PrefixProof.Marshal` (the texts of the two errors are "results too long to marshal" and
"elements too long to marshal"; `wSlice` adds the word "list") -/
def marshalPrefixProof (p : Prefix.Proof) : G Bytes :=
  wSlice 1 "results" marshalRes p.results +> wSlice 2 "elements" wRaw p.elements

/-! ### proofs.go -/

/-- proofs.go:26-32 `CombinedTreeProof` (with `InclusionProof`, :10-12, as its list of elements) -/
structure CombinedTreeProof where
  timestamps : List Nat
  prefixProofs : List Prefix.Proof
  prefixRoots : List Bytes
  inclusion : List Bytes
  deriving DecidableEq, Repr

/-- proofs.go:34-54 `NewCombinedTreeProof`, 14-20 `NewInclusionProof` -/
def newCombinedTreeProof (sz : Sizes) : Rd CombinedTreeProof := do
  let timestamps ← rSlice 1 (rNum 8)
  let proofs ← rSlice 1 (newPrefixProof sz)
  let roots ← rSlice 1 (rFull sz.hash)
  let inclusion ← rSlice 2 (rFull sz.hash)
  pure ⟨timestamps, proofs, roots, inclusion⟩

/-- proofs.go:56-65, 22-24 -/
def CombinedTreeProof.marshal (p : CombinedTreeProof) : G Bytes :=
  wSlice 1 "timestamp" (wNum 8) p.timestamps +> wSlice 1 "prefix proof" marshalPrefixProof p.prefixProofs +>
  wSlice 1 "prefix root" wRaw p.prefixRoots +> wSlice 2 "inclusion proof" wRaw p.inclusion

/-! ### crypto.go -/

/-- crypto.go:14-23 `NewUpdateSuffix`: the signature, nil unless the mode is third-party management -/
def newUpdateSuffix (c : Config) : Rd (Option Bytes) :=
  if c.mode ≠ thirdPartyManagement then pure none
  else do
    let s ← rBytes 2
    pure (some s)

/-- crypto.go:25-30 -/
def marshalUpdateSuffix : Option Bytes → G Bytes
  | none => .ok []
  | some s => wBytes 2 "service operator signature" s

/-- crypto.go:32-35 -/
structure UpdateValue where
  value : Bytes
  signature : Option Bytes
  deriving DecidableEq, Repr

/-- crypto.go:37-47 -/
def newUpdateValue (c : Config) : Rd UpdateValue := do
  let value ← rBytes 4
  let suffix ← newUpdateSuffix c
  pure ⟨value, suffix⟩

/-- crypto.go:49-54 -/
def UpdateValue.marshal (u : UpdateValue) : G Bytes :=
  wBytes 4 "label value" u.value +> marshalUpdateSuffix u.signature

/-- crypto.go:56-71 `UpdateTBS` and its `Marshal` -/
def updateTBS (c : Config) (label : Bytes) (version : Nat) (value : Bytes) : G Bytes :=
  marshalConfig c +> wBytes 1 "label" label +> wNum 4 version +> wBytes 4 "label value" value

/-- crypto.go:73-85 `CommitmentValue` and its `Marshal` -/
def commitmentValue (label : Bytes) (version : Nat) (update : UpdateValue) : G Bytes :=
  wBytes 1 "label" label +> wNum 4 version +> update.marshal

/-- crypto.go:87-98 `VrfInput` and its `Marshal` -/
def vrfInput (label : Bytes) (version : Nat) : G Bytes :=
  wBytes 1 "label" label +> wNum 4 version

/-- crypto.go:100-103 -/
structure LogEntry where
  timestamp : Nat
  prefixTree : Bytes
  deriving DecidableEq, Repr

/-- crypto.go:105-115 -/
def newLogEntry (hashSize : Nat) : Rd LogEntry := do
  let timestamp ← rNum 8
  let prefixTree ← rFull hashSize
  pure ⟨timestamp, prefixTree⟩

/-- crypto.go:117-121 -/
def LogEntry.marshal (e : LogEntry) : G Bytes := wNum 8 e.timestamp +> wRaw e.prefixTree

/-- crypto.go:123-131 `LogEntry.Hash` -/
def LogEntry.hash (cs : Log.Suite) (e : LogEntry) : G Bytes := do
  let raw ← e.marshal
  pure (cs.H raw)

/-- crypto.go:133-136 -/
structure BinaryLadderStep where
  proof : Bytes
  commitment : Option Bytes
  deriving DecidableEq, Repr

/-- crypto.go:138-155 -/
def newBinaryLadderStep (sz : Sizes) : Rd BinaryLadderStep := do
  let proof ← rFull sz.vrfProof
  let commitment ← rOpt (rFull sz.hash)
  pure ⟨proof, commitment⟩

/-- crypto.go:157-163 -/
def BinaryLadderStep.marshal (s : BinaryLadderStep) : G Bytes := wRaw s.proof +> wOpt wRaw s.commitment

/-- crypto.go:165-168 -/
structure OpeningAndValue where
  opening : Bytes
  value : UpdateValue
  deriving DecidableEq, Repr

/-- crypto.go:170-180 -/
def newOpeningAndValue (c : Config) (sz : Sizes) : Rd OpeningAndValue := do
  let opening ← rFull sz.opening
  let value ← newUpdateValue c
  pure ⟨opening, value⟩

/-- crypto.go:182-185 -/
def OpeningAndValue.marshal (o : OpeningAndValue) : G Bytes := wRaw o.opening +> o.value.marshal

/-- crypto.go:191-197 `NewLabelValue` -/
def newLabelValue : Rd Bytes := rBytes 4
/-- crypto.go:199-201 `LabelValue.Marshal` -/
def marshalLabelValue (v : Bytes) : G Bytes := wBytes 4 "label value" v

/-- crypto.go:203-206 -/
structure UpdateInfo where
  opening : Bytes
  signature : Option Bytes
  deriving DecidableEq, Repr

/-- crypto.go:208-218 -/
def newUpdateInfo (c : Config) (sz : Sizes) : Rd UpdateInfo := do
  let opening ← rFull sz.opening
  let suffix ← newUpdateSuffix c
  pure ⟨opening, suffix⟩

/-- crypto.go:220-223 -/
def UpdateInfo.marshal (u : UpdateInfo) : G Bytes := wRaw u.opening +> marshalUpdateSuffix u.signature

/-! ### operations.go -/

/-- operations.go:8-13 -/
structure SearchRequest where
  last : Option Nat
  label : Bytes
  version : Option Nat
  deriving DecidableEq, Repr

/-- operations.go:15-29 -/
def newSearchRequest : Rd SearchRequest := do
  let last ← rOpt (rNum 8)
  let label ← rBytes 1
  let version ← rOpt (rNum 4)
  pure ⟨last, label, version⟩

/-- operations.go:31-38 -/
def SearchRequest.marshal (r : SearchRequest) : G Bytes :=
  wOpt (wNum 8) r.last +> wBytes 1 "label" r.label +> wOpt (wNum 4) r.version

/-- operations.go:40-49 -/
structure SearchResponse where
  fullTreeHead : FullTreeHead
  version : Option Nat
  opening : Bytes
  value : UpdateValue
  binaryLadder : List BinaryLadderStep
  search : CombinedTreeProof
  deriving DecidableEq, Repr

/-- operations.go:61-68: the version is present only in the answer to a request without one. -/
def newRespVersion (req : SearchRequest) : Rd (Option Nat) :=
  match req.version with
  | none => do
    let v ← rNum 4
    pure (some v)
  | some _ => pure none

/-- operations.go:51-90 -/
def newSearchResponse (c : Config) (sz : Sizes) (req : SearchRequest) : Rd SearchResponse := do
  let fth ← newFullTreeHead c
  let version ← newRespVersion req
  let opening ← rFull sz.opening
  let value ← newUpdateValue c
  let steps ← rSlice 1 (newBinaryLadderStep sz)
  let search ← newCombinedTreeProof sz
  pure ⟨fth, version, opening, value, steps, search⟩

/-- operations.go:97-99 -/
def marshalRespVersion : Option Nat → G Bytes
  | none => .ok []
  | some v => wNum 4 v

/-- operations.go:92-109 -/
def SearchResponse.marshal (r : SearchResponse) : G Bytes :=
  r.fullTreeHead.marshal +> marshalRespVersion r.version +> wRaw r.opening +> r.value.marshal +>
  wSlice 1 "binary ladder" BinaryLadderStep.marshal r.binaryLadder +> r.search.marshal

/-- operations.go:111-114 -/
structure MonitorMapEntry where
  position : Nat
  version : Nat
  deriving DecidableEq, Repr

/-- operations.go:116-126 -/
def newMonitorMapEntry : Rd MonitorMapEntry := do
  let position ← rNum 8
  let version ← rNum 4
  pure ⟨position, version⟩

/-- operations.go:128-132 -/
def MonitorMapEntry.marshal (e : MonitorMapEntry) : G Bytes := wNum 8 e.position +> wNum 4 e.version

/-- operations.go:134-139 -/
structure ContactMonitorRequest where
  last : Option Nat
  label : Bytes
  entries : List MonitorMapEntry
  deriving DecidableEq, Repr

/-- operations.go:141-155 -/
def newContactMonitorRequest : Rd ContactMonitorRequest := do
  let last ← rOpt (rNum 8)
  let label ← rBytes 1
  let entries ← rSlice 1 newMonitorMapEntry
  pure ⟨last, label, entries⟩

/-- operations.go:157-163 -/
def ContactMonitorRequest.marshal (r : ContactMonitorRequest) : G Bytes :=
  wOpt (wNum 8) r.last +> wBytes 1 "label" r.label +>
  wSlice 1 "monitoring map" MonitorMapEntry.marshal r.entries

/-- operations.go:165-168 `ContactMonitorResponse`, 313-316 `OwnerMonitorResponse` (same fields, same
encoding) -/
structure MonitorResponse where
  fullTreeHead : FullTreeHead
  monitor : CombinedTreeProof
  deriving DecidableEq, Repr

/-- operations.go:170-183, 318-331 -/
def newMonitorResponse (c : Config) (sz : Sizes) : Rd MonitorResponse := do
  let fth ← newFullTreeHead c
  let monitor ← newCombinedTreeProof sz
  pure ⟨fth, monitor⟩

/-- operations.go:185-190, 333-338 -/
def MonitorResponse.marshal (r : MonitorResponse) : G Bytes := r.fullTreeHead.marshal +> r.monitor.marshal

/-- operations.go:192-197 -/
structure OwnerInitRequest where
  last : Option Nat
  label : Bytes
  start : Nat
  deriving DecidableEq, Repr

/-- operations.go:199-213 -/
def newOwnerInitRequest : Rd OwnerInitRequest := do
  let last ← rOpt (rNum 8)
  let label ← rBytes 1
  let start ← rNum 8
  pure ⟨last, label, start⟩

/-- operations.go:215-222 -/
def OwnerInitRequest.marshal (r : OwnerInitRequest) : G Bytes :=
  wOpt (wNum 8) r.last +> wBytes 1 "label" r.label +> wNum 8 r.start

/-- operations.go:224-230 -/
structure OwnerInitResponse where
  fullTreeHead : FullTreeHead
  greatestVersions : List Nat
  binaryLadder : List BinaryLadderStep
  init : CombinedTreeProof
  deriving DecidableEq, Repr

/-- operations.go:232-255 -/
def newOwnerInitResponse (c : Config) (sz : Sizes) : Rd OwnerInitResponse := do
  let fth ← newFullTreeHead c
  let versions ← rSlice 1 (rNum 4)
  let steps ← rSlice 2 (newBinaryLadderStep sz)
  let init ← newCombinedTreeProof sz
  pure ⟨fth, versions, steps, init⟩

/-- operations.go:257-266 -/
def OwnerInitResponse.marshal (r : OwnerInitResponse) : G Bytes :=
  r.fullTreeHead.marshal +> wSlice 1 "versions" (wNum 4) r.greatestVersions +>
  wSlice 2 "binary ladder" BinaryLadderStep.marshal r.binaryLadder +> r.init.marshal

/-- operations.go:268-275 -/
structure OwnerMonitorRequest where
  last : Option Nat
  label : Bytes
  entries : List MonitorMapEntry
  start : Nat
  greatestVersion : Option Nat
  deriving DecidableEq, Repr

/-- operations.go:277-299 -/
def newOwnerMonitorRequest : Rd OwnerMonitorRequest := do
  let last ← rOpt (rNum 8)
  let label ← rBytes 1
  let entries ← rSlice 1 newMonitorMapEntry
  let start ← rNum 8
  let greatestVersion ← rOpt (rNum 4)
  pure ⟨last, label, entries, start, greatestVersion⟩

/-- operations.go:301-311 -/
def OwnerMonitorRequest.marshal (r : OwnerMonitorRequest) : G Bytes :=
  wOpt (wNum 8) r.last +> wBytes 1 "label" r.label +>
  wSlice 1 "monitoring map" MonitorMapEntry.marshal r.entries +> wNum 8 r.start +>
  wOpt (wNum 4) r.greatestVersion

/-- operations.go:340-346 -/
structure UpdateRequest where
  last : Option Nat
  label : Bytes
  greatestVersion : Option Nat
  values : List Bytes
  deriving DecidableEq, Repr

/-- operations.go:348-366 -/
def newUpdateRequest : Rd UpdateRequest := do
  let last ← rOpt (rNum 8)
  let label ← rBytes 1
  let greatestVersion ← rOpt (rNum 4)
  let values ← rSlice 1 newLabelValue
  pure ⟨last, label, greatestVersion, values⟩

/-- operations.go:368-375 -/
def UpdateRequest.marshal (r : UpdateRequest) : G Bytes :=
  wOpt (wNum 8) r.last +> wBytes 1 "label" r.label +> wOpt (wNum 4) r.greatestVersion +>
  wSlice 1 "label value" marshalLabelValue r.values

/-- operations.go:377-384 -/
structure ManagerUpdateRequest where
  last : Option Nat
  label : Bytes
  greatestVersion : Option Nat
  signedVersion : Nat
  values : List UpdateValue
  deriving DecidableEq, Repr

/-- operations.go:386-410 -/
def newManagerUpdateRequest (c : Config) : Rd ManagerUpdateRequest := do
  let last ← rOpt (rNum 8)
  let label ← rBytes 1
  let greatestVersion ← rOpt (rNum 4)
  let signedVersion ← rNum 4
  let values ← rSlice 1 (newUpdateValue c)
  pure ⟨last, label, greatestVersion, signedVersion, values⟩

/-- operations.go:412-420 -/
def ManagerUpdateRequest.marshal (r : ManagerUpdateRequest) : G Bytes :=
  wOpt (wNum 8) r.last +> wBytes 1 "label" r.label +> wOpt (wNum 4) r.greatestVersion +>
  wNum 4 r.signedVersion +> wSlice 1 "label value" UpdateValue.marshal r.values

/-- operations.go:422-431 -/
structure UpdateResponse where
  fullTreeHead : FullTreeHead
  position : Nat
  values : List Bytes
  info : List UpdateInfo
  binaryLadder : List BinaryLadderStep
  update : CombinedTreeProof
  deriving DecidableEq, Repr

/-- operations.go:433-466 -/
def newUpdateResponse (c : Config) (sz : Sizes) : Rd UpdateResponse := do
  let fth ← newFullTreeHead c
  let position ← rNum 8
  let values ← rSlice 1 newLabelValue
  let info ← rSlice 1 (newUpdateInfo c sz)
  let ladder ← rSlice 1 (newBinaryLadderStep sz)
  let update ← newCombinedTreeProof sz
  pure ⟨fth, position, values, info, ladder, update⟩

/-- operations.go:468-485 -/
def UpdateResponse.marshal (r : UpdateResponse) : G Bytes :=
  r.fullTreeHead.marshal +> wNum 8 r.position +> wSlice 1 "label value" marshalLabelValue r.values +>
  wSlice 1 "update info" UpdateInfo.marshal r.info +>
  wSlice 1 "binary ladder" BinaryLadderStep.marshal r.binaryLadder +> r.update.marshal

/-! ### third_party.go -/

/-- third_party.go:11-21 `newPrefixEntry` -/
def newPrefixEntry (sz : Sizes) : Rd Prefix.Entry := do
  let v ← rFull sz.hash
  let c ← rFull sz.hash
  pure ⟨v, c⟩

/-- third_party.go:23-27 `marshalPrefixEntry` -/
def marshalPrefixEntry (e : Prefix.Entry) : G Bytes := wRaw e.vrf +> wRaw e.com

/-- third_party.go:29-33 -/
structure AuditorUpdate where
  timestamp : Nat
  added : List Prefix.Entry
  removed : List Prefix.Entry
  proof : Prefix.Proof
  deriving DecidableEq, Repr

/-- third_party.go:35-62 -/
def newAuditorUpdate (sz : Sizes) : Rd AuditorUpdate := do
  let timestamp ← rNum 8
  let added ← rSlice 2 (newPrefixEntry sz)
  let removed ← rSlice 2 (newPrefixEntry sz)
  let proof ← newPrefixProof sz
  pure ⟨timestamp, added, removed, proof⟩

/-- third_party.go:64-75 -/
def AuditorUpdate.marshal (u : AuditorUpdate) : G Bytes :=
  wNum 8 u.timestamp +> wSlice 2 "added prefix entry" marshalPrefixEntry u.added +>
  wSlice 2 "removed prefix entry" marshalPrefixEntry u.removed +> marshalPrefixProof u.proof

/-! ### client.go -/

/-- client.go:16-26 `IndexedLogEntry` -/
def newIndexedLogEntry (sz : Sizes) : Rd (Nat × LogEntry) := do
  let pos ← rNum 8
  let entry ← newLogEntry sz.hash
  pure (pos, entry)

/-- client.go:28-31 -/
def marshalIndexedLogEntry (e : Nat × LogEntry) : G Bytes := wNum 8 e.1 +> e.2.marshal

/-- client.go:33-38 `ClientState`; the map is a list of pairs with distinct positions, in the order in which
`Marshal` happens to iterate over it. -/
structure ClientState where
  treeHead : TreeHead
  auditor : Option AuditorTreeHead
  fullSubtrees : List Bytes
  logEntries : List (Nat × LogEntry)
  deriving DecidableEq, Repr

/-- client.go:45-51: the auditor's tree head, read only in third-party auditing mode -/
def newStateAuditor (c : Config) : Rd (Option AuditorTreeHead) :=
  if c.mode = thirdPartyAuditing then do
    let a ← newAuditorTreeHead
    pure (some a)
  else pure none

/-- client.go:40-77 `NewClientState` -/
def newClientState (c : Config) (sz : Sizes) : Rd ClientState := do
  let th ← newTreeHead
  let auditor ← newStateAuditor c
  let subtrees ← rSlice 1 (rFull sz.hash)
  let entries ← rSlice 1 (newIndexedLogEntry sz)
  if (entries.map Prod.fst).Nodup then pure ⟨th, auditor, subtrees, entries⟩
  else Rd.err "same log entry present multiple times"

/-- client.go:83-87 -/
def marshalStateAuditor : Option AuditorTreeHead → G Bytes
  | none => .ok []
  | some a => a.marshal

/-- client.go:79-97 -/
def ClientState.marshal (s : ClientState) : G Bytes :=
  s.treeHead.marshal +> marshalStateAuditor s.auditor +> wSlice 1 "full subtrees" wRaw s.fullSubtrees +>
  wSlice 1 "log entry" marshalIndexedLogEntry s.logEntries

/-- client.go:99-103 -/
structure LabelOwnerState where
  starting : Nat
  verAtStarting : Int
  upcomingVers : List Nat
  deriving DecidableEq, Repr

/-- client.go:105-123 -/
def newLabelOwnerState : Rd LabelOwnerState := do
  let starting ← rNum 8
  let verAtStarting ← rInt
  let upcoming ← rSlice 4 (rNum 8)
  pure ⟨starting, verAtStarting, upcoming⟩

/-- client.go:125-129 -/
def LabelOwnerState.marshal (o : LabelOwnerState) : G Bytes :=
  wNum 8 o.starting +> wInt o.verAtStarting +> wSlice 4 "upcoming versions" (wNum 8) o.upcomingVers

/-- client.go:131-135 -/
structure RetainedVersion where
  version : Nat
  vrfOutput : Bytes
  commitment : Option Bytes
  deriving DecidableEq, Repr

/-- client.go:137-162 -/
def newRetainedVersion (sz : Sizes) : Rd RetainedVersion := do
  let version ← rNum 4
  let vrfOutput ← rFull sz.hash
  let commitment ← rOpt (rFull sz.hash)
  pure ⟨version, vrfOutput, commitment⟩

/-- client.go:164-171 -/
def RetainedVersion.marshal (r : RetainedVersion) : G Bytes :=
  wNum 4 r.version +> wRaw r.vrfOutput +> wOpt wRaw r.commitment

/-- client.go:173-177 -/
structure ClientLabelState where
  contact : List MonitorMapEntry
  owner : Option LabelOwnerState
  versions : List RetainedVersion
  deriving DecidableEq, Repr

/-- What is left unread if reading `n` retained versions fails (client.go:137-162): a read past the end has
consumed everything there was; an invalid option byte leaves what follows it.  (`versionsLeft sz n buf` is only
used if one of the reads does fail.) -/
def versionsLeft (sz : Sizes) : Nat → Bytes → Bytes
  | 0, buf => buf
  | n + 1, buf =>
    match newRetainedVersion sz buf with
    | .ok (_, rest) => versionsLeft sz n rest
    | .error _ => if buf.getD (4 + sz.hash) 0 = 1 then [] else buf.drop (4 + sz.hash + 1)

/-- the same, including the count (structs.go:168-185) -/
def versionsRest (sz : Sizes) (buf : Bytes) : Bytes :=
  match rNum 4 buf with
  | .ok (n, rest) => versionsLeft sz n rest
  | .error _ => []

/-- client.go:195-197: the error of reading the versions is overwritten by `nil`; the versions are then nil. -/
def newVersions (sz : Sizes) : Rd (List RetainedVersion) := fun buf =>
  match rSlice 4 (newRetainedVersion sz) buf with
  | .error (.err _) => .ok ([], versionsRest sz buf)
  | x => x

/-- client.go:179-200 `NewClientLabelState` -/
def newClientLabelState (sz : Sizes) : Rd ClientLabelState := do
  let contact ← rSlice 4 newMonitorMapEntry
  let owner ← rOpt newLabelOwnerState
  let versions ← newVersions sz
  pure ⟨contact, owner, versions⟩

/-- client.go:202-210: if there is an owner state, the versions are not written. -/
def ClientLabelState.marshal (s : ClientLabelState) : G Bytes :=
  wSlice 4 "contact state" MonitorMapEntry.marshal s.contact +>
  (match s.owner with
   | some o => wOptional true +> o.marshal
   | none => wOptional false +> wSlice 4 "retained versions" RetainedVersion.marshal s.versions)

end Katie.Wire
