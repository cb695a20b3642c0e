import Verif.Model.Server

/-
Model of the request handlers of the server: /repo/tree/transparency/transparency.go (`Search`), monitor.go and
update.go.

`time.Now()` (read inside `algorithms.UpdateView`) is an argument.  Handlers read `t.tx` and `t.treeHead` and change
neither.  The goroutine of `Update` is modelled as the list of messages that it sends: the context is never cancelled
and the receiver takes every message.
-/

namespace Katie.Server
open Katie Katie.Wire Katie.Alg Katie.Ladder

/-- what `fullTreeHead` returns -/
structure Heads where
  fth : FullTreeHead
  n : Nat
  nP : Option Nat
  m : Option Nat
  deriving DecidableEq, Repr

/-- transparency.go:108-127 `fullTreeHead` -/
def fullTreeHead (t : Tree) (last : Option Nat) : G Heads :=
  match t.head with
  | none => goErr "can not operate on an empty tree"
  | some th =>
    let full : Heads := ⟨⟨some th, t.auditor⟩, th.treeSize, t.auditor.map (·.treeSize), last⟩
    match last with
    | none => pure full
    | some l =>
      if l = th.treeSize then pure ⟨⟨none, none⟩, th.treeSize, none, none⟩
      else if l > th.treeSize then goErr "tree size advertised by user is greater than current tree size"
      else pure full

/-- transparency.go:136-155: the log entries of the frontier -/
def frontierEntries (env : Env) (st : Store) : List Nat → G (List (Nat × LogEntry))
  | [] => pure []
  | x :: xs => do
    let e ← match st.entries.lookup x with
      | none => goErr "expected frontier log entry not found"
      | some raw => readAll (newLogEntry env.cs.hashSize) "unexpected data appended to log entry" raw
    let rest ← frontierEntries env st xs
    pure ((x, e) :: rest)

/-- transparency.go:130-157: the user's retained log entries.  The error of `AddRetained` is ignored. -/
def loadRetained (env : Env) (st : Store) (last : Option Nat) (p : Provider Produced) : G (Provider Produced) :=
  match last with
  | none => pure p
  | some l => do
    let f ← SearchTree.frontier l
    let es ← frontierEntries env st f
    pure (p.addRetained [] es).2

/-- the handle for a label with this index -/
def handleFor (env : Env) (t : Tree) (index : List Nat) : Handle Produced := Produced.handle (serverDB env t.tx) index

/-- run an algorithm on the provider; the provider is only needed after success -/
def runOn {α : Type} (H : Handle Produced) (prog : Prog α) (p : Provider Produced) : G (α × Provider Produced) :=
  match p.run H prog with
  | (.error e, _) => .error e
  | (.ok a, p) => .ok (a, p)

/-- transparency.go:129-160 `updateView` (`t.treeHead` was checked by `fullTreeHead`) -/
def updateView (env : Env) (now : Nat) (t : Tree) (index : List Nat) (last : Option Nat) (p : Provider Produced) :
    G (Provider Produced) :=
  match t.head with
  | none => goPanic "nil pointer dereference"
  | some th => do
    let p ← loadRetained env t.tx last p
    let r ← runOn (handleFor env t index) (Alg.updateView env.cfg now th.treeSize last) p
    pure r.2

/-! ### Search -/

/-- transparency.go:186-200: the version whose value is returned, and the versions that need a VRF output.
`index` is the index of the label. -/
def searchTarget (version : Option Nat) (index : List Nat) : Nat :=
  match version with
  | none => (index.length - 1) % 2 ^ 32
  | some v => v

/-- transparency.go:186-200: the ladder -/
def searchLadder (version : Option Nat) (index : List Nat) : G (List Nat) :=
  if version = none ∧ index.length = 0 then pure [0]
  else searchBinaryLadder (searchTarget version index) (searchTarget version index) [] []

/-- transparency.go:206-216: the VRF proof of each version; the outputs are added to the handle -/
def addLadder (env : Env) (label : Bytes) : List Nat → Produced → G (List BinaryLadderStep × Produced)
  | [], s => pure ([], s)
  | v :: vs, s => do
    let out ← computeVrf env label v
    let s ← s.addVersion env.cs v out.1
    let (steps, s) ← addLadder env label vs s
    pure (⟨out.2, none⟩ :: steps, s)

/-- transparency.go:224-237: the search itself; that the version does not exist is not an error here. -/
def runSearch (env : Env) (H : Handle Produced) (version : Option Nat) (index : List Nat) (n : Nat)
    (p : Provider Produced) : G (Provider Produced) :=
  let prog := match version with
    | none => greatestVersionSearch env.cfg (searchTarget version index) n
    | some v => fixedVersionSearch env.cfg v n
  match p.run H prog with
  | (.ok _, p) => .ok p
  | (.error e, p) => if e = .err errLabelNotFound then .ok p else .error e

/-- transparency.go:243-251: whether the commitment of a version of the ladder is sent -/
def populates (version : Option Nat) (index : List Nat) (v : Nat) : Bool :=
  match version with
  | none => decide ((v : Int) ≠ (index.length : Int) - 1)
  | some t => decide (v ≠ t)

/-- proof_handle.go:316-318 `GetCommitment` -/
def getCommitment (s : Produced) (v : Nat) : Option Bytes :=
  match s.versions.lookup v with
  | none => none
  | some k => k.com

/-- transparency.go:243-251: fill in the commitments -/
def populate (version : Option Nat) (index : List Nat) (s : Produced) (vs : List Nat) (steps : List BinaryLadderStep) :
    List BinaryLadderStep :=
  (vs.zip steps).map (fun e => if populates version index e.1 then { e.2 with commitment := getCommitment s e.1 } else e.2)

/-- data_provider.go:245-264 `Output`, keeping the provider only after success -/
def outputOf (env : Env) (t : Tree) (index : List Nat) (h : Heads) (p : Provider Produced) :
    G (CombinedTreeProof × Provider Produced) :=
  match p.output env.cs (serverDB env t.tx) index h.n h.nP h.m with
  | (.error e, _) => .error e
  | (.ok r, p) => .ok (r, p)

/-- transparency.go:162-269 `Search` -/
def search (env : Env) (now : Nat) (t : Tree) (req : SearchRequest) : G SearchResponse := do
  let h ← fullTreeHead t req.last
  let index ← getIndex t.tx req.label
  let ladder ← searchLadder req.version index
  let ov ← getVersion env t.tx req.label (searchTarget req.version index)
  let (steps, s) ← addLadder env req.label ladder {}
  let p ← updateView env now t index req.last (newProvider s)
  let p ← runSearch env (handleFor env t index) req.version index h.n p
  let (proof, p) ← outputOf env t index h p
  let version := match req.version with
    | none => some (searchTarget req.version index)
    | some _ => none
  pure ⟨h.fth, version, ov.opening, ov.value, populate req.version index p.state ladder steps, proof⟩

/-! ### monitor.go -/

/-- monitor.go:19-25: the order of the entries of the monitoring map -/
def entriesSorted : List MonitorMapEntry → G Unit
  | a :: b :: rest =>
    if a.position ≥ b.position then goErr "monitoring map is not sorted by position"
    else if a.version ≥ b.version then goErr "monitoring map is not sorted by version"
    else entriesSorted (b :: rest)
  | _ => pure ()

/-- monitor.go:29-44: each position is on the right direct path of the entry where the version appeared -/
def entriesPlaced (index : List Nat) (n : Nat) : List MonitorMapEntry → PMap → G PMap
  | [], ptrs => pure ptrs
  | e :: rest, ptrs =>
    match index[e.version]? with
    | none => goErr "unexpected version found in monitoring map"
    | some first => do
      let path ← SearchTree.rightDirectPath first n
      if e.position ≠ first ∧ ¬ path.contains e.position then goErr "unexpected position found in monitoring map"
      else entriesPlaced index n rest (ptrs.set e.position e.version)

/-- monitor.go:16-45 `verifyEntries` -/
def verifyEntries (entries : List MonitorMapEntry) (index : List Nat) (n : Nat) : G PMap := do
  entriesSorted entries
  entriesPlaced index n entries []

/-- insert into a sorted list without repetitions -/
def insertNat (v : Nat) : List Nat → List Nat
  | [] => [v]
  | w :: l => if v < w then v :: w :: l else if v = w then w :: l else w :: insertNat v l

/-- `slices.Sort` of the keys of a map -/
def sortedSet (l : List Nat) : List Nat := l.foldr insertNat []

/-- the ladders of several versions, one after the other: monitor.go:53-57 -/
def ladders : List Nat → G (List Nat)
  | [] => pure []
  | v :: vs => do
    let l ← searchBinaryLadder v v [] []
    let rest ← ladders vs
    pure (l ++ rest)

/-- monitor.go:49-65 `allLadderVersions` -/
def allLadderVersions (versions : List Nat) : G (List Nat) := do
  let l ← ladders versions
  pure (sortedSet (0 :: l))

/-- monitor.go:80-90: VRF proofs of all versions, VRF outputs of those that exist -/
def ladderVrfs (env : Env) (label : Bytes) (greatest : Int) : List Nat → G (List Bytes × List Bytes)
  | [] => pure ([], [])
  | v :: vs => do
    let out ← computeVrf env label v
    let (proofs, outputs) ← ladderVrfs env label greatest vs
    pure (out.2 :: proofs, if (v : Int) ≤ greatest then out.1 :: outputs else outputs)

/-- monitor.go:101-103: the commitments go to the first steps -/
def assignCommitments : List Bytes → List (Option Bytes) → G (List BinaryLadderStep)
  | [], _ :: _ => goPanic "index out of range"
  | proofs, [] => pure (proofs.map (fun p => ⟨p, none⟩))
  | p :: proofs, c :: coms => do
    let rest ← assignCommitments proofs coms
    pure (⟨p, c⟩ :: rest)

/-- monitor.go:71-106 `getBinaryLadder` -/
def getBinaryLadder (env : Env) (t : Tree) (label : Bytes) (versions : List Nat) (greatest : Int) (n : Nat) :
    G (List BinaryLadderStep) := do
  let (proofs, outputs) ← ladderVrfs env label greatest versions
  let results ← Prefix.search env.cs t.tx.tiles [⟨n, outputs⟩]
  match results with
  | [] => goPanic "index out of range"
  | r :: _ => assignCommitments proofs r.2

/-- monitor.go:108-113 `monitorOp`, with the state of the provider -/
structure MonitorOp where
  heads : Heads
  index : List Nat
  monitor : Monitor
  provider : Provider Produced

/-- monitor.go:115-140 `startMonitor` -/
def startMonitor (env : Env) (now : Nat) (t : Tree) (last : Option Nat) (label : Bytes) : G MonitorOp := do
  let h ← fullTreeHead t last
  let index ← getIndex t.tx label
  let p ← updateView env now t index last (newProvider {})
  let (m, p) ← runOn (handleFor env t index) (newMonitor env.cfg h.n) p
  pure ⟨h, index, m, p⟩

/-- monitor.go:142-149: add the VRF outputs of the versions that the proofs need -/
def addRequired (env : Env) (label : Bytes) : List Nat → Produced → G Produced
  | [], s => pure s
  | v :: vs, s => do
    let out ← computeVrf env label v
    let s ← s.addVersion env.cs v out.1
    addRequired env label vs s

/-- monitor.go:141-156 `finish` (`RequiredVersions` returns a map: every version once; the order does not matter) -/
def finishMonitor (env : Env) (t : Tree) (label : Bytes) (op : MonitorOp) : G (FullTreeHead × CombinedTreeProof) := do
  let s ← addRequired env label op.provider.state.required.eraseDups op.provider.state
  let (proof, _) ← outputOf env t op.index op.heads { op.provider with state := s }
  pure (op.heads.fth, proof)

/-- monitor.go:160-186 `ContactMonitor` -/
def contactMonitor (env : Env) (now : Nat) (t : Tree) (req : ContactMonitorRequest) : G MonitorResponse := do
  let op ← startMonitor env now t req.last req.label
  let ptrs ← verifyEntries req.entries op.index op.heads.n
  let (m, p) ← runOn (handleFor env t op.index) (Alg.contactMonitor { op.monitor with contact := some ptrs }) op.provider
  let (fth, proof) ← finishMonitor env t req.label { op with monitor := m, provider := p }
  pure ⟨fth, proof⟩

/-- monitor.go:203-211: the greatest version at each entry, up to the first entry without a version -/
def initVersions (index : List Nat) : List Nat → List Nat
  | [] => []
  | x :: xs =>
    let ver := (⟨0, -1, index⟩ : Owner).greatestAt x
    if ver = -1 then [] else ver.toNat % 2 ^ 32 :: initVersions index xs

/-- monitor.go:188-240 `OwnerInit` -/
def ownerInit (env : Env) (now : Nat) (t : Tree) (req : OwnerInitRequest) : G OwnerInitResponse := do
  let op ← startMonitor env now t req.last req.label
  let H := handleFor env t op.index
  let (entries, p) ← runOn H (initEntries op.monitor req.start) op.provider
  let versions := initVersions op.index entries
  let all ← allLadderVersions versions
  let ladder ← getBinaryLadder env t req.label all ((⟨0, -1, op.index⟩ : Owner).greatestAt req.start) op.heads.n
  let (r, p) ← runOn H (Alg.ownerInit op.monitor req.start versions) p
  let (fth, proof) ← finishMonitor env t req.label { op with monitor := r.1, provider := p }
  pure ⟨fth, versions, ladder, proof⟩

/-- monitor.go:257-284: the checks on the request, and the owner state that the request describes.  A slice
expression beyond the length is a panic here (Go looks at the capacity). -/
def ownerState (index : List Nat) (n : Nat) (req : OwnerMonitorRequest) : G Owner :=
  if req.start ≥ n then goErr "advertised starting position is greater than tree size"
  else if req.greatestVersion.any (fun v => decide (v ≥ index.length)) then
    goErr "version advertised is greater than known greatest version"
  else
    let o := (⟨0, -1, index⟩ : Owner).setStarting req.start
    if o.verAtStarting > -1 ∧ req.greatestVersion.all (fun v => decide ((v : Int) < o.verAtStarting)) then
      goErr "version advertised is less than version at starting position"
    else
      let last : Int := match req.greatestVersion with
        | none => 0
        | some v => v - o.verAtStarting
      if last < 0 ∨ last > o.upcoming.length then goPanic "slice bounds out of range"
      else pure { o with upcoming := o.upcoming.take last.toNat }

/-- monitor.go:242-300 `OwnerMonitor` -/
def ownerMonitor (env : Env) (now : Nat) (t : Tree) (req : OwnerMonitorRequest) : G MonitorResponse := do
  let op ← startMonitor env now t req.last req.label
  let ptrs ← verifyEntries req.entries op.index op.heads.n
  let o ← ownerState op.index op.heads.n req
  let H := handleFor env t op.index
  let (m, p) ← runOn H (Alg.contactMonitor { op.monitor with contact := some ptrs, owner := some o }) op.provider
  let (m, p) ← runOn H (Alg.ownerMonitor m) p
  let (fth, proof) ← finishMonitor env t req.label { op with monitor := m, provider := p }
  pure ⟨fth, proof⟩

/-! ### update.go -/

/-- update.go:51-76 `updateLadderVersions` -/
def updateLadderVersions (startVer endVer : Nat) : G (List Nat) := do
  let l ← searchBinaryLadder endVer endVer [] []
  let all := l ++ (List.range (endVer - startVer)).map (startVer + ·)
  let drop ← if startVer = 0 then pure [0] else searchBinaryLadder (startVer - 1) (startVer - 1) [] []
  pure (sortedSet (all.filter (fun v => ¬ drop.contains v)))

/-- update.go:78-90 `updater` -/
structure Updater where
  tree : Tree
  last : Option Nat
  label : Bytes
  signedVer : Option Nat
  values : List UpdateValue
  index : List Nat
  ver : Nat

/-- the next version that the user has to learn about: update.go:108-111, 146-149 -/
def nextVer : Option Nat → Nat
  | none => 0
  | some v => v + 1

/-- update.go:96-115 `setRequest` -/
def setRequest (t : Tree) (req : UpdateRequest) : G Updater := do
  let index ← getIndex t.tx req.label
  pure ⟨t, req.last, req.label, none, req.values.map (fun v => ⟨v, none⟩), index, nextVer req.greatestVersion⟩

/-- update.go:119-134: the signatures of the service operator; `verify` is `LeafPublicKey.Verify` -/
def verifyOperator (cfg : Config) (verify : Bytes → Bytes → Bool) (label : Bytes) (signed : Nat) :
    Nat → List UpdateValue → G Unit
  | _, [] => pure ()
  | i, v :: vs => do
    let tbs ← updateTBS cfg label ((signed + i) % 2 ^ 32) v.value
    match cfg.leafKey with
    | none => goPanic "nil pointer dereference"
    | some _ =>
      if ¬ verify tbs (v.signature.getD []) then goErr "leaf signature verification failed"
      else verifyOperator cfg verify label signed (i + 1) vs

/-- update.go:117-151 `setManagerRequest` -/
def setManagerRequest (env : Env) (verify : Bytes → Bytes → Bool) (t : Tree) (req : ManagerUpdateRequest) :
    G Updater := do
  verifyOperator env.cfg verify req.label req.signedVersion 0 req.values
  let index ← getIndex t.tx req.label
  pure ⟨t, req.last, req.label, some req.signedVersion, req.values, index, nextVer req.greatestVersion⟩

/-- update.go:287-308 `infos`, on the rest of the index from version `ver` on -/
def infos (env : Env) (st : Store) (label : Bytes) (pos : Nat) (withValues : Bool) :
    Nat → List Nat → G (List Bytes × List UpdateInfo)
  | _, [] => pure ([], [])
  | ver, p :: rest =>
    if p ≠ pos then pure ([], [])
    else do
      let ov ← getVersion env st label (ver % 2 ^ 32)
      let (values, info) ← infos env st label pos withValues (ver + 1) rest
      pure (if withValues then ov.value.value :: values else values, ⟨ov.opening, ov.value.signature⟩ :: info)

/-- update.go:314-317 `ladder` -/
def updaterLadder (env : Env) (u : Updater) (startVer endVer : Nat) : G (List BinaryLadderStep) := do
  let versions ← updateLadderVersions (startVer % 2 ^ 32) (endVer % 2 ^ 32)
  match u.tree.head with
  | none => goPanic "nil pointer dereference"
  | some th => getBinaryLadder env u.tree u.label versions ((startVer : Int) - 1) th.treeSize

/-- update.go:238-282 `next`: the response, and the next version to report -/
def next (env : Env) (now : Nat) (u : Updater) (withValues : Bool) : G (UpdateResponse × Nat) :=
  match u.index[u.ver]? with
  | none => goPanic "index out of range"
  | some pos => do
    let (values, info) ← infos env u.tree.tx u.label pos withValues u.ver (u.index.drop u.ver)
    let ver := u.ver + info.length
    let ladder ← updaterLadder env u (ver - info.length) (ver - 1)
    let h ← fullTreeHead u.tree u.last
    let p ← updateView env now u.tree u.index u.last (newProvider {})
    let H := handleFor env u.tree u.index
    let (m, p) ← runOn H (newMonitor env.cfg h.n) p
    let (_, p) ← runOn H (monitorUpdate m pos info.length) p
    let (proof, _) ← outputOf env u.tree u.index h p
    pure (⟨h.fth, pos, values, info, ladder, proof⟩, ver)

/-- update.go:168-178 and 225-235: the two loops of `process`; the messages sent, and the updater if all went well.
`withValues` tells for which positions the values are sent. -/
def sendAll (env : Env) (now : Nat) (withValues : Nat → Bool) : Nat → Updater → List (G UpdateResponse) × Option Updater
  | 0, u => ([], some u)
  | fuel + 1, u =>
    if u.ver < u.index.length then
      match next env now u (withValues (u.index.getD u.ver 0)) with
      | .error e => ([.error e], none)
      | .ok (res, ver) =>
        let r := sendAll env now withValues fuel { u with ver := ver, last := some u.tree.size }
        (.ok res :: r.1, r.2)
    else ([], some u)

/-- update.go:321-341 `reloadTree` -/
def reloadTree (env : Env) (db : Store) (pos : Nat) (u : Updater) : G Updater := do
  let t ← newTree env db
  if t.head = none then goPanic "nil pointer dereference"
  else if t.size ≤ pos then goErr "reloaded tree does not contain new versions of label"
  else do
    let index ← getIndex db u.label
    if index.getLast?.all (fun p => decide (p < pos)) then
      goErr "reloaded index does not contain new versions of label"
    else pure { u with tree := t, index := index }

/-- what becomes of the request to the goroutine that sequences new versions: there is none (`t.updater == nil`), it
refuses (it closes the channel), or the versions are in log entry `pos` of the database `db` -/
inductive Sequenced where
  | unsupported
  | refused
  | sequenced (pos : Nat) (db : Store)

/-- update.go:162-236 `process`: the messages that are sent to the user -/
def process (env : Env) (now : Nat) (seq : Sequenced) (u : Updater) : List (G UpdateResponse) :=
  let r := sendAll env now (fun _ => true) (u.index.length + 1) u
  r.1 ++
    match r.2 with
    | none => []
    | some u =>
      if u.values = [] then []
      else
        match seq with
        | .unsupported => [goErr "transparency tree does not support user-submitted label updates"]
        | .refused => [goErr "failed to sequence requested new versions of label"]
        | .sequenced pos db =>
          match reloadTree env db pos u with
          | .error e => [.error e]
          | .ok u => (sendAll env now (fun p => decide (p ≠ pos)) (u.index.length + 1) u).1

/-- update.go:14-27 `Update`: the error, or the messages sent on the channel -/
def update (env : Env) (now : Nat) (seq : Sequenced) (t : Tree) (req : UpdateRequest) : G (List (G UpdateResponse)) := do
  let u ← setRequest t req
  pure (process env now seq u)

/-- update.go:29-42 `ManagerUpdate` -/
def managerUpdate (env : Env) (now : Nat) (verify : Bytes → Bytes → Bool) (seq : Sequenced) (t : Tree)
    (req : ManagerUpdateRequest) : G (List (G UpdateResponse)) := do
  let u ← setManagerRequest env verify t req
  pure (process env now seq u)

end Katie.Server
