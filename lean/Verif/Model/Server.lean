import Verif.Model.State
import Verif.Model.Handles
import Verif.Model.Algorithms
import Verif.Model.DB
import Verif.Model.Commitment

/-
Model of /repo/tree/transparency: transparency.go (`NewTree`), crypto.go and mutate.go.

The database is a record with one table per kind of key; that the kinds do not interfere is `C39_keys_distinct`.  The
tables are association lists whose newest binding wins.  `tx` is what the connection reads: the database with the
writes since the last commit; `db` is what is committed (the two writes inside `Commit` are treated in C38).  Database
calls do not fail.

The VRF and the signature key are functions.  The random openings, the time and the order in which Go goes through the
map of labels are arguments of `Mutate`.
-/

namespace Katie.Server
open Katie Katie.Wire Katie.Alg

/-- transparency.go:15-18 -/
structure LabelValue where
  label : Bytes
  value : UpdateValue
  deriving DecidableEq, Repr

/-- the contents of a `db.TransparencyStore` -/
structure Store where
  entries : List (Nat × Bytes) := []
  index : List (Bytes × Bytes) := []
  versions : List ((Bytes × Nat) × Bytes) := []
  log : Log.LStore := []
  tiles : Prefix.Store := []
  head : Option Bytes := none
  auditor : Option Bytes := none
  deriving DecidableEq, Repr

/-- `structs.PrivateConfig` -/
structure Env where
  cs : Log.Suite
  sz : Sizes
  cfg : Config
  /-- `VrfKey.Prove`: output and proof -/
  prove : Bytes → Bytes × Bytes
  /-- `SignatureKey.Sign` -/
  sign : Bytes → G Bytes

/-- transparency.go:53-59 `Tree` (without the configuration and the update channel) -/
structure Tree where
  db : Store := {}
  tx : Store := {}
  head : Option TreeHead := none
  auditor : Option AuditorTreeHead := none
  deriving DecidableEq, Repr

/-- read a whole byte string, refusing trailing data: transparency.go:79-86, crypto.go:85-91 and others -/
def readAll {α : Type} (r : Rd α) (msg : String) (raw : Bytes) : G α :=
  match r raw with
  | .error e => .error e
  | .ok (a, rest) => if rest.length ≠ 0 then goErr msg else .ok a

/-- transparency.go:78-87 -/
def readHead : Option Bytes → G (Option TreeHead)
  | none => pure none
  | some raw => do
    let th ← readAll newTreeHead "unexpected data appended to tree head" raw
    pure (some th)

/-- transparency.go:88-96 -/
def readAuditorHead (cfg : Config) : Option Bytes → G (Option AuditorTreeHead)
  | none => pure none
  | some raw =>
    if cfg.mode = thirdPartyAuditing then do
      let th ← readAll newAuditorTreeHead "unexpected data appended to auditor tree head" raw
      pure (some th)
    else pure none

/-- transparency.go:66-104 `NewTree` on a new connection to the database -/
def newTree (env : Env) (db : Store) : G Tree := do
  let head ← readHead db.head
  let auditor ← readAuditorHead env.cfg db.auditor
  pure ⟨db, db, head, auditor⟩

/-! ### crypto.go -/

/-- crypto.go:18-51 `batchGetIndex` for one label -/
def getIndex (st : Store) (label : Bytes) : G (List Nat) := DB.decodeIndex ((st.index.lookup label).getD [])

/-- crypto.go:54-72 `putIndex` -/
def putIndex (label : Bytes) (index : List Nat) : St Store Unit := do
  let raw ← St.lift (DB.encodeIndex index)
  match raw with
  | none => St.lift (goErr "leveldb: can not store nil value")
  | some raw => St.modify (fun st => { st with index := (label, raw) :: st.index })

/-- leveldb.go:143-145 `DeleteIndex` -/
def deleteIndex (label : Bytes) : St Store Unit :=
  St.modify (fun st => { st with index := st.index.filter (fun e => e.1 ≠ label) })

/-- leveldb.go:160-163 `PutVersion` -/
def putVersionRaw (label : Bytes) (ver : Nat) (raw : Bytes) : St Store Unit :=
  St.modify (fun st => { st with versions := ((label, ver), raw) :: st.versions })

/-- leveldb.go:166-168 `DeleteVersion` -/
def deleteVersion (label : Bytes) (ver : Nat) : St Store Unit :=
  St.modify (fun st => { st with versions := st.versions.filter (fun e => e.1 ≠ (label, ver)) })

/-- crypto.go:76-95 `getVersion` -/
def getVersion (env : Env) (st : Store) (label : Bytes) (ver : Nat) : G OpeningAndValue :=
  match st.versions.lookup (label, ver) with
  | none => .ok ⟨List.replicate env.sz.opening 0, ⟨[], none⟩⟩
  | some raw => readAll (newOpeningAndValue env.cfg env.sz) "unexpected data appended to label value" raw

/-- crypto.go:99-122 `putVersion`, with the opening that `GenerateOpening` (:100) returned -/
def putVersion (env : Env) (opening label : Bytes) (ver : Nat) (value : UpdateValue) : St Store Bytes := do
  let raw ← St.lift (⟨opening, value⟩ : OpeningAndValue).marshal
  putVersionRaw label ver raw
  let body ← St.lift (commitmentValue label ver value)
  pure (Commit.commit env.cs opening body)

/-- crypto.go:126-133 `computeVrfOutput` -/
def computeVrf (env : Env) (label : Bytes) (ver : Nat) : G (Bytes × Bytes) := do
  let input ← vrfInput label ver
  pure (env.prove input)

/-! ### mutate.go -/

/-- proof_handle.go:329-352 `getLogEntry` -/
def getEntry (env : Env) (st : Store) (x : Nat) : G LogEntry :=
  match st.entries.lookup x with
  | none => goErr "requested log entry not found"
  | some raw => readAll (newLogEntry env.cs.hashSize) "unexpected data appended to log entry" raw

/-- what a proof handle reads -/
def serverDB (env : Env) (st : Store) : ServerDB := ⟨getEntry env st, st.tiles, st.log⟩

/-- the arguments of a call of `Mutate`, the time of the call, the openings generated for each version, and the order
in which the labels are processed -/
structure Change where
  add : List LabelValue
  remove : List Bytes
  now : Nat
  opening : Bytes → Nat → Bytes
  order : List Bytes → List Bytes

/-- mutate.go:103-108 `labelMutation` -/
structure LabelMutation where
  label : Bytes
  index : List Nat
  add : List LabelValue
  remove : Bool
  deriving DecidableEq, Repr

/-- mutate.go:113-141: the set of labels, in the order of the random iteration -/
def labelsOf (c : Change) : List Bytes := c.order (c.add.map LabelValue.label ++ c.remove).eraseDups

/-- mutate.go:113-157 `groupByLabel` -/
def groupByLabel (c : Change) (st : Store) : List Bytes → G (List LabelMutation)
  | [] => pure []
  | l :: ls => do
    let index ← getIndex st l
    let rest ← groupByLabel c st ls
    pure (⟨l, index, c.add.filter (fun p => p.label == l), c.remove.contains l⟩ :: rest)

/-- mutate.go:183-192: delete all versions; returns their VRF outputs -/
def deleteVersions (env : Env) (label : Bytes) : List Nat → St Store (List Bytes)
  | [] => pure []
  | ver :: vers => do
    deleteVersion label ver
    let out ← St.lift (computeVrf env label ver)
    let rest ← deleteVersions env label vers
    pure (out.1 :: rest)

/-- mutate.go:170-195: the removal of a label; returns the removed VRF outputs and what is left of the index -/
def removeLabel (env : Env) (prevDLE : Option Nat) (m : LabelMutation) : St Store (List Bytes × List Nat) :=
  match m.remove, m.index.getLast? with
  | true, some last =>
    if prevDLE.all (fun d => decide (last > d)) then
      St.lift (goErr "unable to delete label that was modified recently")
    else do
      deleteIndex m.label
      let removed ← deleteVersions env m.label (List.range m.index.length)
      pure (removed, [])
  | _, _ => pure ([], m.index)

/-- mutate.go:197-211: the new versions of a label; returns the entries for the prefix tree and the new index.
`uint32(len(index))` keeps 32 bits. -/
def addVersions (env : Env) (opening : Bytes → Nat → Bytes) (n : Nat) :
    List LabelValue → List Nat → St Store (List Prefix.Entry × List Nat)
  | [], index => pure ([], index)
  | p :: ps, index => do
    let ver := index.length % 2 ^ 32
    let vrf ← St.lift (computeVrf env p.label ver)
    let com ← putVersion env (opening p.label ver) p.label ver p.value
    let (es, index) ← addVersions env opening n ps (index ++ [n])
    pure (⟨vrf.1, com⟩ :: es, index)

/-- mutate.go:212-216 -/
def storeIndex (adds : List LabelValue) (index : List Nat) : St Store Unit :=
  match adds with
  | [] => pure ()
  | p :: _ => putIndex p.label index

/-- mutate.go:161-218 `mutateLabel` -/
def mutateLabel (env : Env) (opening : Bytes → Nat → Bytes) (n : Nat) (prevDLE : Option Nat) (m : LabelMutation) :
    St Store (List Prefix.Entry × List Bytes) := do
  let (removed, index) ← removeLabel env prevDLE m
  let (added, index) ← addVersions env opening n m.add index
  storeIndex m.add index
  pure (added, removed)

/-- mutate.go:223-277 `issueTreeHead` up to the commit -/
def issueTreeHead (env : Env) (n timestamp : Nat) (prefixRoot : Bytes) : St Store TreeHead := do
  let raw ← St.lift (⟨timestamp, prefixRoot⟩ : LogEntry).marshal
  St.modify (fun st => { st with entries := (n, raw) :: st.entries })
  let leaf ← St.lift ((⟨timestamp, prefixRoot⟩ : LogEntry).hash env.cs)
  let (log, fullSubtrees) ← St.read (fun st => Log.treeAppend env.cs st.log n leaf)
  St.modify (fun st => { st with log := log })
  let root ← St.lift (Log.root env.cs (n + 1) fullSubtrees)
  let tbs ← St.lift (treeHeadTBS env.cfg (n + 1) root)
  let signature ← St.lift (env.sign tbs)
  let rawHead ← St.lift (⟨n + 1, signature⟩ : TreeHead).marshal
  St.modify (fun st => { st with head := some rawHead })
  pure ⟨n + 1, signature⟩

/-- mutate.go:33-53: the checks on the time, and `prevDLE`.  The error of `AddRetained` is ignored. -/
def previousDistinguished (env : Env) (st : Store) (n now : Nat) : G (Option Nat) := do
  let H := Produced.handle (serverDB env st) []
  let p ← if n > 0 then
      match (newProvider ({} : Produced)).getTimestamp H (n - 1) with
      | (.error e, _) => .error e
      | (.ok t, p) =>
        if now < t then goErr "refusing to issue tree head: current timestamp is less than previous timestamp"
        else pure p
    else pure (newProvider ({} : Produced))
  let p := (p.addRetained [] [(n, ⟨now, []⟩)]).2
  (p.run H (Alg.previousRightmost env.cfg (n + 1))).1

/-- mutate.go:88-99: the `AuditorUpdate` -/
def auditorUpdate (now : Nat) (added : List Prefix.Entry) (removed : List Bytes) (commitments : List Bytes)
    (proof : Prefix.Proof) : G AuditorUpdate :=
  if commitments.length < removed.length then goPanic "index out of range"
  else pure ⟨now, added, (removed.zip commitments).map (fun e => ⟨e.1, e.2⟩), proof⟩

/-- mutate.go:33-99, on the pending writes: the new tree head, and the result -/
def mutateStore (env : Env) (c : Change) (n : Nat) : St Store (TreeHead × G AuditorUpdate) := do
  let prevDLE ← St.read (fun st => previousDistinguished env st n c.now)
  let mutations ← St.read (fun st => groupByLabel c st (labelsOf c))
  let rs ← St.forEach (mutateLabel env c.opening n prevDLE) mutations
  let added := Prefix.sortBy Prefix.Entry.vrf (rs.flatMap (·.1))
  let removed := Prefix.sortBy id (rs.flatMap (·.2))
  let res ← St.read (fun st => Prefix.mutate env.cs st.tiles n added removed)
  St.modify (fun st => { st with tiles := res.store })
  let head ← issueTreeHead env n c.now res.root
  pure (head, auditorUpdate c.now added removed res.removed res.proof)

/-- `t.treeHead.TreeSize`, or 0: mutate.go:22-25 -/
def Tree.size (t : Tree) : Nat :=
  match t.head with
  | none => 0
  | some th => th.treeSize

/-- mutate.go:21-101 `Mutate`.  After `issueTreeHead`, everything pending is committed (:270) and the new tree head is
kept (:274). -/
def mutate (env : Env) (c : Change) (t : Tree) : G AuditorUpdate × Tree :=
  match mutateStore env c t.size t.tx with
  | (.error e, st) => (.error e, { t with tx := st })
  | (.ok (head, u), st) => (u, { t with db := st, tx := st, head := some head })

end Katie.Server
