import Verif.Model.Provider
import Verif.Model.Algorithms

/-
Model of /repo/tree/transparency/auditor: auditor.go, state.go.

`a.state` is an `Option`; `Process` and `Commit` return the auditor they leave behind also when they fail.  The
database is what `PutState` last stored; whether it accepts a write is an argument, as is the signing key.
-/

namespace Katie.Audit
open Katie Katie.Wire Katie.Alg

/-- state.go:20-23 `InsertedVrfOutput` -/
structure Inserted where
  pos : Nat
  vrf : Bytes
  deriving DecidableEq, Repr

/-- state.go:26-33 `AuditorState`, with the fields of `TreeHead` (the signature is nil until `Commit`) -/
structure AState where
  timestamp : Nat
  treeSize : Nat
  signature : Option Bytes
  fullSubtrees : List Bytes
  timestamps : List Nat
  prefixTree : Bytes
  inserted : List Inserted
  deriving DecidableEq, Repr

/-! ### state.go -/

/-- the number of ones among the lowest `k` bits -/
def ones : Nat → Nat → Nat
  | 0, _ => 0
  | k + 1, n => n % 2 + ones k (n / 2)

/-- `bits.OnesCount64` -/
def onesCount (n : Nat) : Nat := ones 64 n

/-- a computation while reading -/
def liftRd {α : Type} (g : G α) : Rd α := fun buf =>
  match g with
  | .ok a => .ok (a, buf)
  | .error e => .error e

/-- state.go:68-79: one element of `Inserted` -/
def newInserted (hashSize : Nat) : Rd Inserted := do
  let pos ← rNum 8
  let vrf ← rFull hashSize
  pure ⟨pos, vrf⟩

/-- state.go:35-89 `NewAuditorState` -/
def newAuditorState (hashSize : Nat) : Rd AState := do
  let th ← newAuditorTreeHead
  let fullSubtrees ← rLoop (rFull hashSize) (onesCount th.treeSize)
  let frontier ← liftRd (SearchTree.frontier th.treeSize)
  let timestamps ← rLoop (rNum 8) frontier.length
  let prefixTree ← rFull hashSize
  let inserted ← rSlice 2 (newInserted hashSize)
  pure ⟨th.timestamp, th.treeSize, some th.signature, fullSubtrees, timestamps, prefixTree, inserted⟩

/-- state.go:109-112 -/
def Inserted.marshal (i : Inserted) : G Bytes := wNum 8 i.pos +> wRaw i.vrf

/-- state.go:105-112 (the text of the error is "inserted vrf outputs is too long to marshal") -/
def marshalInserted (l : List Inserted) : G Bytes :=
  if l.length ≥ 2 ^ 16 then goErr "inserted vrf outputs is too long to marshal"
  else wNum 2 l.length +> wLoop Inserted.marshal l

/-- state.go:91-115 `Marshal` (a nil signature is written as an empty one) -/
def AState.marshal (s : AState) : G Bytes :=
  (⟨s.timestamp, s.treeSize, s.signature.getD []⟩ : AuditorTreeHead).marshal +>
  wLoop wRaw s.fullSubtrees +> wLoop (wNum 8) s.timestamps +> wRaw s.prefixTree +> marshalInserted s.inserted

/-- the loop of `slices.BinarySearchFunc(l, target, compareInserted)` -/
def searchInserted (l : List Inserted) (v : Bytes) : Nat → Nat → Nat → Nat
  | 0, i, _ => i
  | fuel + 1, i, j =>
    if i < j then
      match l[(i + j) / 2]? with
      | none => i
      | some e =>
        if Prefix.bytesLt e.vrf v then searchInserted l v fuel ((i + j) / 2 + 1) j
        else searchInserted l v fuel i ((i + j) / 2)
    else i

/-- state.go:119-129 `addedSince` (`as` may be nil) -/
def addedSince (as : Option AState) (x : Nat) (v : Bytes) : Bool :=
  match as with
  | none => true
  | some s =>
    match s.inserted[searchInserted s.inserted v s.inserted.length 0 s.inserted.length]? with
    | none => false
    | some e => e.vrf == v && decide (e.pos > x)

/-- "too old": state.go:148-156, 172, 177 -/
def tooOld (rightmost : Option Nat) (e : Inserted) : Bool :=
  match rightmost with
  | none => false
  | some r => decide (e.pos ≤ r)

/-- state.go:142-183 `mergeInserted`; the fuel is the number of elements -/
def mergeLoop (rightmost : Option Nat) : Nat → List Inserted → List Inserted → List Inserted
  | 0, _, _ => []
  | _ + 1, [], js => js.filter (fun e => !tooOld rightmost e)
  | _ + 1, is, [] => is.filter (fun e => !tooOld rightmost e)
  | fuel + 1, i :: is, j :: js =>
    if tooOld rightmost i then mergeLoop rightmost fuel is (j :: js)
    else if tooOld rightmost j then mergeLoop rightmost fuel (i :: is) js
    else if Prefix.bytesLt i.vrf j.vrf then i :: mergeLoop rightmost fuel is (j :: js)
    else if i.vrf = j.vrf then j :: mergeLoop rightmost fuel is js
    else j :: mergeLoop rightmost fuel (i :: is) js

/-- state.go:142-183 `mergeInserted` -/
def mergeInserted (existing added : List Inserted) (rightmost : Option Nat) : List Inserted :=
  mergeLoop rightmost (existing.length + added.length + 1) existing added

/-! ### auditor.go -/

/-- The nil `ProofHandle` of auditor.go:87: every call panics.  (`stop` and `addLadder` are not called by the
algorithms the auditor runs.) -/
def nilHandle : Handle Unit where
  getTs _ s := (goPanic "invalid memory address or nil pointer dereference", s)
  search _ _ _ s := (goPanic "invalid memory address or nil pointer dereference", s)
  monitor _ _ s := (goPanic "invalid memory address or nil pointer dereference", s)
  incl _ _ s := (goPanic "invalid memory address or nil pointer dereference", s)
  prefixTrees _ s := (goPanic "invalid memory address or nil pointer dereference", s)
  finish s := (goPanic "invalid memory address or nil pointer dereference", s)
  stop _ _ _ := false
  addLadder _ _ _ _ s := s

/-- the size of the log audited so far: auditor.go:68-72, 103-108 -/
def size : Option AState → Nat
  | none => 0
  | some s => s.treeSize

/-- the full subtrees of the log audited so far: auditor.go:104-109 -/
def subtreesOf : Option AState → List Bytes
  | none => []
  | some s => s.fullSubtrees

/-- auditor.go:71-81: the retained timestamps -/
def retainedTimes : Option AState → G (List (Nat × LogEntry))
  | none => .ok []
  | some s => do
    let frontier ← SearchTree.frontier s.treeSize
    if frontier.length ≠ s.timestamps.length then goErr "unexpected number of timestamps in auditor state"
    else pure (frontier.zip (s.timestamps.map (fun t => (⟨t, []⟩ : LogEntry))))

/-- auditor.go:65-88: the provider.  The error of `AddRetained` is ignored (:88). -/
def providerFor (a : Option AState) (added : Nat) : G (Provider Unit) := do
  let known ← retainedTimes a
  pure ((newProvider ()).addRetained [] (known ++ [(size a, ⟨added, []⟩)])).2

/-- auditor.go:65-95 `previousRightmost` -/
def previousRightmost (cfg : Config) (a : Option AState) (added : Nat) : G (Option Nat × Provider Unit) := do
  let p ← providerFor a added
  let (r, p) := p.run nilHandle (Alg.previousRightmost cfg (size a + 1))
  let prevDLE ← r
  pure (prevDLE, p)

/-- auditor.go:123-130: the timestamps to retain -/
def newTimes : List Nat → Provider Unit → G (List Nat) × Provider Unit
  | [], p => (.ok [], p)
  | x :: xs, p =>
    match p.getTimestamp nilHandle x with
    | (.error e, p) => (.error e, p)
    | (.ok t, p) =>
      match newTimes xs p with
      | (.error e, p) => (.error e, p)
      | (.ok ts, p) => (.ok (t :: ts), p)

/-- auditor.go:97-156 `updateState`: the new state.  `inserted` is declared (:105) but never set from the old
state, so `mergeInserted` is called with nil (:141). -/
def updateState (cs : Log.Suite) (cfg : Config) (a : Option AState) (p : Provider Unit) (added : List Prefix.Entry)
    (entry : LogEntry) : G AState := do
  let leaf ← entry.hash cs
  let fullSubtrees ← Log.append cs (size a) (subtreesOf a) leaf
  let frontier ← SearchTree.frontier (size a + 1)
  let (r, p) := newTimes frontier p
  let timestamps ← r
  let (r, _) := p.run nilHandle (rightmostDistinguished cfg (size a + 1))
  let rightmost ← r
  pure { timestamp := entry.timestamp
         treeSize := size a + 1
         signature := none
         fullSubtrees := fullSubtrees
         timestamps := timestamps
         prefixTree := entry.prefixTree
         inserted := mergeInserted [] (added.map (fun e => ⟨size a, e.vrf⟩)) rightmost }

/-- auditor.go:170-179: strictly increasing -/
def sortedStrictly : List Prefix.Entry → Bool
  | [] => true
  | [_] => true
  | a :: b :: rest => Prefix.bytesLt a.vrf b.vrf && sortedStrictly (b :: rest)

/-- auditor.go:186-202: every added VRF output is shown absent, or removed by the same update -/
def addedAbsent (removed : List Prefix.Entry) (added : List Prefix.Entry) (results : List Prefix.Res) : Bool :=
  (added.zip results).all (fun e => !e.2.isInclusion || removed.any (fun r => e.1.vrf == r.vrf))

/-- auditor.go:162-240 `Process`: the new state -/
def processed (cs : Log.Suite) (cfg : Config) (a : Option AState) (u : AuditorUpdate) : G AState :=
  if a.any (fun s => u.timestamp < s.timestamp) then goErr "update timestamp is less than rightmost timestamp"
  else if ¬ sortedStrictly u.added then goErr "list of added prefix tree entries is invalid"
  else if ¬ sortedStrictly u.removed then goErr "list of removed prefix tree entries is invalid"
  else if u.proof.results.length ≠ u.added.length + u.removed.length then
    goErr "unexpected number of prefix proof results"
  else if ¬ addedAbsent u.removed u.added u.proof.results then goErr "proof shows inclusion for added leaf"
  else if ¬ (u.proof.results.drop u.added.length).all Prefix.Res.isInclusion then
    goErr "proof shows non-inclusion for removed leaf"
  else do
    let (prevDLE, p) ← previousRightmost cfg a u.timestamp
    if prevDLE = none ∧ u.removed.length > 0 then goErr "prefix tree leaf is not eligible for removal"
    else if u.removed.any (fun e => addedSince a (prevDLE.getD 0) e.vrf) then
      goErr "prefix tree leaf is not eligible for removal"
    else do
      let (before, after) ← Prefix.evaluateBeforeAfter cs u.added u.removed u.proof
      if a.any (fun s => before ≠ s.prefixTree) then goErr "prefix tree root does not match expected"
      else updateState cs cfg a p u.added ⟨u.timestamp, after⟩

/-- auditor.go:19-25 `Auditor` and its database -/
structure Auditor where
  state : Option AState := none
  stored : Option Bytes := none
  deriving DecidableEq, Repr

/-- auditor.go:162-240 `Process`.  The only assignment to `a.state` is the last statement (:143). -/
def process (cs : Log.Suite) (cfg : Config) (u : AuditorUpdate) (a : Auditor) : G Unit × Auditor :=
  match processed cs cfg a.state u with
  | .error e => (.error e, a)
  | .ok s => (.ok (), { a with state := some s })

/-- auditor.go:252-264: what `Commit` signs -/
def toSign (cs : Log.Suite) (cfg : Config) (s : AState) : G Bytes := do
  let root ← Log.root cs s.treeSize s.fullSubtrees
  auditorTreeHeadTBS cfg s.timestamp s.treeSize root

/-- auditor.go:244-279 `Commit`; `sign` is the key, `put` says whether the database stores the bytes -/
def commit (cs : Log.Suite) (cfg : Config) (sign : Bytes → G Bytes) (put : Bytes → G Unit) (a : Auditor) :
    G AuditorTreeHead × Auditor :=
  match a.state with
  | none => (goErr "can not commit empty state", a)
  | some s =>
    match s.signature with
    | some sig => (.ok ⟨s.timestamp, s.treeSize, sig⟩, a)
    | none =>
      match toSign cs cfg s >>= sign with
      | .error e => (.error e, a)
      | .ok sig =>
        let s := { s with signature := some sig }
        match s.marshal with
        | .error e => (.error e, { a with state := some s })
        | .ok raw =>
          match put raw with
          | .error e => (.error e, { a with state := some s })
          | .ok () => (.ok ⟨s.timestamp, s.treeSize, sig⟩, ⟨some s, some raw⟩)

/-- auditor.go:30-63 `NewAuditor` with the given database contents; `key` are the bytes of the auditor's public
key -/
def newAuditor (hashSize : Nat) (cfg : Config) (key : Bytes) (stored : Option Bytes) : G Auditor :=
  if cfg.mode ≠ thirdPartyAuditing then
    goErr "transparency log is not configured with third party auditor"
  else do
    let k ← keyBytes cfg.auditorKey
    if k ≠ key then goErr "auditor private key does not match transparency log configuration"
    else
      match stored with
      | none => pure ⟨none, none⟩
      | some raw =>
        match newAuditorState hashSize raw with
        | .error e => .error e
        | .ok (s, rest) =>
          if rest.length ≠ 0 then goErr "unexpected data appended to auditor state"
          else pure ⟨some s, some raw⟩

end Katie.Audit
