import Verif.Model.Prog
import Verif.Model.SearchTree
import Verif.Model.Ladder

/-
Model of /repo/tree/transparency/algorithms: algorithms.go, search.go, monitor.go, update.go.

Positions, timestamps and tree sizes are `Nat` (below 2^64), versions `Nat` (below 2^32) and the possibly
negative "greatest version" an `Int`.  Loops that go down the search tree get the tree size as fuel.
`time.Now()` is an argument.
-/

namespace Katie.Alg
open Katie Katie.SearchTree Prog

/-! ### algorithms.go -/

/-- algorithms.go:16 `noLeftChild` -/
def noLeftChild (x : Nat) : Bool := LogMath.isLeaf x
/-- algorithms.go:18 `noRightChild` -/
def noRightChild (x n : Nat) : Bool := LogMath.isLeaf x || x == n - 1

/-- algorithms.go:39-53, the loop of `RightmostDistinguished` -/
def rightmostLoop (cfg : Config) (n rightmost : Nat) : Nat → Nat → Prog (Option Nat)
  | 0, _ => .ret (.error .diverge)
  | fuel + 1, x =>
    if x = n - 1 then pure (some x)
    else do
      let timestamp ← getTs x
      if ¬ cfg.isDistinguished timestamp rightmost then pure (some x)
      else do
        let r ← lift (right x n)
        rightmostLoop cfg n rightmost fuel r

/-- algorithms.go:24-54 `RightmostDistinguished` -/
def rightmostDistinguished (cfg : Config) (n : Nat) : Prog (Option Nat) :=
  if n = 0 then pure none
  else do
    let rightmost ← getTs (n - 1)
    if ¬ cfg.isDistinguished 0 rightmost then pure none
    else rightmostLoop cfg n rightmost n (root n)

/-- algorithms.go:99-110, the loop of `PreviousRightmost` -/
def previousLoop (cfg : Config) (n right0 : Nat) : Nat → Nat → Prog (Option Nat)
  | 0, _ => .ret (.error .diverge)
  | fuel + 1, out =>
    if noRightChild out n then pure (some out)
    else do
      let l ← getTs out
      if ¬ cfg.isDistinguished l right0 then pure (some out)
      else do
        let r ← lift (right out n)
        previousLoop cfg n right0 fuel r

/-- algorithms.go:82-89: the timestamp of the parent, or 0 -/
def parentTs : Option Nat → Prog Nat
  | none => pure 0
  | some p => getTs p

/-- algorithms.go:68-116 `PreviousRightmost` -/
def previousRightmost (cfg : Config) (n : Nat) : Prog (Option Nat) := do
  let r ← rightmostDistinguished cfg n
  match r with
  | none => pure none
  | some x =>
    if x ≠ n - 1 then pure (some x)
    else do
      let p ← if x ≠ root n then (do let p ← lift (parent x n); pure (some p)) else pure none
      let left0 ← parentTs p
      let right0 ← getTs x
      if ¬ noLeftChild x ∧ cfg.isDistinguished left0 right0 then do
        let out ← lift (LogMath.left x)
        previousLoop cfg n right0 n out
      else pure p

/-- algorithms.go:127-131: request all timestamps of a list -/
def getAllTs : List Nat → Prog Unit
  | [] => pure ()
  | x :: xs => do
    let _ ← getTs x
    getAllTs xs

/-- algorithms.go:120-144 `UpdateView` at local time `now` (milliseconds) -/
def updateView (cfg : Config) (now n : Nat) (m : Option Nat) : Prog Unit :=
  if m.any (fun k => k > n) then fail "new tree size is not greater than previous tree size"
  else if n = 0 then pure ()
  else do
    let xs ← lift (SearchTree.updateView n m)
    getAllTs xs
    let ts ← getTs (n - 1)
    if now < ts ∧ ts - now > cfg.maxAhead then fail "rightmost timestamp is too far ahead of local clock"
    else if now > ts ∧ now - ts > cfg.maxBehind then fail "rightmost timestamp is too far behind local clock"
    else pure ()

/-! ### search.go -/

/-- algorithms.go:12 -/
def errLabelNotFound : String := "requested version of label does not exist"
/-- algorithms.go:13 -/
def errLabelExpired : String := "requested version of label has expired"

/-- search.go:36-57, the loop of `GreatestVersionSearch` (`terminal = none` while `first` is true) -/
def greatestLoop (ver n : Nat) : Nat → Nat → Option Nat → Prog Nat
  | 0, _, _ => .ret (.error .diverge)
  | fuel + 1, x, terminal => do
    let res ← getSearch x ver true
    if res = 1 then fail "log entry not consistent with claimed greatest version of label"
    else
      let terminal := if res = 0 ∧ terminal = none then some x else terminal
      if x ≠ n - 1 then do
        let r ← lift (right x n)
        greatestLoop ver n fuel r terminal
      else if ver = 0 ∧ res = -1 then fail errLabelNotFound
      else if res ≠ 0 then fail "rightmost log entry not consistent with claimed greatest version of label"
      else pure (terminal.getD 0)

/-- search.go:15-58 `GreatestVersionSearch`.  The error of `RightmostDistinguished` is not returned (:23-25):
the function then reports success with position 0. -/
def greatestVersionSearch (cfg : Config) (ver n : Nat) : Prog Nat :=
  if n = 0 then fail "unable to search empty tree"
  else do
    let dle ← attempt (rightmostDistinguished cfg n)
    match dle with
    | .error _ => pure 0
    | .ok dle => greatestLoop ver n n (dle.getD (root n)) none

/-- search.go:84-105, `finish` of `FixedVersionSearch` -/
def fixedFinish (ver : Nat) (terminal : Option Nat) (expired : Bool) (distinguished : List Nat) : Prog Nat :=
  match terminal with
  | none => fail errLabelNotFound
  | some t =>
    if expired ∧ ¬ distinguished.any (fun y => y < t) then fail errLabelExpired
    else do
      getIncl t [ver]
      pure t

/-- search.go:74-81: the variables of the loop of `FixedVersionSearch` -/
structure FixedState where
  x : Nat
  terminal : Option Nat
  expired : Bool
  left : Nat
  right : Nat
  distinguished : List Nat
  deriving DecidableEq, Repr

/-- search.go:108-165, the loop of `FixedVersionSearch` -/
def fixedLoop (cfg : Config) (ver n rightmost : Nat) : Nat → FixedState → Prog Nat
  | 0, _ => .ret (.error .diverge)
  | fuel + 1, s => do
    let timestamp ← getTs s.x
    if cfg.isExpired timestamp rightmost then
      if noRightChild s.x n then fixedFinish ver s.terminal true s.distinguished
      else do
        let r ← lift (SearchTree.right s.x n)
        fixedLoop cfg ver n rightmost fuel { s with x := r, left := timestamp, expired := true }
    else do
      let distinguished :=
        if cfg.isDistinguished s.left s.right then s.distinguished ++ [s.x] else s.distinguished
      let res ← getSearch s.x ver true
      let terminal :=
        if res ≥ 0 ∧ s.terminal.all (fun t => s.x < t) then some s.x else s.terminal
      if res = -1 then
        if noRightChild s.x n then fixedFinish ver terminal s.expired distinguished
        else do
          let r ← lift (SearchTree.right s.x n)
          fixedLoop cfg ver n rightmost fuel
            { s with x := r, left := timestamp, terminal := terminal, distinguished := distinguished }
      else if res = 1 then
        if noLeftChild s.x then fixedFinish ver terminal s.expired distinguished
        else do
          let l ← lift (LogMath.left s.x)
          fixedLoop cfg ver n rightmost fuel
            { s with x := l, right := timestamp, terminal := terminal, distinguished := distinguished }
      else if ¬ s.expired then pure s.x
      else if distinguished.any (fun y => y ≤ s.x) then pure s.x
      else fail errLabelExpired

/-- search.go:65-166 `FixedVersionSearch` -/
def fixedVersionSearch (cfg : Config) (ver n : Nat) : Prog Nat :=
  if n = 0 then fail "unable to search empty tree"
  else do
    let rightmost ← getTs (n - 1)
    fixedLoop cfg ver n rightmost n ⟨root n, none, false, 0, rightmost, []⟩

/-! ### monitor.go -/

/-- `slices.BinarySearch(l, target)` (index only), by its loop, so that it is also right for lists that are
not sorted -/
def searchIdx (l : List Nat) (target : Nat) : Nat → Nat → Nat → Nat
  | 0, i, _ => i
  | fuel + 1, i, j =>
    if i < j then
      let h := (i + j) / 2
      if l.getD h 0 < target then searchIdx l target fuel (h + 1) j else searchIdx l target fuel i h
    else i

/-- `slices.BinarySearch(l, target)` -/
def bsearch (l : List Nat) (target : Nat) : Nat := searchIdx l target (l.length + 1) 0 l.length

/-- Go `map[uint64]uint32` -/
abbrev PMap := List (Nat × Nat)

/-- `m[k] = v` -/
def PMap.set (m : PMap) (k v : Nat) : PMap := (k, v) :: m.filter (fun e => e.1 ≠ k)

/-- monitor.go:45-54 `OwnerState` -/
structure Owner where
  starting : Nat
  verAtStarting : Int
  upcoming : List Nat
  deriving DecidableEq, Repr

/-- monitor.go:74-80 `SetStarting` -/
def Owner.setStarting (o : Owner) (x : Nat) : Owner :=
  let idx := bsearch o.upcoming (x + 1)
  ⟨x, idx + o.verAtStarting, o.upcoming.drop idx⟩

/-- monitor.go:86-89 `GreatestVersionAt` -/
def Owner.greatestAt (o : Owner) (x : Nat) : Int := bsearch o.upcoming (x + 1) + o.verAtStarting

/-- monitor.go:92-94 `GreatestVersion` -/
def Owner.greatest (o : Owner) : Int := o.verAtStarting + o.upcoming.length

/-- monitor.go:98-103 `LastUpdate` -/
def Owner.lastUpdate (o : Owner) : Nat := o.upcoming.getLast?.getD o.starting

/-- monitor.go:115-123 `Monitor` without its provider -/
structure Monitor where
  cfg : Config
  rightmost : Nat
  treeSize : Nat
  contact : Option PMap
  owner : Option Owner
  deriving DecidableEq, Repr

/-- monitor.go:127-142 `NewMonitor` -/
def newMonitor (cfg : Config) (treeSize : Nat) : Prog Monitor :=
  if treeSize = 0 then fail "unable to monitor empty tree"
  else do
    let rightmost ← getTs (treeSize - 1)
    pure ⟨cfg, rightmost, treeSize, none, none⟩

/-- monitor.go:156-176, the loop of `distinguishedAncestor`; `acc` is the last element of `distinguished`. -/
def distAncLoop (m : Monitor) (target : Nat) : Nat → Nat → Nat → Nat → Option Nat → Prog (Option Nat)
  | 0, _, _, _, _ => .ret (.error .diverge)
  | fuel + 1, curr, l, r, acc =>
    if ¬ m.cfg.isDistinguished l r then pure acc
    else
      let acc := if curr ≥ target then some curr else acc
      if curr = target then pure acc
      else do
        let timestamp ← getTs curr
        if curr > target then do
          let c ← lift (LogMath.left curr)
          distAncLoop m target fuel c l timestamp acc
        else do
          let c ← lift (right curr m.treeSize)
          distAncLoop m target fuel c timestamp r acc

/-- monitor.go:146-183 `distinguishedAncestor` -/
def distinguishedAncestor (m : Monitor) (target : Nat) : Prog (Option Nat) :=
  distAncLoop m target (m.treeSize + 1) (root m.treeSize) 0 m.rightmost none

/-- monitor.go:197-210: the entries to inspect on the right direct path; `skip` drops the distinguished one. -/
def inspectList (stop : Option Nat) (skip : Bool) : List Nat → List Nat
  | [] => []
  | p :: rest => if stop = some p then (if skip then [] else [p]) else p :: inspectList stop skip rest

/-- monitor.go:205: whether to leave out the final distinguished entry -/
def skipFinal : Option Owner → Nat → Bool
  | none, _ => false
  | some o, x => decide (x ≥ o.starting)

/-- monitor.go:213-227: inspect entries; the flag tells that an earlier ladder made the rest unnecessary. -/
def inspectAll (ver : Nat) : List Nat → PMap → Prog (Bool × PMap)
  | [], prev => pure (false, prev)
  | y :: ys, prev =>
    match prev.lookup y with
    | some pv =>
      if pv ≤ ver then fail "monitoring detected versions that are not monotonic" else pure (true, prev)
    | none => do
      getMonitor y ver
      inspectAll ver ys (prev.set y ver)

/-- monitor.go:185-235 `contactMonitor`; also returns the updated `previous` map. -/
def contactMonitor1 (m : Monitor) (x ver : Nat) (prev : PMap) : Prog (Option Nat × PMap) := do
  let stop ← distinguishedAncestor m x
  if stop = some x then pure (none, prev)
  else do
    let path ← lift (rightDirectPath x m.treeSize)
    let inspect := inspectList stop (skipFinal m.owner x) path
    let (done, prev) ← inspectAll ver inspect prev
    if done then pure (none, prev)
    else if stop ≠ none then pure (none, prev)
    else pure (some (inspect.getLast?.getD x), prev)

/-- monitor.go:257-266, the loop of `ContactMonitor` -/
def contactLoop (m : Monitor) : PMap → PMap → PMap → Prog PMap
  | [], _, ptrs => pure ptrs
  | (x, ver) :: rest, prev, ptrs => do
    let (updated, prev) ← contactMonitor1 m x ver prev
    match updated with
    | none => contactLoop m rest prev ptrs
    | some y => contactLoop m rest prev (ptrs.set y ver)

/-- insert into a list sorted by descending position -/
def insertDesc (e : Nat × Nat) : PMap → PMap
  | [] => [e]
  | f :: l => if e.1 ≥ f.1 then e :: f :: l else f :: insertDesc e l

/-- monitor.go:247-252: the entries of the map from right to left -/
def sortDesc (m : PMap) : PMap := m.foldr insertDesc []

/-- monitor.go:241-275 `ContactMonitor` -/
def contactMonitor (m : Monitor) : Prog Monitor :=
  match m.contact with
  | none => pure m
  | some c => do
    let ptrs ← contactLoop m (sortDesc c) [] []
    pure { m with contact := if ptrs = [] then none else some ptrs }

/-- monitor.go:280-315 `init` -/
def initWalk (m : Monitor) (starting : Nat) : Nat → Nat → Nat → Nat → Prog (List Nat)
  | 0, _, _, _ => .ret (.error .diverge)
  | fuel + 1, x, l, r =>
    if ¬ m.cfg.isDistinguished l r then fail "requested starting position is not distinguished"
    else do
      let timestamp ← getTs x
      let isExpired := m.cfg.isExpired timestamp m.rightmost
      if x < starting then
        if noRightChild x m.treeSize then fail "requested starting position is right of the rightmost log entry"
        else do
          let c ← lift (right x m.treeSize)
          let children ← initWalk m starting fuel c timestamp r
          pure (if isExpired then children else children ++ [x])
      else if x = starting then
        if isExpired then fail "requested starting position is expired" else pure [x]
      else if noLeftChild x ∨ isExpired then fail "requested starting position is invalid"
      else do
        let c ← lift (LogMath.left x)
        initWalk m starting fuel c l timestamp

/-- monitor.go:319-321 `InitEntries` -/
def initEntries (m : Monitor) (starting : Nat) : Prog (List Nat) :=
  initWalk m starting (m.treeSize + 1) (root m.treeSize) 0 m.rightmost

/-- monitor.go:343-347: each version is at most the one before -/
def nonIncreasing : List Nat → Bool
  | a :: b :: l => decide (b ≤ a) && nonIncreasing (b :: l)
  | _ => true

/-- monitor.go:352-368: one ladder per entry -/
def initLadders : List Nat → List Nat → Prog Unit
  | [], _ => pure ()
  | x :: xs, v :: vs => do
    let res ← getSearch x v false
    if res ≠ 0 then fail "binary ladder inconsistent with expected greatest version of label"
    else initLadders xs vs
  | x :: xs, [] => do
    let res ← getSearch x 0 false
    if res ≠ -1 then fail "binary ladder inconsistent with expected greatest version of label"
    else initLadders xs []

/-- monitor.go:329-378 `OwnerInit` -/
def ownerInit (m : Monitor) (starting : Nat) (vers : List Nat) : Prog (Monitor × List Nat) :=
  if m.owner ≠ none then fail "label owner state is already initialized"
  else do
    let xs ← initEntries m starting
    if vers.length > xs.length then
      fail "unexpected number of versions provided to owner initialization algorithm"
    else if ¬ nonIncreasing vers then fail "unexpected increase in label version"
    else do
      initLadders xs vers
      let v : Int := match vers with
        | [] => -1
        | v :: _ => v
      pure ({ m with owner := some ⟨starting, v, []⟩ }, xs)

/-- monitor.go:423-437 and update.go:97-111: a ladder for the expected greatest version -/
def expectLadder (x : Nat) (ver : Int) (om : Bool) : Prog Unit :=
  if ver < 0 then do
    let res ← getSearch x 0 om
    if res ≠ -1 then fail "binary ladder inconsistent with expected greatest version of label" else pure ()
  else do
    let res ← getSearch x (ver.toNat % 2 ^ 32) om
    if res ≠ 0 then fail "binary ladder inconsistent with expected greatest version of label" else pure ()

/-- monitor.go:385-449 `ownerMonitor`, on the cloned owner state -/
def ownerWalk (cfg : Config) (n : Nat) : Nat → Nat → Nat → Nat → Owner → Prog Owner
  | 0, _, _, _, _ => .ret (.error .diverge)
  | fuel + 1, x, l, r, o =>
    if ¬ cfg.isDistinguished l r then pure o
    else if x ≤ o.starting then
      if noRightChild x n then pure o
      else do
        let timestamp ← getTs x
        let c ← lift (right x n)
        ownerWalk cfg n fuel c timestamp r o
    else
      (if noLeftChild x then pure o
        else do
          let timestamp ← getTs x
          let c ← lift (LogMath.left x)
          ownerWalk cfg n fuel c l timestamp o) >>= fun o => do
      let stop ← getStop x (o.greatestAt x)
      if stop then pure o
      else do
        expectLadder x (o.greatestAt x) false
        if noRightChild x n then pure (o.setStarting x)
        else do
          let timestamp ← getTs x
          let c ← lift (right x n)
          ownerWalk cfg n fuel c timestamp r (o.setStarting x)

/-- monitor.go:455-472 `OwnerMonitor` -/
def ownerMonitor (m : Monitor) : Prog Monitor :=
  match m.owner with
  | none => fail "label owner state has not been initialized"
  | some o => do
    let o ← ownerWalk m.cfg m.treeSize (m.treeSize + 1) (root m.treeSize) 0 m.rightmost o
    pure { m with owner := some o }

/-! ### update.go -/

/-- update.go:20-40, the loop of `nonDistinguishedAncestor` -/
def nonDistLoop (cfg : Config) (n target : Nat) : Nat → Nat → Nat → Nat → Prog (Option Nat)
  | 0, _, _, _ => .ret (.error .diverge)
  | fuel + 1, x, l, r =>
    if ¬ cfg.isDistinguished l r then pure (some x)
    else if x = target then pure none
    else do
      let timestamp ← getTs x
      if x < target then do
        let c ← lift (right x n)
        nonDistLoop cfg n target fuel c timestamp r
      else do
        let c ← lift (LogMath.left x)
        nonDistLoop cfg n target fuel c l timestamp

/-- update.go:12-41 `nonDistinguishedAncestor` -/
def nonDistinguishedAncestor (m : Monitor) (target : Nat) : Prog (Option Nat) := do
  let r ← getTs (m.treeSize - 1)
  nonDistLoop m.cfg m.treeSize target (m.treeSize + 1) (root m.treeSize) 0 r

/-- update.go:59-61: go left until `x` is in the previous tree -/
def leftUntil (bound : Nat) : Nat → Nat → G Nat
  | 0, _ => .error .diverge
  | fuel + 1, x => if x > bound then do let x ← LogMath.left x; leftUntil bound fuel x else pure x

/-- update.go:84-118, the final loop of `verifyPreviousTree` -/
def previousTreeLoop (pos lastUpdate : Nat) (greatest : Int) : Nat → Nat → Prog Unit
  | 0, _ => .ret (.error .diverge)
  | fuel + 1, x =>
    (if x ≤ lastUpdate then pure () else expectLadder x greatest true) >>= fun _ =>
    if x = pos - 1 then pure ()
    else do
      let r ← lift (right x pos)
      previousTreeLoop pos lastUpdate greatest fuel r

/-- update.go:64-80: prepare the omission of lookups -/
def prepareTracker (o : Owner) (pos x : Nat) : Prog Unit :=
  if o.greatest < 0 then pure ()
  else do
    let g := o.greatest.toNat % 2 ^ 32
    let ladder ← lift (Ladder.searchBinaryLadder g g [] [])
    if x ≠ root pos then do
      let p ← lift (parent x pos)
      addLadder p true (o.greatestAt p) ladder
      addLadder x true o.greatest ladder
    else addLadder x true o.greatest ladder

/-- update.go:43-119 `verifyPreviousTree` -/
def verifyPreviousTree (m : Monitor) (o : Owner) (pos : Nat) : Prog Unit :=
  if pos = 0 then lift (goPanic "unreachable")
  else do
    let res ← nonDistinguishedAncestor m (pos - 1)
    match res with
    | none => pure ()
    | some x => do
      let x ← lift (leftUntil (pos - 1) (x + 1) x)
      prepareTracker o pos x
      previousTreeLoop pos o.lastUpdate o.greatest (pos + 1) x

/-- update.go:148-153: the new versions that are not in the ladder -/
def additionalVersions (ladder : List Nat) (start count : Nat) : List Nat :=
  (List.range count).filterMap (fun i => if ladder.contains (start + i) then none else some (start + i))

/-- update.go:124-198 `Update`; `versions` is an `int`. -/
def monitorUpdate (m : Monitor) (pos : Nat) (versions : Int) : Prog Monitor :=
  match m.owner with
  | none => fail "label owner state has not been initialized"
  | some o =>
    if pos ≥ m.treeSize then fail "given log entry does not exist"
    else if pos ≤ o.lastUpdate then fail "update position must be to the right of any previous version"
    else if versions < 1 then fail "unexpected number of new versions created"
    else if o.greatest + versions < 0 ∨ o.greatest + versions ≥ 2 ^ 32 - 1 then
      fail "unexpected number of new versions created"
    else do
      let startVer := (o.greatest + 1).toNat
      let endVer := (o.greatest + versions).toNat
      let ladder ← lift (Ladder.searchBinaryLadder endVer endVer [] [])
      let additional := additionalVersions ladder startVer (endVer + 1 - startVer)
      verifyPreviousTree m o pos
      let res ← nonDistinguishedAncestor m pos
      let o' : Owner := { o with upcoming := o.upcoming ++ List.replicate versions.toNat pos }
      if res = none then do
        getIncl pos additional
        pure { m with owner := some o' }
      else do
        let res ← getSearch pos endVer true
        if res ≠ 0 then fail "binary ladder inconsistent with expected greatest version of label"
        else do
          getIncl pos additional
          pure { m with owner := some o', contact := some (PMap.set (m.contact.getD []) pos endVer) }

end Katie.Alg
