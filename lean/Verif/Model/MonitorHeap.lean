import Verif.Model.Algorithms

/-
The monitor of /repo/tree/transparency/algorithms (monitor.go, update.go) once more, this time with its memory:
pointers, slices with spare capacity that share their backing array, and maps.  Model/Algorithms.lean has the same
operations as functions from a state to a state; there, a failed operation has no effect and nothing is shared, by
construction.  Here an operation changes a memory step by step, and what it has changed when it fails is part of its
result.

Simplified: memory is never freed, so allocation always gives a new address; a map is the list of its entries and is
never nil (the code makes every `Ptrs` map with `make`); how much spare capacity a new array gets is left to a function
`grow`, and that memory reads 0.  The parts of the algorithms that only read the monitor are taken from
Model/Algorithms.lean, and are given the values found in memory.
-/

namespace Katie.Heap
open Katie Katie.Alg Katie.SearchTree

/-- a `[]uint64` that is not nil: where it starts in which array, its length and its capacity -/
structure Slice where
  arr : Nat
  off : Nat
  len : Nat
  cap : Nat
  deriving DecidableEq, Repr

/-- monitor.go:45-54 `OwnerState` -/
structure OwnerObj where
  starting : Nat
  verAtStarting : Int
  upcoming : Option Slice
  deriving DecidableEq, Repr

/-- the memory: objects by address, and the two fields of the monitor that change (monitor.go:121-122).  A
`ContactState` (monitor.go:13-17) is the address of its map. -/
structure Mem where
  arrays : List (List Nat)
  owners : List OwnerObj
  maps : List PMap
  contacts : List Nat
  mContact : Option Nat
  mOwner : Option Nat
  deriving DecidableEq, Repr

/-- monitor.go:116-119: the fields of the monitor that never change -/
structure Fixed where
  cfg : Config
  rightmost : Nat
  treeSize : Nat
  deriving DecidableEq, Repr

/-- the monitor with the given states -/
def Fixed.monitor (F : Fixed) (c : Option PMap) (o : Option Owner) : Monitor := ⟨F.cfg, F.rightmost, F.treeSize, c, o⟩

/-! ### reading the memory -/

/-- the elements of a slice -/
def Mem.slice (mem : Mem) : Option Slice → List Nat
  | none => []
  | some s => ((mem.arrays.getD s.arr []).drop s.off).take s.len

/-- what an owner state says -/
def Mem.ownerOf (mem : Mem) (ob : OwnerObj) : Owner := ⟨ob.starting, ob.verAtStarting, mem.slice ob.upcoming⟩

/-- what the owner state at an address says -/
def Mem.ownerAt (mem : Mem) (a : Nat) : Option Owner := mem.owners[a]?.map mem.ownerOf

/-- what the contact state at an address says -/
def Mem.contactAt (mem : Mem) (a : Nat) : Option PMap := mem.contacts[a]?.bind (fun p => mem.maps[p]?)

/-- what the monitor says -/
def view (F : Fixed) (mem : Mem) : Monitor :=
  F.monitor (mem.mContact.bind mem.contactAt) (mem.mOwner.bind mem.ownerAt)

/-! ### computations that change the memory -/

/-- A computation makes requests and changes the memory; the memory is there also when it fails. -/
def Imp (α : Type) := Mem → Prog (G α × Mem)

namespace Imp
variable {α β : Type}

/-- what follows a computation: an error is returned with the memory as it is -/
def next (f : α → Imp β) : G α × Mem → Prog (G β × Mem)
  | (.ok a, mem) => f a mem
  | (.error e, mem) => .ret (.ok (.error e, mem))

instance : Monad Imp where
  pure a := fun mem => .ret (.ok (.ok a, mem))
  bind p f := fun mem => (p mem).bind (next f)

/-- an error or a panic -/
def stop (e : Fault) : Imp α := fun mem => .ret (.ok (.error e, mem))
/-- `return errors.New(msg)` -/
def fail (msg : String) : Imp α := stop (.err msg)
/-- read something from memory -/
def read (f : Mem → α) : Imp α := fun mem => .ret (.ok (.ok (f mem), mem))
/-- change the memory -/
def modify (f : Mem → Mem) : Imp Unit := fun mem => .ret (.ok (.ok (), f mem))
/-- a part of the algorithm that does not change the memory -/
def run : Prog α → Imp α
  | .ret r, mem => .ret (.ok (r, mem))
  | .op q k, mem => .op q (fun a => run (k a) mem)
/-- look at the error of a computation instead of returning it; a panic is not caught -/
def attempt (p : Imp α) : Imp (G α) := fun mem => (p mem).bind fun
  | (.error (.err m), mem) => .ret (.ok (.ok (.error (.err m)), mem))
  | (.error e, mem) => .ret (.ok (.error e, mem))
  | (.ok a, mem) => .ret (.ok (.ok (.ok a), mem))

end Imp
open Imp

/-- following a nil pointer -/
def nilPtr : Fault := .panic "invalid memory address or nil pointer dereference"

/-- `*m.Owner` -/
def derefOwner : Imp OwnerObj := do
  let p ← read (fun mem => mem.mOwner.bind (fun a => mem.owners[a]?))
  match p with
  | none => stop nilPtr
  | some ob => pure ob

/-- `*m.Owner = ob`, or an assignment to its fields -/
def setOwner (ob : OwnerObj) : Imp Unit := modify fun mem =>
  match mem.mOwner with
  | none => mem
  | some a => { mem with owners := mem.owners.set a ob }

/-- the elements of the owner's `UpcomingVers` and the rest of the owner state -/
def readOwner : Imp Owner := do
  let ob ← derefOwner
  read (fun mem => mem.ownerOf ob)

/-- `s[idx:]` -/
def Slice.from (s : Slice) (idx : Nat) : Slice := ⟨s.arr, s.off + idx, s.len - idx, s.cap - idx⟩

/-- `append(s, x)`: into the spare capacity of the array if there is any, else into a new array -/
def append (grow : Nat → Nat) (s : Option Slice) (x : Nat) : Imp Slice := do
  let l ← read (fun mem => mem.slice s)
  let n ← read (fun mem => mem.arrays.length)
  match s with
  | some s =>
    if s.len < s.cap then do
      modify fun mem => { mem with arrays := mem.arrays.modify s.arr (fun a => a.set (s.off + s.len) x) }
      pure { s with len := s.len + 1 }
    else do
      modify fun mem => { mem with arrays := mem.arrays ++ [l ++ [x] ++ List.replicate (grow (l.length + 1)) 0] }
      pure ⟨n, 0, l.length + 1, l.length + 1 + grow (l.length + 1)⟩
  | none => do
    modify fun mem => { mem with arrays := mem.arrays ++ [[x] ++ List.replicate (grow 1) 0] }
    pure ⟨n, 0, 1, 1 + grow 1⟩

/-- `slices.Clone(s)`, which is `append(s[:0:0], s...)`: nil for nil, no new array for an empty slice -/
def cloneSlice (grow : Nat → Nat) (s : Option Slice) : Imp (Option Slice) := do
  let l ← read (fun mem => mem.slice s)
  let n ← read (fun mem => mem.arrays.length)
  match s with
  | none => pure none
  | some s =>
    if s.len = 0 then pure (some { s with len := 0, cap := 0 })
    else do
      modify fun mem => { mem with arrays := mem.arrays ++ [l ++ List.replicate (grow l.length) 0] }
      pure (some ⟨n, 0, l.length, l.length + grow l.length⟩)

/-- monitor.go:74-80 `SetStarting` -/
def setStarting (x : Nat) : Imp Unit := do
  let o ← readOwner
  let ob ← derefOwner
  let idx := bsearch o.upcoming (x + 1)
  setOwner ⟨x, idx + ob.verAtStarting, ob.upcoming.map (fun s => s.from idx)⟩

/-! ### monitor.go -/

/-- monitor.go:385-449 `ownerMonitor` -/
def ownerWalk (cfg : Config) (n : Nat) : Nat → Nat → Nat → Nat → Imp Unit
  | 0, _, _, _ => stop .diverge
  | fuel + 1, x, l, r =>
    if ¬ cfg.isDistinguished l r then pure ()
    else do
      let o ← readOwner
      if x ≤ o.starting then
        if noRightChild x n then pure ()
        else do
          let timestamp ← run (Prog.getTs x)
          let c ← run (Prog.lift (right x n))
          ownerWalk cfg n fuel c timestamp r
      else
        (if noLeftChild x then pure ()
          else do
            let timestamp ← run (Prog.getTs x)
            let c ← run (Prog.lift (LogMath.left x))
            ownerWalk cfg n fuel c l timestamp) >>= fun _ => do
        let o ← readOwner
        let stop ← run (Prog.getStop x (o.greatestAt x))
        if stop then pure ()
        else do
          run (expectLadder x (o.greatestAt x) false)
          setStarting x
          if noRightChild x n then pure ()
          else do
            let timestamp ← run (Prog.getTs x)
            let c ← run (Prog.lift (right x n))
            ownerWalk cfg n fuel c timestamp r

/-- monitor.go:105-112 `Clone`; gives the address of the new state. -/
def cloneOwner (grow : Nat → Nat) (ob : OwnerObj) : Imp Nat := do
  let s ← cloneSlice grow ob.upcoming
  let a ← read (fun mem => mem.owners.length)
  modify fun mem => { mem with owners := mem.owners ++ [⟨ob.starting, ob.verAtStarting, s⟩] }
  pure a

/-- monitor.go:455-472 `OwnerMonitor` -/
def ownerMonitor (grow : Nat → Nat) (F : Fixed) : Imp Unit := do
  let original ← read (fun mem => mem.mOwner)
  match original with
  | none => fail "label owner state has not been initialized"
  | some a => do
    let ob ← derefOwner
    let clone ← cloneOwner grow ob
    modify fun mem => { mem with mOwner := some clone }
    let err ← attempt (ownerWalk F.cfg F.treeSize (F.treeSize + 1) (root F.treeSize) 0 F.rightmost)
    match err with
    | .ok _ => do
      let ob' ← derefOwner
      modify fun mem => { mem with owners := mem.owners.set a ob' }
      modify fun mem => { mem with mOwner := some a }
    | .error e => do
      modify fun mem => { mem with mOwner := some a }
      stop e

/-- monitor.go:323-378 `OwnerInit`; it reads the monitor until it makes the new state. -/
def ownerInit (F : Fixed) (starting : Nat) (vers : List Nat) : Imp (List Nat) := do
  let p ← read (fun mem => mem.mOwner)
  if p ≠ none then fail "label owner state is already initialized"
  else do
    let xs ← run (initEntries (F.monitor none none) starting)
    if vers.length > xs.length then
      fail "unexpected number of versions provided to owner initialization algorithm"
    else if ¬ nonIncreasing vers then fail "unexpected increase in label version"
    else do
      run (initLadders xs vers)
      let v : Int := match vers with
        | [] => -1
        | v :: _ => v
      let a ← read (fun mem => mem.owners.length)
      modify fun mem => { mem with owners := mem.owners ++ [⟨starting, v, none⟩] }
      modify fun mem => { mem with mOwner := some a }
      pure xs

/-- `*p` for a map -/
def readMap (p : Nat) : Imp PMap := read (fun mem => mem.maps.getD p [])

/-- `m[k] = v` in place -/
def writeMap (p k v : Nat) : Imp Unit := modify fun mem => { mem with maps := mem.maps.modify p (fun m => m.set k v) }

/-- `make(map[uint64]uint32)` -/
def newMap : Imp Nat := do
  let p ← read (fun mem => mem.maps.length)
  modify fun mem => { mem with maps := mem.maps ++ [[]] }
  pure p

/-- monitor.go:213-227: inspect entries; `previous` is changed in place. -/
def inspectAll (ver previous : Nat) : List Nat → Imp Bool
  | [] => pure false
  | y :: ys => do
    let prev ← readMap previous
    match prev.lookup y with
    | some pv => if pv ≤ ver then fail "monitoring detected versions that are not monotonic" else pure true
    | none => do
      run (Prog.getMonitor y ver)
      writeMap previous y ver
      inspectAll ver previous ys

/-- monitor.go:185-235 `contactMonitor` -/
def contactMonitor1 (F : Fixed) (x ver previous : Nat) : Imp (Option Nat) := do
  let stop ← run (distinguishedAncestor (F.monitor none none) x)
  if stop = some x then pure none
  else do
    let path ← run (Prog.lift (rightDirectPath x F.treeSize))
    let o ← read (fun mem => mem.mOwner.bind mem.ownerAt)
    let inspect := inspectList stop (skipFinal o x) path
    let done ← inspectAll ver previous inspect
    if done then pure none
    else if stop ≠ none then pure none
    else pure (some (inspect.getLast?.getD x))

/-- monitor.go:257-266, the loop of `ContactMonitor`; `ptrs` is changed in place. -/
def contactLoop (F : Fixed) (previous ptrs : Nat) : PMap → Imp Unit
  | [] => pure ()
  | (x, ver) :: rest => do
    let updated ← contactMonitor1 F x ver previous
    match updated with
    | none => contactLoop F previous ptrs rest
    | some y => do
      writeMap ptrs y ver
      contactLoop F previous ptrs rest

/-- monitor.go:241-275 `ContactMonitor` -/
def contactMonitor (F : Fixed) : Imp Unit := do
  let p ← read (fun mem => mem.mContact)
  match p with
  | none => pure ()
  | some a => do
    let c ← read (fun mem => mem.contactAt a)
    match c with
    | none => stop nilPtr
    | some c => do
      let previous ← newMap
      let ptrs ← newMap
      contactLoop F previous ptrs (sortDesc c)
      let l ← readMap ptrs
      if l = [] then modify fun mem => { mem with mContact := none }
      else modify fun mem => { mem with contacts := mem.contacts ++ [ptrs], mContact := some mem.contacts.length }

/-! ### update.go -/

/-- update.go:193-195: `for range versions { m.Owner.UpcomingVers = append(m.Owner.UpcomingVers, pos) }` -/
def appendVersions (grow : Nat → Nat) (pos : Nat) : Nat → Imp Unit
  | 0 => pure ()
  | n + 1 => do
    let ob ← derefOwner
    let s ← append grow ob.upcoming pos
    setOwner { ob with upcoming := some s }
    appendVersions grow pos n

/-- update.go:186-190: the new version in the contact state, which is changed in place -/
def putContact (pos ver : Nat) : Imp Unit := do
  let p ← read (fun mem => mem.mContact)
  (match p with
    | some _ => pure ()
    | none => do
      let q ← newMap
      modify fun mem => { mem with contacts := mem.contacts ++ [q], mContact := some mem.contacts.length }) >>= fun _ => do
  let q ← read (fun mem => mem.mContact.bind (fun a => mem.contacts[a]?))
  match q with
  | none => stop nilPtr
  | some q => writeMap q pos ver

/-- update.go:124-198 `Update`; the checks only read the owner state. -/
def update (grow : Nat → Nat) (F : Fixed) (pos : Nat) (versions : Int) : Imp Unit := do
  let p ← read (fun mem => mem.mOwner)
  if p = none then fail "label owner state has not been initialized"
  else do
    let o ← readOwner
    if pos ≥ F.treeSize then fail "given log entry does not exist"
    else if pos ≤ o.lastUpdate then fail "update position must be to the right of any previous version"
    else if versions < 1 then fail "unexpected number of new versions created"
    else if o.greatest + versions < 0 ∨ o.greatest + versions ≥ 2 ^ 32 - 1 then
      fail "unexpected number of new versions created"
    else do
      let startVer := (o.greatest + 1).toNat
      let endVer := (o.greatest + versions).toNat
      let ladder ← run (Prog.lift (Ladder.searchBinaryLadder endVer endVer [] []))
      let additional := additionalVersions ladder startVer (endVer + 1 - startVer)
      run (verifyPreviousTree (F.monitor none none) o pos)
      let res ← run (nonDistinguishedAncestor (F.monitor none none) pos)
      if res = none then do
        run (Prog.getIncl pos additional)
        appendVersions grow pos versions.toNat
      else do
        let res ← run (Prog.getSearch pos endVer true)
        if res ≠ 0 then fail "binary ladder inconsistent with expected greatest version of label"
        else do
          run (Prog.getIncl pos additional)
          putContact pos endVer
          appendVersions grow pos versions.toNat

/-! ### states that share memory -/

/-- monitor.go:56-62 `NewOwnerState` and :64-70 `Struct`: a new object with the same slice -/
def newOwnerState (from_ : OwnerObj) : Imp Nat := do
  let a ← read (fun mem => mem.owners.length)
  modify fun mem => { mem with owners := mem.owners ++ [from_] }
  pure a

end Katie.Heap
