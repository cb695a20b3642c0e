import Verif.Model.Prog
import Verif.Model.SearchTree
import Verif.Model.Structs
import Verif.Model.Log

/-
Model of /repo/tree/transparency/algorithms/data_provider.go.

`ProofHandle` (proof_handle.go:32-74) is an interface with two implementations; here it is a record of functions
on a state of any type `σ`.  Every function returns the new state also when it fails.

Go maps are association lists with at most one pair per key.  A nil prefix tree root is the empty string.
`addTimestamp` goes through its map in random order, which can only affect which of two error messages is
returned.
-/

namespace Katie.Alg
open Katie Katie.Wire

/-- proof_handle.go:32-74 `ProofHandle` (`Output` of the producing side is in Model/Handles.lean; `Tracker()` is
only used to call `AddLadder`) -/
structure Handle (σ : Type) where
  getTs : Nat → σ → G Nat × σ
  search : Nat → Nat → Bool → σ → G (Bytes × Int) × σ
  monitor : Nat → Nat → σ → G Bytes × σ
  incl : Nat → List Nat → σ → G Bytes × σ
  prefixTrees : List Nat → σ → G (List Bytes) × σ
  finish : σ → G (List Bytes) × σ
  stop : Nat → Int → σ → Bool
  addLadder : Nat → Bool → Int → List Nat → σ → σ

/-- data_provider.go:53-62 `DataProvider` (without the cipher suite and the functions of the handle) -/
structure Provider (σ : Type) where
  state : σ
  fullSubtrees : List Bytes := []
  logEntries : List (Nat × LogEntry) := []
  timestamps : List (Nat × Nat) := []
  prefixTrees : List (Nat × Bytes) := []

/-- data_provider.go:64-72 `NewDataProvider` -/
def newProvider {σ : Type} (s : σ) : Provider σ := { state := s }

/-- data_provider.go:28-38 `addTimestamp` -/
def addTimestamp (m : List (Nat × Nat)) (pos ts : Nat) : G (List (Nat × Nat)) :=
  if m.any (fun e => pos == e.1) then goErr "can not insert same timestamp multiple times"
  else if m.any (fun e => decide (pos < e.1 ∧ ts > e.2 ∨ pos > e.1 ∧ ts < e.2)) then
    goErr "timestamps are not monotonic"
  else .ok ((pos, ts) :: m)

/-- data_provider.go:40-48 `addPrefixTree` -/
def addPrefixTree (m : List (Nat × Bytes)) (pos : Nat) (root : Bytes) : G (List (Nat × Bytes)) :=
  match m.lookup pos with
  | some existing =>
    if root ≠ existing then goErr "conflicting values for prefix tree root hash found" else .ok m
  | none => .ok ((pos, root) :: m)

namespace Provider
variable {σ : Type}

/-- data_provider.go:78-84, the loop of `AddRetained` -/
def retainLoop : List (Nat × LogEntry) → Provider σ → G Unit × Provider σ
  | [], p => (.ok (), p)
  | (pos, leaf) :: rest, p =>
    match addTimestamp p.timestamps pos leaf.timestamp with
    | .error e => (.error e, p)
    | .ok ts =>
      let p := { p with timestamps := ts }
      match addPrefixTree p.prefixTrees pos leaf.prefixTree with
      | .error e => (.error e, p)
      | .ok pt => retainLoop rest { p with prefixTrees := pt }

/-- data_provider.go:74-87 `AddRetained` (the order in which Go goes through the map `logEntries` is the order of
the list) -/
def addRetained (fullSubtrees : List Bytes) (logEntries : List (Nat × LogEntry)) (p : Provider σ) :
    G Unit × Provider σ :=
  retainLoop logEntries { p with fullSubtrees := fullSubtrees, logEntries := logEntries }

/-- data_provider.go:89-100 `GetTimestamp` -/
def getTimestamp (H : Handle σ) (x : Nat) (p : Provider σ) : G Nat × Provider σ :=
  match p.timestamps.lookup x with
  | some ts => (.ok ts, p)
  | none =>
    match H.getTs x p.state with
    | (.error e, s) => (.error e, { p with state := s })
    | (.ok ts, s) =>
      match addTimestamp p.timestamps x ts with
      | .error e => (.error e, { p with state := s })
      | .ok m => (.ok ts, { p with state := s, timestamps := m })

/-- record the root of the prefix tree returned by the handle: data_provider.go:109-112, 123, 137 -/
def record {β : Type} (x : Nat) (root : Bytes) (b : β) (p : Provider σ) : G β × Provider σ :=
  match addPrefixTree p.prefixTrees x root with
  | .error e => (.error e, p)
  | .ok m => (.ok b, { p with prefixTrees := m })

/-- data_provider.go:102-113 `GetSearchBinaryLadder` -/
def getSearch (H : Handle σ) (x ver : Nat) (om : Bool) (p : Provider σ) : G Int × Provider σ :=
  match getTimestamp H x p with
  | (.error e, p) => (.error e, p)
  | (.ok _, p) =>
    match H.search x ver om p.state with
    | (.error e, s) => (.error e, { p with state := s })
    | (.ok (root, res), s) => record x root res { p with state := s }

/-- data_provider.go:115-124 `GetMonitoringBinaryLadder` -/
def getMonitor (H : Handle σ) (x ver : Nat) (p : Provider σ) : G Unit × Provider σ :=
  match getTimestamp H x p with
  | (.error e, p) => (.error e, p)
  | (.ok _, p) =>
    match H.monitor x ver p.state with
    | (.error e, s) => (.error e, { p with state := s })
    | (.ok root, s) => record x root () { p with state := s }

/-- data_provider.go:126-138 `GetInclusionProof` -/
def getIncl (H : Handle σ) (x : Nat) (vers : List Nat) (p : Provider σ) : G Unit × Provider σ :=
  if vers.length = 0 then (.ok (), p)
  else
    match getTimestamp H x p with
    | (.error e, p) => (.error e, p)
    | (.ok _, p) =>
      match H.incl x vers p.state with
      | (.error e, s) => (.error e, { p with state := s })
      | (.ok root, s) => record x root () { p with state := s }

/-- answer one request of an algorithm -/
def answer (H : Handle σ) : (q : Req) → Provider σ → G q.Resp × Provider σ
  | .ts x, p => getTimestamp H x p
  | .search x ver om, p => getSearch H x ver om p
  | .monitor x ver, p => getMonitor H x ver p
  | .incl x vers, p => getIncl H x vers p
  | .stop x ver, p => (.ok (H.stop x ver p.state), p)
  | .addLadder x om g l, p => (.ok (), { p with state := H.addLadder x om g l p.state })

/-- run an algorithm -/
def run {α : Type} (H : Handle σ) : Prog α → Provider σ → G α × Provider σ
  | .ret r, p => (r, p)
  | .op q k, p => run H (k (answer H q p).1) (answer H q p).2

/-! ### Finish -/

/-- insert into a list sorted by position -/
def insertLeaf (e : Nat × LogEntry) : List (Nat × LogEntry) → List (Nat × LogEntry)
  | [] => [e]
  | f :: l => if e.1 ≤ f.1 then e :: f :: l else f :: insertLeaf e l

/-- data_provider.go:143-154: the inspected entries that were not retained, in order of position -/
def newLeaves (p : Provider σ) : List (Nat × LogEntry) :=
  ((p.timestamps.filter (fun e => (p.logEntries.lookup e.1).isNone)).map
    (fun e => (e.1, (⟨e.2, (p.prefixTrees.lookup e.1).getD []⟩ : LogEntry)))).foldr insertLeaf []

/-- data_provider.go:156-162: the entries of which only the timestamp is known -/
def emptyLeaves (l : List (Nat × LogEntry)) : List Nat :=
  (l.filter (fun e => e.2.prefixTree.isEmpty)).map (·.1)

/-- data_provider.go:171-177: fill in the missing roots (and `dp.prefixTrees`) -/
def fillRoots : List (Nat × LogEntry) → List Bytes → List (Nat × Bytes) → List (Nat × LogEntry) × List (Nat × Bytes)
  | [], _, m => ([], m)
  | (x, e) :: rest, roots, m =>
    if e.prefixTree.isEmpty then
      match roots with
      | [] => let r := fillRoots rest [] m; ((x, e) :: r.1, r.2)   -- excluded by the length check before
      | r0 :: roots =>
        let r := fillRoots rest roots ((x, r0) :: m.filter (fun k => k.1 ≠ x))
        ((x, { e with prefixTree := r0 }) :: r.1, r.2)
    else
      let r := fillRoots rest roots m
      ((x, e) :: r.1, r.2)

/-- data_provider.go:140-180 `inspectedLeaves` -/
def inspectedLeaves (H : Handle σ) (p : Provider σ) : G (List (Nat × LogEntry)) × Provider σ :=
  let leaves := newLeaves p
  match H.prefixTrees (emptyLeaves leaves) p.state with
  | (.error e, s) => (.error e, { p with state := s })
  | (.ok roots, s) =>
    if roots.length ≠ (emptyLeaves leaves).length then
      (goErr "unexpected number of prefix tree root hashes returned", { p with state := s })
    else
      let r := fillRoots leaves roots p.prefixTrees
      (.ok r.1, { p with state := s, prefixTrees := r.2 })

/-- data_provider.go:182-186 `ProofResult` -/
structure Result where
  fullSubtrees : List Bytes
  additional : List Bytes
  logEntries : List (Nat × LogEntry)
  deriving DecidableEq, Repr

/-- data_provider.go:201-207: the hashes of the leaves -/
def leafHashes (cs : Log.Suite) : List (Nat × LogEntry) → G (List Bytes)
  | [] => .ok []
  | e :: rest => do
    let h ← e.2.hash cs
    let hs ← leafHashes cs rest
    pure (h :: hs)

/-- data_provider.go:214-219: the verifier, primed with the retained subtrees -/
def verifierFor (cs : Log.Suite) (m : Option Nat) (fullSubtrees : List Bytes) : G Log.Verifier :=
  match m with
  | none => .ok Log.newVerifier
  | some m => Log.retain cs m fullSubtrees

/-- data_provider.go:226-237: the entries to retain -/
def retained (p : Provider σ) : List Nat → G (List (Nat × LogEntry))
  | [] => .ok []
  | x :: xs =>
    match p.timestamps.lookup x with
    | none => goErr "expected timestamp not retained"
    | some ts =>
      match p.prefixTrees.lookup x with
      | none => goErr "expected prefix tree root not retained"
      | some pt => do
        let rest ← retained p xs
        pure ((x, ⟨ts, pt⟩) :: rest)

/-- data_provider.go:191-240 `Finish` -/
def finish (cs : Log.Suite) (H : Handle σ) (n : Nat) (nP m : Option Nat) (p : Provider σ) : G Result × Provider σ :=
  match inspectedLeaves H p with
  | (.error e, p) => (.error e, p)
  | (.ok leaves, p) =>
    match leafHashes cs leaves with
    | .error e => (.error e, p)
    | .ok values =>
      match H.finish p.state with
      | (.error e, s) => (.error e, { p with state := s })
      | (.ok proof, s) =>
        let p := { p with state := s }
        (do
          let v ← verifierFor cs m p.fullSubtrees
          let res ← Log.evaluate cs v (leaves.map (·.1)) n nP values proof
          let f ← SearchTree.frontier n
          let entries ← retained p f
          pure ⟨res.fullSubtrees, res.additional, entries⟩, p)

end Provider
end Katie.Alg
