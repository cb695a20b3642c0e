import Verif.Model.Provider
import Verif.Model.Ladder
import Verif.Model.LogStore

/-
Model of the two implementations of `ProofHandle`, /repo/tree/transparency/algorithms/proof_handle.go: the handle
that consumes a received proof and the handle that produces one.

A Go map from versions is an association list with at most one pair per version.  A nil commitment is `none`.
-/

namespace Katie.Alg
open Katie Katie.Wire Katie.Ladder

/-- what is known about one version of a label: VRF output, and commitment or nil (`prefix.Entry` as the value of
`versions`, proof_handle.go:81, :261) -/
structure Known where
  vrf : Bytes
  com : Option Bytes
  deriving DecidableEq, Repr

/-- `map[uint32]prefix.Entry` -/
abbrev Versions := List (Nat × Known)

/-- the entry handed to the prefix tree (a nil commitment is the empty slice) -/
def Known.entry (k : Known) : Prefix.Entry := ⟨k.vrf, k.com.getD []⟩

/-- proof_handle.go:16-31 `addVersion` -/
def addVersion (cs : Log.Suite) (vs : Versions) (ver : Nat) (vrf : Bytes) (com : Option Bytes) : G Versions :=
  if vrf.length ≠ cs.hashSize then goErr "malformed vrf output"
  else if com.any (fun c => decide (c.length ≠ cs.hashSize)) then goErr "malformed commitment"
  else if (vs.lookup ver).isSome then goErr "can not add the same version twice"
  else pure ((ver, ⟨vrf, com⟩) :: vs)

/-! ### the consuming side -/

/-- proof_handle.go:78-84 `ReceivedProofHandle` -/
structure Received where
  inner : CombinedTreeProof
  versions : Versions := []
  tracker : Tracker := {}
  deriving DecidableEq, Repr

namespace Received

/-- proof_handle.go:98-100 `AddVersion` -/
def addVersion (cs : Log.Suite) (s : Received) (ver : Nat) (vrf : Bytes) (com : Option Bytes) : G Received := do
  let vs ← Alg.addVersion cs s.versions ver vrf com
  pure { s with versions := vs }

/-- proof_handle.go:107-114 `GetTimestamp` -/
def getTs (_ : Nat) (s : Received) : G Nat × Received :=
  match s.inner.timestamps with
  | [] => (goErr "unexpected number of timestamps consumed", s)
  | t :: rest => (.ok t, { s with inner := { s.inner with timestamps := rest } })

/-- proof_handle.go:133-142: the entries for the versions of a ladder, each with its result; a commitment is
required for a result that claims inclusion -/
def entriesFor (vs : Versions) : List Nat → List Prefix.Res → G (List Prefix.Entry)
  | _, [] => pure []
  | [], _ :: _ => goPanic "index out of range"
  | v :: ladder, r :: results =>
    match vs.lookup v with
    | none => goErr "required version not known"
    | some k =>
      if r.isInclusion ∧ k.com = none then goErr "commitment not known for required version"
      else do
        let rest ← entriesFor vs ladder results
        pure (k.entry :: rest)

/-- remove the proof at the head of the queue -/
def pop (s : Received) (rest : List Prefix.Proof) : Received :=
  { s with inner := { s.inner with prefixProofs := rest } }

/-- proof_handle.go:116-152: evaluation of one search ladder; `receiveLadder` (Model/Ladder.lean) interprets the
results and computes the new tracker -/
def evalSearch (cs : Log.Suite) (vs : Versions) (vt : Tracker) (x ver : Nat) (om : Bool) (proof : Prefix.Proof) :
    G (Bytes × Int × Tracker) := do
  let r ← receiveLadder vt x ver om (proof.results.map Prefix.Res.isInclusion)
  let entries ← entriesFor vs r.1 proof.results
  let root ← Prefix.evaluateRoot cs entries proof
  pure (root, r.2.1, r.2.2)

/-- proof_handle.go:116-152 `GetSearchBinaryLadder` -/
def search (cs : Log.Suite) (x ver : Nat) (om : Bool) (s : Received) : G (Bytes × Int) × Received :=
  match s.inner.prefixProofs with
  | [] => (goErr "unexpected number of prefix proofs consumed", s)
  | proof :: rest =>
    match evalSearch cs s.versions s.tracker x ver om proof with
    | .error e => (.error e, s)
    | .ok r => (.ok (r.1, r.2.1), { s.pop rest with tracker := r.2.2 })

/-- proof_handle.go:174-183, 205-214: the entries for a list of versions, all with commitment -/
def allEntries (vs : Versions) : List Nat → G (List Prefix.Entry)
  | [] => pure []
  | v :: vers =>
    match vs.lookup v with
    | none => goErr "required version not known"
    | some k =>
      if k.com = none then goErr "commitment not known for required version"
      else do
        let rest ← allEntries vs vers
        pure (k.entry :: rest)

/-- proof_handle.go:154-193: evaluation of one monitoring ladder -/
def evalMonitor (cs : Log.Suite) (vs : Versions) (ver : Nat) (proof : Prefix.Proof) : G Bytes := do
  let ladder ← monitoringBinaryLadder ver
  if proof.results.length ≠ ladder.length then goErr "unexpected number of results present in prefix proof"
  else if ¬ proof.results.all Prefix.Res.isInclusion then goErr "unexpected non-inclusion proof provided"
  else do
    let entries ← allEntries vs ladder
    Prefix.evaluateRoot cs entries proof

/-- proof_handle.go:154-193 `GetMonitoringBinaryLadder` -/
def monitor (cs : Log.Suite) (_ ver : Nat) (s : Received) : G Bytes × Received :=
  match s.inner.prefixProofs with
  | [] => (goErr "unexpected number of prefix proofs consumed", s)
  | proof :: rest =>
    match evalMonitor cs s.versions ver proof with
    | .error e => (.error e, s)
    | .ok r => (.ok r, s.pop rest)

/-- proof_handle.go:195-224: evaluation of one inclusion proof.  The number of results has to be 1 whatever the
number of versions. -/
def evalIncl (cs : Log.Suite) (vs : Versions) (vers : List Nat) (proof : Prefix.Proof) : G Bytes :=
  match proof.results with
  | [r] =>
    if ¬ r.isInclusion then goErr "unexpected non-inclusion proof provided"
    else do
      let entries ← allEntries vs vers
      Prefix.evaluateRoot cs entries proof
  | _ => goErr "unexpected number of results present in prefix proof"

/-- proof_handle.go:195-224 `GetInclusionProof` -/
def incl (cs : Log.Suite) (_ : Nat) (vers : List Nat) (s : Received) : G Bytes × Received :=
  match s.inner.prefixProofs with
  | [] => (goErr "unexpected number of prefix proofs consumed", s)
  | proof :: rest =>
    match evalIncl cs s.versions vers proof with
    | .error e => (.error e, s)
    | .ok r => (.ok r, s.pop rest)

/-- proof_handle.go:226-233 `GetPrefixTrees` -/
def prefixTrees (xs : List Nat) (s : Received) : G (List Bytes) × Received :=
  if xs.length ≠ s.inner.prefixRoots.length then (goErr "unexpected number of prefix tree roots requested", s)
  else (.ok s.inner.prefixRoots, { s with inner := { s.inner with prefixRoots := [] } })

/-- proof_handle.go:235-244 `Finish` -/
def finish (s : Received) : G (List Bytes) × Received :=
  if s.inner.timestamps ≠ [] then (goErr "unexpected additional timestamps found", s)
  else if s.inner.prefixProofs ≠ [] then (goErr "unexpected additional prefix proofs found", s)
  else if s.inner.prefixRoots ≠ [] then (goErr "unexpected additional prefix roots found", s)
  else (.ok s.inner.inclusion, s)

/-- proof_handle.go:250-254 `StopCondition` -/
def stop (_ : Nat) (_ : Int) (s : Received) : Bool := s.inner.prefixProofs.isEmpty

/-- the handle -/
def handle (cs : Log.Suite) : Handle Received where
  getTs := getTs
  search := search cs
  monitor := monitor cs
  incl := incl cs
  prefixTrees := prefixTrees
  finish := finish
  stop := stop
  addLadder x om g l s := { s with tracker := s.tracker.addLadder x om g l }

end Received

/-! ### the producing side -/

/-- what the producing handle reads from the database: log entries (`BatchGet`, decoded), the prefix tree store and
the log tree store -/
structure ServerDB where
  entry : Nat → G LogEntry
  prefixStore : Prefix.Store
  logStore : Log.LStore

/-- proof_handle.go:263-276 `ProducedProofHandle` (`tx` and `index` are parameters; the cache `logEntries` is left
out: reading the database again gives the same entry).  `proofs` is the list of `requiredProof`, :258-261. -/
structure Produced where
  versions : Versions := []
  tracker : Tracker := {}
  timestamps : List Nat := []
  proofs : List (Nat × List Nat) := []
  roots : List Bytes := []
  deriving DecidableEq, Repr

namespace Produced

/-- proof_handle.go:294-305 `RequiredVersions` (a list, may repeat versions) -/
def required (s : Produced) : List Nat := s.proofs.flatMap (·.2)

/-- proof_handle.go:310-312 `AddVersion` -/
def addVersion (cs : Log.Suite) (s : Produced) (ver : Nat) (vrf : Bytes) : G Produced := do
  let vs ← Alg.addVersion cs s.versions ver vrf none
  pure { s with versions := vs }

/-- proof_handle.go:354-361 `GetTimestamp` -/
def getTs (db : ServerDB) (x : Nat) (s : Produced) : G Nat × Produced :=
  match db.entry x with
  | .error e => (.error e, s)
  | .ok e => (.ok e.timestamp, { s with timestamps := s.timestamps ++ [e.timestamp] })

/-- proof_handle.go:363-390 `GetSearchBinaryLadder`; `produceLadder` (Model/Ladder.lean) computes the versions, the
result and the new tracker -/
def search (db : ServerDB) (index : List Nat) (x ver : Nat) (om : Bool) (s : Produced) : G (Bytes × Int) × Produced :=
  match produceLadder s.tracker x ver om (greatestAt index x) with
  | .error e => (.error e, s)
  | .ok r =>
    match db.entry x with
    | .error e => (.error e, s)
    | .ok e => (.ok (e.prefixTree, r.2.1), { s with proofs := s.proofs ++ [(x, r.1)], tracker := r.2.2 })

/-- proof_handle.go:392-401 `GetMonitoringBinaryLadder` -/
def monitor (db : ServerDB) (x ver : Nat) (s : Produced) : G Bytes × Produced :=
  match db.entry x with
  | .error e => (.error e, s)
  | .ok e =>
    match monitoringBinaryLadder ver with
    | .error e => (.error e, s)
    | .ok ladder => (.ok e.prefixTree, { s with proofs := s.proofs ++ [(x, ladder)] })

/-- proof_handle.go:403-410 `GetInclusionProof` -/
def incl (db : ServerDB) (x : Nat) (vers : List Nat) (s : Produced) : G Bytes × Produced :=
  match db.entry x with
  | .error e => (.error e, s)
  | .ok e => (.ok e.prefixTree, { s with proofs := s.proofs ++ [(x, vers)] })

/-- proof_handle.go:414-420: the loop of `GetPrefixTrees` -/
def readRoots (db : ServerDB) : List Nat → G (List Bytes)
  | [] => pure []
  | x :: xs => do
    let e ← db.entry x
    let rest ← readRoots db xs
    pure (e.prefixTree :: rest)

/-- proof_handle.go:412-423 `GetPrefixTrees` -/
def prefixTrees (db : ServerDB) (xs : List Nat) (s : Produced) : G (List Bytes) × Produced :=
  match readRoots db xs with
  | .error e => (.error e, s)
  | .ok roots => (.ok roots, { s with roots := roots })

/-- proof_handle.go:478-480 `StopCondition` -/
def stop (index : List Nat) (x : Nat) (ver : Int) (s : Produced) : Bool :=
  decide (s.proofs.length ≥ 25) || decide (greatestAt index x > ver)

/-- the handle (`Finish`, :425-427, panics) -/
def handle (db : ServerDB) (index : List Nat) : Handle Produced where
  getTs := getTs db
  search := search db index
  monitor := monitor db
  incl := incl db
  prefixTrees := prefixTrees db
  finish s := (goPanic "unreachable", s)
  stop := stop index
  addLadder x om g l s := { s with tracker := s.tracker.addLadder x om g l }

/-- proof_handle.go:432-440: the VRF outputs of a list of versions -/
def outputsFor (vs : Versions) : List Nat → G (List Bytes)
  | [] => pure []
  | v :: vers =>
    match vs.lookup v with
    | none => goErr "required version not known"
    | some k => do
      let rest ← outputsFor vs vers
      pure (k.vrf :: rest)

/-- proof_handle.go:431-442: the searches in the prefix tree -/
def searches (vs : Versions) : List (Nat × List Nat) → G (List Prefix.Search)
  | [] => pure []
  | p :: rest => do
    let vrfs ← outputsFor vs p.2
    let more ← searches vs rest
    pure (⟨p.1 + 1, vrfs⟩ :: more)

/-- proof_handle.go:456-468: take over the commitments of one result -/
def takeCommitments : List Nat → List (Option Bytes) → Versions → G Versions
  | _, [], vs => pure vs
  | vers, none :: cs, vs => takeCommitments (vers.drop 1) cs vs
  | [], some _ :: _, _ => goPanic "index out of range"
  | v :: vers, some c :: cs, vs =>
    match vs.lookup v with
    | none => takeCommitments vers cs ((v, ⟨[], some c⟩) :: vs)   -- excluded: `searches` looked `v` up
    | some k =>
      match k.com with
      | none => takeCommitments vers cs ((v, ⟨k.vrf, some c⟩) :: vs)
      | some c' => if c ≠ c' then goErr "different values for same commitment found" else takeCommitments vers cs vs

/-- proof_handle.go:452-468: all results -/
def takeAll : List (Nat × List Nat) → List (Prefix.Proof × List (Option Bytes)) → Versions → G Versions
  | _, [], vs => pure vs
  | [], _ :: _, _ => goPanic "index out of range"
  | p :: ps, r :: rs, vs => do
    let vs ← takeCommitments p.2 r.2 vs
    takeAll ps rs vs

/-- proof_handle.go:429-476 `Output` -/
def output (cs : Log.Suite) (db : ServerDB) (leaves : List Nat) (n : Nat) (nP m : Option Nat) (s : Produced) :
    G (CombinedTreeProof × Produced) := do
  let ss ← searches s.versions s.proofs
  let res ← Prefix.search cs db.prefixStore ss
  let vs ← takeAll s.proofs res s.versions
  let inclusion ← Log.getBatch cs db.logStore leaves n nP m
  pure (⟨s.timestamps, res.map (·.1), s.roots, inclusion⟩, { s with versions := vs })

end Produced

/-- data_provider.go:245-264 `Output`: the positions of the inspected leaves go to the handle -/
def Provider.output (cs : Log.Suite) (db : ServerDB) (index : List Nat) (n : Nat) (nP m : Option Nat)
    (p : Provider Produced) : G CombinedTreeProof × Provider Produced :=
  match p.inspectedLeaves (Produced.handle db index) with
  | (.error e, p) => (.error e, p)
  | (.ok leaves, p) =>
    match Produced.output cs db (leaves.map (·.1)) n nP m p.state with
    | .error e => (.error e, p)
    | .ok r => (.ok r.1, { p with state := r.2 })

end Katie.Alg
