import Verif.Model.Basic

/-
Model of /repo/tree/transparency/math/ladders.go and tracker.go, and of the parts of
/repo/tree/transparency/algorithms/proof_handle.go that walk a search binary ladder on the server
and on the client.

`uint32` arithmetic that can wrap is modelled modulo 2^32.  Go maps used as sets are lists (only
membership is used).  A prefix proof enters `InterpretSearchLadder` only through the booleans
`Inclusion()` of its results, so a proof is modelled here by the list of these booleans.
-/

namespace Katie.Ladder
open Katie

/-- ladders.go:13 `(uint32(1) << len) - 1`: the shift gives 0 for `len ≥ 32`, and `0 - 1` wraps. -/
def pow32 (len : Nat) : Nat := if len < 32 then 2 ^ len - 1 else 2 ^ 32 - 1

/-- ladders.go:12-18, first loop of `baseBinaryLadder`, with `len` values already in `out`. -/
def rise : Nat → Nat → Nat → G (List Nat)
  | 0, _, _ => .error .diverge
  | fuel + 1, len, n =>
    let val := pow32 len
    if val > n then pure [val]
    else do
      let rest ← rise fuel (len + 1) n
      pure (val :: rest)

/-- ladders.go:21-29, second loop of `baseBinaryLadder`. -/
def bisect : Nat → Nat → Nat → Nat → G (List Nat)
  | 0, _, _, _ => .error .diverge
  | fuel + 1, n, lowerBound, upperBound =>
    if (lowerBound + 1) % 2 ^ 32 < upperBound then do
      let val := (lowerBound + upperBound) % 2 ^ 32 / 2
      let rest ← if val ≤ n then bisect fuel n val upperBound else bisect fuel n lowerBound val
      pure (val :: rest)
    else pure []

/-- ladders.go:9-32 `baseBinaryLadder`, each loop limited to `fuel` iterations. -/
def baseLadderFuel (fuel n : Nat) : G (List Nat) := do
  let out ← rise fuel 0 n
  match out.reverse with
  | upperBound :: lowerBound :: _ => do
    let rest ← bisect fuel n lowerBound upperBound
    pure (out ++ rest)
  | _ => goPanic "index out of range"

/-- ladders.go:9-32 `baseBinaryLadder`.  No terminating run takes more than 64 iterations
(`C19_ladder_terminates`, `C19_ladder_diverges`). -/
def baseBinaryLadder (n : Nat) : G (List Nat) := baseLadderFuel 64 n

/-- ladders.go:50-67, the loop of `SearchBinaryLadder` over the remaining base ladder. -/
def searchLoop (t n : Nat) (leftInclusion rightNonInclusion : List Nat) : List Nat → List Nat
  | [] => []
  | v :: rest =>
    let keep := !(leftInclusion.contains v || rightNonInclusion.contains v)
    let wouldEnd := (v ≤ n && v > t) || (v > n && v ≤ t)
    let tail := if wouldEnd then [] else searchLoop t n leftInclusion rightNonInclusion rest
    if keep then v :: tail else tail

/-- ladders.go:42-70 `SearchBinaryLadder` -/
def searchBinaryLadder (t n : Nat) (leftInclusion rightNonInclusion : List Nat) : G (List Nat) := do
  let base ← baseBinaryLadder t
  pure (searchLoop t n leftInclusion rightNonInclusion base)

/-- ladders.go:77-87 `MonitoringBinaryLadder` -/
def monitoringBinaryLadder (t : Nat) : G (List Nat) := do
  let base ← baseBinaryLadder t
  pure (base.filter (fun v => v ≤ t))

/-- ladders.go:101-120, the loop of `InterpretSearchLadder` over the remaining ladder and results
(`i ≥ len(proof.Results)` is the empty list, `len(proof.Results) != i+1` a non-empty remainder). -/
def interpretLoop (target : Nat) : List Nat → List Bool → G Int
  | [], _ => pure 0
  | _ :: _, [] => goErr "unexpected number of results in prefix proof"
  | version :: ladder, res :: results =>
    if res && version > target then
      if results ≠ [] then goErr "unexpected number of results in prefix proof" else pure 1
    else if !res && version ≤ target then
      if results ≠ [] then goErr "unexpected number of results in prefix proof" else pure (-1)
    else interpretLoop target ladder results

/-- ladders.go:96-123 `InterpretSearchLadder` -/
def interpretSearchLadder (ladder : List Nat) (target : Nat) (results : List Bool) : G Int :=
  if results.length > ladder.length then goErr "unexpected number of results in prefix proof"
  else interpretLoop target ladder results

/-! ### tracker.go -/

/-- tracker.go:7-14 `posAndVersions`, `VersionTracker` -/
structure Tracker where
  inclusion : List (Nat × List Nat) := []
  nonInclusion : List (Nat × List Nat) := []
  deriving DecidableEq, Repr

/-- tracker.go:16-31 `AddResults` (indexing `ladder[i]` panics when there are more results) -/
def Tracker.addResults (vt : Tracker) (x : Nat) (om : Bool) (ladder : List Nat) (results : List Bool) : G Tracker :=
  if !om then pure vt
  else if results.length > ladder.length then goPanic "index out of range"
  else
    let both := ladder.zip results
    pure { inclusion := vt.inclusion ++ [(x, (both.filter (·.2)).map (·.1))]
           nonInclusion := vt.nonInclusion ++ [(x, (both.filter (!·.2)).map (·.1))] }

/-- tracker.go:33-48 `AddLadder` -/
def Tracker.addLadder (vt : Tracker) (x : Nat) (om : Bool) (greatest : Int) (ladder : List Nat) : Tracker :=
  if !om then vt
  else { inclusion := vt.inclusion ++ [(x, ladder.filter (fun (v : Nat) => (v : Int) ≤ greatest))]
         nonInclusion := vt.nonInclusion ++ [(x, ladder.filter (fun (v : Nat) => ¬ (v : Int) ≤ greatest))] }

/-- tracker.go:50-73 `SearchMaps` (nil maps for `omit = false` behave as empty sets) -/
def Tracker.searchMaps (vt : Tracker) (x : Nat) (om : Bool) : List Nat × List Nat :=
  if !om then ([], [])
  else
    ((vt.inclusion.filter (fun e => e.1 < x)).flatMap (·.2),
     (vt.nonInclusion.filter (fun e => e.1 > x)).flatMap (·.2))

/-! ### proof_handle.go: walking one search ladder -/

/-- proof_handle.go:318-321 `ProducedProofHandle.greatestAt`: `slices.BinarySearch(index, x+1)` on the
sorted index is the number of elements smaller than `x+1`. -/
def greatestAt (index : List Nat) (x : Nat) : Int := ((index.takeWhile (fun p => p < x + 1)).length : Int) - 1

/-- proof_handle.go:366-373: the versions the server looks up at log entry `x`. -/
def producedVersions (vt : Tracker) (x ver : Nat) (om : Bool) (greatest : Int) : G (List Nat) :=
  if greatest < 0 then pure [0]
  else
    let maps := vt.searchMaps x om
    searchBinaryLadder ver (greatest.toNat % 2 ^ 32) maps.1 maps.2

/-- proof_handle.go:363-390 `ProducedProofHandle.GetSearchBinaryLadder`: the versions the server
looks up at log entry `x`, the comparison result, and the new tracker. -/
def produceLadder (vt : Tracker) (x ver : Nat) (om : Bool) (greatest : Int) : G (List Nat × Int × Tracker) := do
  let ladder ← producedVersions vt x ver om greatest
  let res : Int := if greatest < (ver : Int) then -1 else if greatest > (ver : Int) then 1 else 0
  pure (ladder, res, vt.addLadder x om greatest ladder)

/-- proof_handle.go:115-152 `ReceivedProofHandle.GetSearchBinaryLadder`: `results` are the inclusion
flags of the received prefix proof.  Returns the versions looked up (as many as there are results),
the interpretation and the new tracker.  (Evaluation of the proof itself: see `Model/Prefix`.) -/
def receiveLadder (vt : Tracker) (x ver : Nat) (om : Bool) (results : List Bool) : G (List Nat × Int × Tracker) := do
  let maps := vt.searchMaps x om
  let ladder ← searchBinaryLadder ver ver maps.1 maps.2
  let res ← interpretSearchLadder ladder ver results
  let vt' ← vt.addResults x om ladder results
  pure (ladder.take results.length, res, vt')

end Katie.Ladder
