import Verif.Model.LogMath

/-
Model of /repo/tree/log/log.go (stateless part) and /repo/tree/log/verify.go.
-/

namespace Katie.Log
open Katie Katie.LogMath

/-- What the log tree uses of `suites.CipherSuite`: `Hash()` as a function on byte strings and
`HashSize()`. -/
structure Suite where
  H : Bytes → Bytes
  hashSize : Nat

/-- chunk.go:19-22 `nodeData` -/
structure NodeData where
  leaf : Bool
  value : Bytes
  deriving DecidableEq, Repr

/-- chunk.go:24-36 `nodeData.marshal` (panics on an empty value) -/
def NodeData.marshal (nd : NodeData) : G Bytes :=
  if nd.value.length = 0 then goPanic "can not marshal empty node"
  else pure ((if nd.leaf then 0 else 1) :: nd.value)

/-- log.go:15-20 `treeHash` -/
def treeHash (cs : Suite) (l r : NodeData) : G NodeData := do
  let a ← l.marshal
  let b ← r.marshal
  pure ⟨false, cs.H (a ++ b)⟩

/-- log.go:183-193, the roll-up loop of `Root`: starts with the last subtree and hashes leftwards. -/
def rollUp (cs : Suite) : List NodeData → G NodeData
  | [] => goPanic "index out of range"
  | [a] => pure a
  | a :: rest => do
    let acc ← rollUp cs rest
    treeHash cs a acc

/-- log.go:167-195 `Root` -/
def root (cs : Suite) (n : Nat) (fullSubtrees : List Bytes) : G Bytes :=
  if n = 0 ∨ n > maxTreeSize then goErr "invalid value for current tree size"
  else do
    let subtrees ← LogMath.fullSubtrees (LogMath.root n) n
    if fullSubtrees.length ≠ subtrees.length then goErr "unexpected number of full subtree values provided"
    else if ¬ fullSubtrees.all (fun e => e.length == cs.hashSize) then
      goErr "full subtree value is unexpected size"
    else do
      let acc ← rollUp cs (List.zipWith (fun x v => ⟨isLeaf x, v⟩) subtrees fullSubtrees)
      pure acc.value

/-- log.go:206-208: `chain[math.Level(x)] = fullSubtrees[i]` for each full subtree. -/
def fillChain : List (Option Bytes) → List Nat → List Bytes → G (List (Option Bytes))
  | chain, [], _ => pure chain
  | _, _ :: _, [] => goPanic "index out of range"
  | chain, x :: xs, v :: vs =>
    if level x < chain.length then fillChain (chain.set (level x) (some v)) xs vs
    else goPanic "index out of range"

/-- log.go:211-218: the carry loop of `Append`, from level `i` on. -/
def carryLoop (cs : Suite) : Nat → List (Option Bytes) → NodeData → G (List (Option Bytes))
  | _, [], _ => pure []
  | _, none :: rest, carry => pure (some carry.value :: rest)
  | i, some v :: rest, carry => do
    let carry' ← treeHash cs ⟨i == 0, v⟩ carry
    let rest' ← carryLoop cs (i + 1) rest carry'
    pure (none :: rest')

/-- log.go:199-227 `Append` (stateless) -/
def append (cs : Suite) (n : Nat) (fullSubtrees : List Bytes) (added : Bytes) : G (List Bytes) :=
  if n = 0 then pure [added]
  else do
    let r := LogMath.root n
    let subtrees ← LogMath.fullSubtrees r n
    let chain ← fillChain (List.replicate (level r + 2) none) subtrees fullSubtrees
    let chain ← carryLoop cs 0 chain ⟨true, added⟩
    pure (chain.reverse.filterMap id)

/-- Go `map[uint64]*nodeData` -/
abbrev NMap := List (Nat × NodeData)

/-- verify.go:14-20 `Verifier` -/
structure Verifier where
  prev : Option Nat
  subtrees : List Nat
  values : List Bytes
  deriving DecidableEq, Repr

/-- verify.go:22-24 `NewVerifier` -/
def newVerifier : Verifier := ⟨none, [], []⟩

/-- verify.go:33-51 `Retain` -/
def retain (cs : Suite) (prev : Nat) (fullSubtrees : List Bytes) : G Verifier :=
  if prev = 0 ∨ prev > maxTreeSize then goErr "invalid value for previous tree size"
  else do
    let subtrees ← LogMath.fullSubtrees (LogMath.root prev) prev
    if fullSubtrees.length ≠ subtrees.length then goErr "unexpected number of full subtree values provided"
    else if ¬ fullSubtrees.all (fun e => e.length == cs.hashSize) then goErr "hash has wrong size"
    else pure ⟨some prev, subtrees, fullSubtrees⟩

/-- verify.go:120-129 `addToMap` -/
def addToMap (cs : Suite) (m : NMap) (x : Nat) (val : Bytes) : G NMap :=
  if val.length ≠ cs.hashSize then goErr "value is unexpected size"
  else match m.lookup x with
    | some expected =>
      if expected.value ≠ val then goErr "different values presented for same node index" else pure m
    | none => pure ((x, ⟨isLeaf x, val⟩) :: m)

/-- the loops verify.go:76-90 adding a list of (index, value) pairs -/
def addAll (cs : Suite) (m : NMap) : List (Nat × Bytes) → G NMap
  | [] => pure m
  | (x, v) :: rest => do
    let m' ← addToMap cs m x v
    addAll cs m' rest

/-- `nodes[x]` used as a pointer: a missing entry is nil and dereferencing it panics. -/
def nodeAt (m : NMap) (x : Nat) : G NodeData :=
  match m.lookup x with
  | some d => pure d
  | none => goPanic "invalid memory address or nil pointer dereference"

/-- verify.go:131-156 `evaluate` (returns the updated map) -/
def evaluateAux (cs : Suite) : Nat → Nat → Nat → NMap → List Nat → G NMap
  | 0, _, _, _, _ => .error .diverge
  | fuel + 1, x, n, nodes, sorted =>
    if sorted = [x] then pure nodes
    else do
      let (i, found) := binarySearch sorted x
      let j := if found then i + 1 else i
      let l ← left x
      let r ← right x n
      let nodes ← evaluateAux cs fuel l n nodes (sorted.take i)
      let nodes ← evaluateAux cs fuel r n nodes (sorted.drop j)
      if isFullSubtree x n then do
        let a ← nodeAt nodes l
        let b ← nodeAt nodes r
        let im ← treeHash cs a b
        addToMap cs nodes x im.value
      else pure nodes

/-- Result of `Evaluate`: the two returned lists, and (for stating security properties) the final
node map, from which the strings hashed by the verifier can be read off. -/
structure EvalResult where
  fullSubtrees : List Bytes
  additional : List Bytes
  nodes : NMap
  deriving DecidableEq, Repr

/-- verify.go:54-118 `Verifier.Evaluate` -/
def evaluate (cs : Suite) (v : Verifier) (entries : List Nat) (n : Nat) (nP : Option Nat)
    (values : List Bytes) (proof : List Bytes) : G EvalResult :=
  if n = 0 ∨ n > maxTreeSize then goErr "invalid value for current tree size"
  else if (nP.any fun k => k = 0 ∨ k > n ∨ k > maxTreeSize) then goErr "invalid value for additional tree size"
  else if entries.length ≠ values.length then goErr "number of leaves indices must equal number of leaf values"
  else if entries.any (fun x => x ≥ n) then goErr "leaf is beyond right edge of tree"
  else do
    let copath ← batchCopath entries n nP v.prev
    if proof.length ≠ copath.length then goErr "malformed proof"
    else do
      let nodes ← addAll cs [] ((entries.map (2 * ·)).zip values)
      let nodes ← addAll cs nodes (v.subtrees.zip v.values)
      let nodes ← addAll cs nodes (copath.zip proof)
      let sorted := sortDedup (nodes.map Prod.fst)
      let nodes ← evaluateAux cs (2 * n + 2) (LogMath.root n) n nodes sorted
      let fs ← LogMath.fullSubtrees (LogMath.root n) n
      let fullSubtrees ← fs.mapM (fun x => do let d ← nodeAt nodes x; pure d.value)
      let additional ← match nP with
        | none => pure []
        | some k => do
          let fs' ← LogMath.fullSubtrees (LogMath.root k) k
          fs'.mapM (fun x => do let d ← nodeAt nodes x; pure d.value)
      pure ⟨fullSubtrees, additional, nodes⟩

end Katie.Log
