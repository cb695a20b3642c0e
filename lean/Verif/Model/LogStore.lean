import Verif.Model.Log

/-
Model of /repo/tree/log/chunk.go and of the stored log in /repo/tree/log/log.go (fetch, fetchSpecific,
GetBatch, Tree.Append).

Simplifications: the key-value store is an association list whose newest binding wins, and its reads do
not fail other than by a missing key.  Go maps used as sets are sorted lists without duplicates.  Pointers
to nodes are values (no node pointer is kept across a write by this code).
-/

namespace Katie.Log
open Katie Katie.LogMath

/-- chunk.go:44-49 `nodeChunk` -/
structure NodeChunk where
  ids : List Nat
  nodes : List NodeData
  deriving DecidableEq, Repr

/-- chunk.go:79-92, the parse loop of `newChunk` -/
def parseNodes (hashSize : Nat) (leafChunk : Bool) : Nat → List NodeData → Bytes → G (List NodeData)
  | 0, _, _ => .error .diverge
  | fuel + 1, nodes, data =>
    if data = [] then pure nodes
    else if data.length < hashSize then goErr "unable to parse chunk"
    else
      let nodes := if nodes.length > 0 then nodes ++ [⟨false, []⟩] else nodes
      parseNodes hashSize leafChunk fuel (nodes ++ [⟨leafChunk, data.take hashSize⟩]) (data.drop hashSize)

/-- chunk.go:51-101 `newChunk` -/
def newChunk (cs : Suite) (id : Nat) (data : Bytes) : G NodeChunk := do
  let i7 := id
  let i3 ← left i7
  let i1 ← left i3
  let i0 ← left i1
  let i2 ← rightStep i1
  let i5 ← rightStep i3
  let i4 ← left i5
  let i6 ← rightStep i5
  let i11 ← rightStep i7
  let i9 ← left i11
  let i8 ← left i9
  let i10 ← rightStep i9
  let i13 ← rightStep i11
  let i12 ← left i13
  let i14 ← rightStep i13
  let ids := [i0, i1, i2, i3, i4, i5, i6, i7, i8, i9, i10, i11, i12, i13, i14]
  let nodes ← parseNodes cs.hashSize (level id == 3) (data.length + 1) [] data
  if nodes.length > 15 then goErr "unable to parse chunk"
  else pure ⟨ids, nodes ++ (ids.drop nodes.length).map fun x => ⟨isLeaf x, []⟩⟩

/-- chunk.go:103-110 `findIndex` -/
def NodeChunk.findIndex (c : NodeChunk) (x : Nat) : G Nat :=
  if c.ids.idxOf x < c.ids.length then pure (c.ids.idxOf x)
  else goPanic "requested hash not available in this chunk"

/-- chunk.go:113-123 `get`; also returns the chunk with the hashes cached on the way. -/
def NodeChunk.get (cs : Suite) : Nat → NodeChunk → Nat → G (NodeData × NodeChunk)
  | 0, _, _ => .error .diverge
  | fuel + 1, c, x => do
    let i ← c.findIndex x
    match c.nodes[i]? with
    | none => goPanic "index out of range"
    | some d =>
      if isLeaf x ∨ d.value ≠ [] then pure (d, c)
      else do
        let l ← left x
        let r ← rightStep x
        let (a, c) ← NodeChunk.get cs fuel c l
        let (b, c) ← NodeChunk.get cs fuel c r
        let h ← treeHash cs a b
        pure (h, { c with nodes := c.nodes.set i h })

/-- chunk.go:129-132, the loop of `set` that drops the cached hashes above position `i` -/
def clearUp : Nat → Nat → List NodeData → G (List NodeData)
  | 0, _, _ => .error .diverge
  | fuel + 1, i, nodes =>
    if i ≠ 7 then
      let i := parentStep i
      match nodes[i]? with
      | none => goPanic "index out of range"
      | some d => clearUp fuel i (nodes.set i ⟨d.leaf, []⟩)
    else pure nodes

/-- chunk.go:126-133 `set` -/
def NodeChunk.set (c : NodeChunk) (x : Nat) (d : NodeData) : G NodeChunk := do
  let i ← c.findIndex x
  let nodes ← clearUp 16 i (c.nodes.set i d)
  pure { c with nodes := nodes }

/-- chunk.go:139-153, the loop of `marshal` -/
def marshalNodes : List NodeData → G Bytes
  | [] => pure []
  | [d] => pure d.value
  | d :: e :: rest =>
    if d.value ≠ [] then do
      let out ← marshalNodes rest
      pure (d.value ++ out)
    else if (d :: e :: rest).all (fun y => y.value = []) then pure []
    else goPanic "chunk has gaps"

/-- chunk.go:136-156 `nodeChunk.marshal` -/
def NodeChunk.marshal (c : NodeChunk) : G Bytes := marshalNodes c.nodes

/-- chunk.go:160-165 `chunkSet` -/
structure ChunkSet where
  chunks : List (Nat × NodeChunk)
  modified : List Nat
  deriving DecidableEq, Repr

/-- chunk.go:167-182 `newChunkSet` -/
def newChunkSet (cs : Suite) (data : List (Nat × Bytes)) : G ChunkSet := do
  let chunks ← data.mapM fun p => do
    let c ← newChunk cs p.1 p.2
    pure (p.1, c)
  pure ⟨chunks, []⟩

/-- chunk.go:185-191 `chunkSet.get` -/
def ChunkSet.get (cs : Suite) (s : ChunkSet) (x : Nat) : G (NodeData × ChunkSet) := do
  let id ← chunk x
  match s.chunks.lookup id with
  | none => goPanic "requested hash is not available in this chunk set"
  | some c => do
    let (d, c) ← c.get cs (level x + 1) x
    pure (d, { s with chunks := (id, c) :: s.chunks })

/-- chunk.go:194-204 `chunkSet.add` -/
def ChunkSet.add (cs : Suite) (s : ChunkSet) (x : Nat) : G ChunkSet := do
  let id ← chunk x
  match s.chunks.lookup id with
  | some _ => goPanic "cannot add chunk that already exists in set"
  | none => do
    let c ← match newChunk cs id [] with
      | .error (.err _) => goPanic "error"
      | r => r
    pure { s with chunks := (id, c) :: s.chunks }

/-- chunk.go:207-215 `chunkSet.set` -/
def ChunkSet.set (s : ChunkSet) (x : Nat) (d : NodeData) : G ChunkSet := do
  let id ← chunk x
  match s.chunks.lookup id with
  | none => goPanic "requested hash is not available in this chunk set"
  | some c => do
    let c ← c.set x d
    pure ⟨(id, c) :: s.chunks, if id ∈ s.modified then s.modified else s.modified ++ [id]⟩

/-- chunk.go:217-223 `chunkSet.marshal` -/
def ChunkSet.marshal (s : ChunkSet) : G (List (Nat × Bytes)) :=
  s.modified.mapM fun id =>
    match s.chunks.lookup id with
    | none => goPanic "invalid memory address or nil pointer dereference"
    | some c => do
      let b ← c.marshal
      pure (id, b)

/-- a `db.LogStore` (db.go:5-9): newest binding first -/
abbrev LStore := List (Nat × Bytes)

/-- log.go:35-56 `fetch` -/
def fetch (cs : Suite) (st : LStore) (nodes : List Nat) : G ChunkSet := do
  let cids ← nodes.mapM chunk
  let ids := sortDedup cids
  let data := ids.filterMap fun id => (st.lookup id).map fun b => (id, b)
  if ids.any (fun id => (st.lookup id).isNone) then
    goErr "not all expected data was found in the database"
  else newChunkSet cs data

/-- the loop `out[i] = set.get(id).value` of log.go:64-67 and log.go:157-160 -/
def getAll (cs : Suite) : ChunkSet → List Nat → G (List Bytes)
  | _, [] => pure []
  | s, x :: xs => do
    let (d, s) ← s.get cs x
    let rest ← getAll cs s xs
    pure (d.value :: rest)

/-- log.go:59-69 `fetchSpecific` -/
def fetchSpecific (cs : Suite) (st : LStore) (nodes : List Nat) : G (List Bytes) := do
  let set ← fetch cs st nodes
  getAll cs set nodes

/-- two equal neighbours (log.go:85) -/
def hasDup : List Nat → Bool
  | a :: b :: l => a == b || hasDup (b :: l)
  | _ => false

/-- `slices.Sort` by insertion -/
def sortNat (xs : List Nat) : List Nat := xs.foldr ins []
where
  /-- insert into a sorted list -/
  ins (a : Nat) : List Nat → List Nat
  | [] => [a]
  | b :: l => if a ≤ b then a :: b :: l else b :: ins a l

/-- log.go:72-89 `GetBatch` -/
def getBatch (cs : Suite) (st : LStore) (entries : List Nat) (n : Nat) (nP m : Option Nat) : G (List Bytes) :=
  if n = 0 ∨ n > maxTreeSize then goErr "invalid value for current tree size"
  else if nP.any fun k => k = 0 ∨ k > n ∨ k > maxTreeSize then goErr "invalid value for additional tree size"
  else if m.any fun k => k = 0 ∨ k > n ∨ k > maxTreeSize then goErr "invalid value for previous tree size"
  else
    let entries := sortNat entries
    if entries.any (fun x => x ≥ n) then goErr "can not get leaf beyond right edge of tree"
    else if hasDup entries then goErr "duplicate leaf index found"
    else do
      let cop ← batchCopath entries n nP m
      fetchSpecific cs st cop

/-- log.go:143-147, the loop updating stored intermediate nodes -/
def updatePath (cs : Suite) : ChunkSet → List Nat → G ChunkSet
  | s, [] => pure s
  | s, x :: xs => do
    let l ← left x
    let r ← rightStep x
    let (a, s) ← s.get cs l
    let (b, s) ← s.get cs r
    let h ← treeHash cs a b
    let s ← s.set x h
    updatePath cs s xs

/-- the loop `set.add(id)` of log.go:139-141 -/
def addChunks (cs : Suite) : ChunkSet → List Nat → G ChunkSet
  | s, [] => pure s
  | s, x :: xs => do
    let s ← s.add cs x
    addChunks cs s xs

/-- log.go:110-115, the copath of the new leaf (there is none in a log of one leaf) -/
def appendCopath (n : Nat) : G (List Nat) := if n > 0 then copath (2 * n) (n + 1) else pure []

/-- log.go:94-163 `Tree.Append`; returns the store after the `Put`s and the new full subtrees. -/
def treeAppend (cs : Suite) (st : LStore) (n : Nat) (value : Bytes) : G (LStore × List Bytes) :=
  if n ≥ maxTreeSize then goErr "invalid value for current tree size"
  else if value.length ≠ cs.hashSize then goErr "value has wrong length"
  else do
    let leaf := 2 * n
    let dp ← directPath leaf (n + 1)
    let path' := dp.filter fun x => isFullSubtree x (n + 1) && level x % 4 == 0
    let cop ← appendCopath n
    let alreadyExists ← cop.mapM chunk
    let pathChunks ← (leaf :: path').mapM chunk
    let toFetch := pathChunks.filter (fun x => alreadyExists.contains x) ++ sortDedup alreadyExists
    let toCreate := sortDedup (pathChunks.filter fun x => !alreadyExists.contains x)
    let set ← fetch cs st toFetch
    let set ← addChunks cs set toCreate
    let set ← set.set leaf ⟨true, value⟩
    let set ← updatePath cs set path'
    let puts ← set.marshal
    let fs ← fullSubtrees (LogMath.root (n + 1)) (n + 1)
    let out ← getAll cs set fs
    pure (puts.reverse ++ st, out)

end Katie.Log
