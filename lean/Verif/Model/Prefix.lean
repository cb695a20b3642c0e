import Verif.Model.Log
import Verif.Model.Uvarint

/-
Model of /repo/tree/prefix: nodes.go, prefix.go, batch.go, verify.go (proof.go's wire format is in
Verif/Model/Structs.lean).

Simplifications, all of which keep the observable behaviour:
* Go pointers: a `*node` that is overwritten in place is modelled by returning the new node.
* `parentNode.hash` is a cache.  The model keeps the field (it is stored in and read from tiles), but
  `Hash` does not write it, except in `EvaluateBeforeAfter`, the only place where a hash is computed and
  the same node is then changed (`cacheHashes`).
* a nil `[]byte` is the empty list; a nil commitment is the empty list.  (Go rejects a non-nil empty
  commitment in `evaluate`; the model treats it as nil and accepts it, so it accepts slightly more.)
* the store is keyed by tile id instead of the string `"%x:%x"`, see `tileId.String` below.
* `batch.search` fetches tiles in rounds and replaces external nodes in place; the model's `expand` does
  the same replacements in one recursive descent.  Both end with every external node on the path of a
  requested VRF output replaced by the node it refers to: `Verif.Model.PrefixHeap` is batch.go as it is, and
  `C91_same_answers` says that the answers are the same.
-/

namespace Katie.Prefix
open Katie

abbrev Suite := Log.Suite

/-- nodes.go:222-225 `tileId` -/
structure TileId where
  ver : Nat
  ctr : Nat
  deriving DecidableEq, Repr

/-- nodes.go:35-44 `node`: `emptyNode` (:91), `leafNode` (:106-108), `*parentNode` (:47-53, with the
cached hash and the id of the tile it was read from, both possibly nil), `externalNode` (:145-148). -/
inductive Node where
  | empty
  | leaf (vrf com : Bytes)
  | parent (left right : Node) (hash : Option Bytes) (id : Option TileId)
  | ext (hash : Bytes) (id : TileId)
  deriving DecidableEq, Repr

/-- prefix.go:74-76 `Entry` -/
structure Entry where
  vrf : Bytes
  com : Bytes
  deriving DecidableEq, Repr

/-- nodes.go:14-15 -/
def intermediateSuppression : Nat := 4
/-- nodes.go:14-15 -/
def maxTileWeight : Nat := 1000

/-- nodes.go:18-20 `shouldStoreIntermediate` -/
def shouldStoreIntermediate (depth : Nat) : Bool :=
  depth % intermediateSuppression == intermediateSuppression - 1

/-- `Weight`: nodes.go:62-64, 95, 126-128, 170-172 -/
def Node.weight (cs : Suite) : Node → Nat
  | .empty => 1
  | .leaf _ _ => 1 + 2 * cs.hashSize
  | .parent _ _ _ _ => 1 + cs.hashSize + 2 * 10
  | .ext _ _ => 1 + cs.hashSize + 2 * 10

/-- `Hash`: nodes.go:66-79, 97-99, 130-136, 174 -/
def Node.hash (cs : Suite) : Node → Bytes
  | .empty => List.replicate cs.hashSize 0
  | .leaf v c => cs.H (2 :: (v ++ c))
  | .parent _ _ (some h) _ => h
  | .parent l r none _ => cs.H (3 :: (l.hash cs ++ r.hash cs))
  | .ext h _ => h

/-- The effect of `root.Hash(cs)` on the caches: nodes.go:66-79 (`pn.hash = out`). -/
def Node.cacheHashes (cs : Suite) : Node → Node
  | .parent l r none id =>
    .parent (l.cacheHashes cs) (r.cacheHashes cs) (some (cs.H (3 :: (l.hash cs ++ r.hash cs)))) id
  | n => n

/-- batch.go:10-12 `getBit` (`data[bit/8]` panics when out of range) -/
def getBit (data : Bytes) (bit : Nat) : G Bool :=
  match data[bit / 8]? with
  | none => goPanic "index out of range"
  | some b => pure (((b >>> UInt8.ofNat (7 - bit % 8)) &&& 1) == 1)

/-- `bytes.Compare(a, b) < 0` -/
def bytesLt : Bytes → Bytes → Bool
  | [], [] => false
  | [], _ :: _ => true
  | _ :: _, [] => false
  | a :: as, b :: bs => if a < b then true else if b < a then false else bytesLt as bs

/-- Insertion into a sorted list, used to model `slices.SortFunc` with `bytes.Compare` on a key. -/
def insertBy {α : Type} (key : α → Bytes) (a : α) : List α → List α
  | [] => [a]
  | b :: bs => if bytesLt (key b) (key a) then b :: insertBy key a bs else a :: b :: bs

/-- `slices.SortFunc(l, bytes.Compare on key)` -/
def sortBy {α : Type} (key : α → Bytes) : List α → List α
  | [] => []
  | a :: as => insertBy key a (sortBy key as)

/-- The loop of `slices.BinarySearchFunc(l, true, cmp)` where `cmp` returns 0 if bit `depth` of the
element is set and -1 otherwise: `i, j := 0, n; for i < j { h := (i+j)/2; if cmp(l[h]) < 0 { i = h+1 }
else { j = h } }`.  The fuel is the length of the list. -/
def searchBit {α : Type} (key : α → Bytes) (l : List α) (depth : Nat) : Nat → Nat → Nat → G Nat
  | 0, i, j => if i < j then .error .diverge else pure i
  | fuel + 1, i, j =>
    if i < j then
      match l[(i + j) / 2]? with
      | none => goPanic "index out of range"
      | some x => do
        let b ← getBit (key x) depth
        if b then searchBit key l depth fuel i ((i + j) / 2)
        else searchBit key l depth fuel ((i + j) / 2 + 1) j
    else pure i

/-- `slices.BinarySearchFunc` and the two sub-slices: prefix.go:244-251, 337-348 `splitEntries`,
350-361 `splitVrfOutputs` -/
def splitBit {α : Type} (key : α → Bytes) (l : List α) (depth : Nat) : G (List α × List α) := do
  let i ← searchBit key l depth l.length 0 l.length
  pure (l.take i, l.drop i)

/-- proof.go:74-118 `PrefixSearchResult` -/
inductive Res where
  | inclusion (depth : Nat)
  | nonInclusionLeaf (vrf com : Bytes) (depth : Nat)
  | nonInclusionParent (depth : Nat)
  deriving DecidableEq, Repr

/-- `Inclusion()`: proof.go:85, 98, 112 -/
def Res.isInclusion : Res → Bool
  | .inclusion _ => true
  | _ => false

/-- `Depth()`: proof.go:86, 99, 113 -/
def Res.depth : Res → Nat
  | .inclusion d => d
  | .nonInclusionLeaf _ _ d => d
  | .nonInclusionParent d => d

/-- proof.go:19-22 `PrefixProof` -/
structure Proof where
  results : List Res
  elements : List Bytes
  deriving DecidableEq, Repr

/-! ### prefix.go: proof building -/

/-- prefix.go:192-197 `proofBuilder`: results and commitments are slots indexed by the position of the
request (unfilled slots are nil). -/
structure Builder where
  results : List (Option Res)
  commitments : List (Option Bytes)
  elements : List Bytes
  deriving DecidableEq, Repr

/-- prefix.go:227-241: fill the slots of all requests that end at a leaf. -/
def fillLeaf (v c : Bytes) (depth : Nat) : List (Nat × Bytes) → Builder → Builder
  | [], pb => pb
  | (i, w) :: rest, pb =>
    if w = v then
      fillLeaf v c depth rest
        { pb with results := pb.results.set i (some (.inclusion depth)),
                  commitments := pb.commitments.set i (some c) }
    else
      fillLeaf v c depth rest { pb with results := pb.results.set i (some (.nonInclusionLeaf v c depth)) }

/-- prefix.go:228-231: fill the slots of all requests that end at an empty node. -/
def fillEmpty (depth : Nat) : List (Nat × Bytes) → Builder → Builder
  | [], pb => pb
  | (i, _) :: rest, pb =>
    fillEmpty depth rest { pb with results := pb.results.set i (some (.nonInclusionParent depth)) }

/-- prefix.go:221-256 `build` -/
def build (cs : Suite) : Node → List (Nat × Bytes) → Nat → Builder → G Builder
  | n, [], _, pb => pure { pb with elements := pb.elements ++ [n.hash cs] }
  | .empty, v :: vs, depth, pb => pure (fillEmpty depth (v :: vs) pb)
  | .leaf w c, v :: vs, depth, pb => pure (fillLeaf w c depth (v :: vs) pb)
  | .parent l r _ _, v :: vs, depth, pb => do
    let (a, b) ← splitBit Prod.snd (v :: vs) depth
    let pb ← build cs l a (depth + 1) pb
    build cs r b (depth + 1) pb
  | .ext _ _, _ :: _, _, _ => goPanic "unexpected node type found"

/-- all slots filled -/
def allSome {α : Type} : List (Option α) → G (List α)
  | [] => pure []
  | none :: _ => goPanic "nil search result"
  | some a :: rest => do
    let as ← allSome rest
    pure (a :: as)

/-- prefix.go:199-219 `runProofBuilder` (a slot left nil would make the first use of the result panic;
the model panics here) -/
def runProofBuilder (cs : Suite) (root : Node) (vrfs : List Bytes) : G (Proof × List (Option Bytes)) := do
  let indexed := sortBy Prod.snd ((List.range vrfs.length).zip vrfs)
  let pb ← build cs root indexed 0
    ⟨List.replicate vrfs.length none, List.replicate vrfs.length none, []⟩
  let results ← allSome pb.results
  pure (⟨results, pb.elements⟩, pb.commitments)

/-! ### prefix.go: mutation -/

/-- prefix.go:316-330: drop a parent that is left with at most one leaf below it. -/
def collapse (l r : Node) : Node :=
  match l, r with
  | .leaf v c, .empty => .leaf v c
  | .empty, .leaf v c => .leaf v c
  | .empty, .empty => .empty
  | l, r => .parent l r none none

/-- prefix.go:258-335 `addRemoveEntries`.  The fuel bounds the recursion depth. -/
def addRemoveEntries (cs : Suite) : Nat → Node → List Entry → List Bytes → Nat → G Node
  | 0, _, _, _, _ => .error .diverge
  | fuel + 1, n, add, remove, depth =>
    if add.length = 0 ∧ remove.length = 0 then
      match n with
      | .parent _ _ _ id =>
        match id with
        | some i => pure (.ext (n.hash cs) i)
        | none => goPanic "nil pointer dereference"
      | _ => pure n
    else
      match n with
      | .empty =>
        match add with
        | [] => pure .empty
        | [e] => pure (.leaf e.vrf e.com)
        | _ => addRemoveEntries cs fuel (.parent .empty .empty none none) add [] depth
      | .leaf v c =>
        if v ∈ remove then
          if add.length > 0 then addRemoveEntries cs fuel .empty add [] depth else pure .empty
        else if add.length > 0 then do
          let b ← getBit v depth
          if b then addRemoveEntries cs fuel (.parent .empty (.leaf v c) none none) add [] depth
          else addRemoveEntries cs fuel (.parent (.leaf v c) .empty none none) add [] depth
        else pure (.leaf v c)
      | .parent l r _ _ => do
        let (la, ra) ← splitBit Entry.vrf add depth
        let (lr, rr) ← splitBit id remove depth
        let l ← addRemoveEntries cs fuel l la lr (depth + 1)
        let r ← addRemoveEntries cs fuel r ra rr (depth + 1)
        pure (collapse l r)
      | .ext _ _ => goPanic "unexpected node type found"

/-- Fuel for `addRemoveEntries` from the root: at most four calls per bit of a VRF output.  (Beyond the
last bit `getBit` panics.) -/
def mutationFuel (cs : Suite) : Nat := 4 * (8 * cs.hashSize) + 4

/-! ### nodes.go: encoding of tiles -/

/-- `Marshal` of a node: nodes.go:81-88, 101-103, 138-142, 176-181 -/
def Node.marshal (cs : Suite) : Node → Nat → Bytes
  | .empty, _ => [0]
  | .leaf v c, _ => 1 :: (v ++ c)
  | .parent l r h id, depth =>
    2 :: ((if shouldStoreIntermediate depth then (Node.parent l r h id).hash cs else []) ++
      (l.marshal cs (depth + 1) ++ r.marshal cs (depth + 1)))
  | .ext h id, _ => 3 :: (h ++ (encodeUvarint id.ver ++ encodeUvarint id.ctr))

/-- nodes.go:183-220 `unmarshalNode`: the node and the unread bytes.  Every call consumes a byte, so the
fuel is the number of bytes left plus one. -/
def unmarshalNode (cs : Suite) (id : TileId) : Nat → Nat → Bytes → G (Node × Bytes)
  | 0, _, _ => .error .diverge
  | fuel + 1, depth, buf => do
    let (b, buf) ← readByte buf
    if b = 2 then do
      let (hash, buf) ←
        if shouldStoreIntermediate depth then do
          let (h, buf) ← readFull cs.hashSize buf
          pure (some h, buf)
        else pure (none, buf)
      let (l, buf) ← unmarshalNode cs id fuel (depth + 1) buf
      let (r, buf) ← unmarshalNode cs id fuel (depth + 1) buf
      pure (.parent l r hash (some id), buf)
    else if b = 0 then pure (.empty, buf)
    else if b = 1 then do
      let (v, buf) ← readFull cs.hashSize buf
      let (c, buf) ← readFull cs.hashSize buf
      pure (.leaf v c, buf)
    else if b = 3 then do
      let (h, buf) ← readFull cs.hashSize buf
      let (ver, buf) ← readUvarint buf
      let (ctr, buf) ← readUvarint buf
      pure (.ext h ⟨ver, ctr⟩, buf)
    else goErr "read unexpected byte"

/-- nodes.go:231-235 `tile` -/
structure Tile where
  id : TileId
  depth : Nat
  root : Node
  deriving DecidableEq, Repr

/-- nodes.go:237-247 `tile.Marshal` -/
def Tile.marshal (cs : Suite) (t : Tile) : G Bytes :=
  if t.depth > 255 then goErr "depth is too large to marshal"
  else pure (UInt8.ofNat t.depth :: t.root.marshal cs t.depth)

/-- nodes.go:249-266 `unmarshalTile` -/
def unmarshalTile (cs : Suite) (id : TileId) (raw : Bytes) : G Tile := do
  let (d, buf) ← readByte raw
  let (root, rest) ← unmarshalNode cs id (buf.length + 1) d.toNat buf
  if rest.length ≠ 0 then goErr "unexpected data left over after decoding tile"
  else pure ⟨id, d.toNat, root⟩

/-- Hexadecimal digits of `fmt.Sprintf("%x", n)` -/
def hexDigits (n : Nat) : List Char := Nat.toDigits 16 n

/-- nodes.go:227-229 `tileId.String`, the database key of a tile -/
def TileId.key (id : TileId) : List Char := hexDigits id.ver ++ ':' :: hexDigits id.ctr

/-! ### nodes.go: splitting a tree into tiles -/

/-- The node at a path (bits from the root) -/
def Node.at : Node → List Bool → Option Node
  | n, [] => some n
  | .parent l _ _ _, false :: p => l.at p
  | .parent _ r _ _, true :: p => r.at p
  | _, _ :: _ => none

/-- `*ptr = m` for a pointer to the node at a path -/
def Node.put : Node → List Bool → Node → Node
  | _, [], m => m
  | .parent l r h id, false :: p, m => .parent (l.put p m) r h id
  | .parent l r h id, true :: p, m => .parent l (r.put p m) h id
  | n, _ :: _, _ => n

/-- number of nodes -/
def Node.size : Node → Nat
  | .parent l r _ _ => l.size + r.size + 1
  | _ => 1

/-- nodes.go:291-319, the loop of `makeTile`.  The queue holds paths below the tile's root instead of
pointers, `depth` is the depth of the tile's root.  The weight of `p` is part of `weight`, so the
subtraction does not truncate. -/
def makeTileLoop (cs : Suite) (ver ctrOffset depth : Nat) :
    Nat → List (List Bool) → Nat → List (Node × Nat) → Node → G (Node × List (Node × Nat))
  | _, [], _, ejected, root => pure (root, ejected)
  | 0, _ :: _, _, _, _ => .error .diverge
  | fuel + 1, q :: queue, weight, ejected, root =>
    match root.at q with
    | none => goPanic "dangling pointer"
    | some (.parent l r h id) =>
      let newWeight := weight + 1 + l.weight cs + r.weight cs +
        (if shouldStoreIntermediate (depth + q.length) then cs.hashSize else 0) -
        (Node.parent l r h id).weight cs
      if newWeight ≤ maxTileWeight then
        makeTileLoop cs ver ctrOffset depth fuel (queue ++ [q ++ [false], q ++ [true]]) newWeight ejected root
      else
        let ejected := ejected ++ [(.parent l r h id, depth + q.length)]
        makeTileLoop cs ver ctrOffset depth fuel queue weight ejected
          (root.put q (.ext ((Node.parent l r h id).hash cs) ⟨ver, ctrOffset + ejected.length⟩))
    | some _ => makeTileLoop cs ver ctrOffset depth fuel queue weight ejected root

/-- nodes.go:281-322 `makeTile`: the tile's root and the ejected nodes with their depths -/
def makeTile (cs : Suite) (ver ctrOffset : Nat) (root : Node) (depth : Nat) : G (Node × List (Node × Nat)) :=
  makeTileLoop cs ver ctrOffset depth root.size [[]] (root.weight cs) [] root

/-- nodes.go:330-342, the loop of `splitIntoTiles` -/
def splitLoop (cs : Suite) (ver : Nat) : Nat → List (Node × Nat) → List Tile → G (List Tile)
  | _, [], out => pure out
  | 0, _ :: _, _ => .error .diverge
  | fuel + 1, (nd, depth) :: queue, out => do
    let (root, ejected) ← makeTile cs ver (out.length + queue.length) nd depth
    splitLoop cs ver fuel (queue ++ ejected) (out ++ [⟨⟨ver, out.length⟩, depth, root⟩])

/-- nodes.go:326-345 `splitIntoTiles` -/
def splitIntoTiles (cs : Suite) (ver : Nat) (root : Node) : G (List Tile) :=
  splitLoop cs ver root.size [(root, 0)] []

/-! ### batch.go: reading back -/

/-- Contents of the `db.PrefixStore`, newest write first. -/
abbrev Store := List (TileId × Bytes)

/-- batch.go:157-170: walk down inside a tile until the cursor's depth is reached.  `k` is the number of
steps, `depth` the depth of `n`. -/
def walkTile (v : Bytes) : Nat → Node → Nat → G Node
  | 0, n, _ => pure n
  | k + 1, .parent l r _ _, depth => do
    let b ← getBit v depth
    walkTile v k (if b then r else l) (depth + 1)
  | _ + 1, _, _ => goErr "unexpected node found in search path"

/-- batch.go:85-123 `get` for one tile -/
def getTile (cs : Suite) (st : Store) (id : TileId) : G Tile :=
  match st.lookup id with
  | none => goErr "not all expected data was found"
  | some raw => unmarshalTile cs id raw

/-- batch.go:27-48 `step`, one bit of a search for several VRF outputs -/
def splitVrfs (vrfs : List Bytes) (depth : Nat) : G (List Bytes × List Bytes) := do
  let bits ← vrfs.mapM (fun v => getBit v depth)
  pure (((vrfs.zip bits).filter (fun p => !p.2)).map Prod.fst, ((vrfs.zip bits).filter (fun p => p.2)).map Prod.fst)

/-- batch.go:27-48 `step`, 129-179 `search`: replace every external node on the path of one of `vrfs` by
the node it refers to.  The fuel bounds the length of a path, two steps per bit. -/
def expand (cs : Suite) (st : Store) : Nat → Node → List Bytes → Nat → G Node
  | 0, _, _, _ => .error .diverge
  | fuel + 1, n, vrfs, depth =>
    match vrfs with
    | [] => pure n
    | v :: vs =>
      match n with
      | .empty => pure .empty
      | .leaf w c => pure (.leaf w c)
      | .parent l r h id => do
        let (a, b) ← splitVrfs (v :: vs) depth
        let l ← expand cs st fuel l a (depth + 1)
        let r ← expand cs st fuel r b (depth + 1)
        pure (.parent l r h id)
      | .ext _ id => do
        let t ← getTile cs st id
        let m ← walkTile v (depth - t.depth) t.root t.depth
        expand cs st fuel m (v :: vs) depth

/-- batch.go:64-81 `initialize` and :129 `search` for one version of the tree -/
def loadVersion (cs : Suite) (st : Store) (ver : Nat) (vrfs : List Bytes) : G Node :=
  expand cs st (2 * (8 * cs.hashSize) + 3) (.ext [] ⟨ver, 0⟩) vrfs 0

/-- prefix.go:18-21 `PrefixSearch` -/
structure Search where
  version : Nat
  vrfs : List Bytes
  deriving DecidableEq, Repr

/-- prefix.go:42-53: check the searches -/
def checkSearches (cs : Suite) : List Search → G Unit
  | [] => pure ()
  | s :: rest =>
    if s.version = 0 then goErr "unable to search in version 0 of the tree"
    else if ¬ s.vrfs.all (fun v => v.length == cs.hashSize) then goErr "unexpected vrf output length"
    else checkSearches cs rest

/-- prefix.go:61-70: one search; the tree of a version is loaded for the requests of all searches of that
version (`combined`, :42-53). -/
def searchOne (cs : Suite) (st : Store) (all : List Search) (s : Search) : G (Proof × List (Option Bytes)) := do
  let combined := (all.filter (fun t => t.version == s.version)).flatMap Search.vrfs
  let root ← loadVersion cs st s.version combined
  runProofBuilder cs root s.vrfs

/-- prefix.go:41-71 `Tree.Search` -/
def search (cs : Suite) (st : Store) (searches : List Search) : G (List (Proof × List (Option Bytes))) := do
  checkSearches cs searches
  searches.mapM (searchOne cs st searches)

/-! ### prefix.go: Mutate -/

/-- prefix.go:90-98 (and verify.go:104-112 with `allowNil`): lengths and duplicates in a sorted list of
entries, in the order of the loop. -/
def checkEntries (cs : Suite) (allowNil : Bool) (dup : String) : Option Bytes → List Entry → G Unit
  | _, [] => pure ()
  | prev, e :: rest =>
    if e.vrf.length ≠ cs.hashSize then goErr "unexpected vrf output length"
    else if ¬ (allowNil ∧ e.com = []) ∧ e.com.length ≠ cs.hashSize then goErr "unexpected commitment length"
    else if prev = some e.vrf then goErr dup
    else checkEntries cs allowNil dup (some e.vrf) rest

/-- prefix.go:104-110: lengths and duplicates in the sorted list of removals -/
def checkRemoves (cs : Suite) : Option Bytes → List Bytes → G Unit
  | _, [] => pure ()
  | prev, v :: rest =>
    if v.length ≠ cs.hashSize then goErr "unexpected vrf output length"
    else if prev = some v then goErr "unable to remove the same vrf output multiple times"
    else checkRemoves cs (some v) rest

/-- prefix.go:161-177: an added VRF output must be absent or removed by the same call. -/
def checkAdds (remove : List Bytes) : List Entry → List (Option Bytes) → G Unit
  | [], _ => pure ()
  | _ :: _, [] => goPanic "slice bounds out of range"
  | _ :: es, none :: cs => checkAdds remove es cs
  | e :: es, some _ :: cs =>
    if e.vrf ∈ remove then checkAdds remove es cs else goErr "can not insert same vrf output twice"

/-- prefix.go:178-182: every removed VRF output must be present.  Returns the removed commitments. -/
def checkPresent : List (Option Bytes) → G (List Bytes)
  | [] => pure []
  | none :: _ => goErr "can not remove vrf output that does not exist"
  | some c :: cs => do
    let rest ← checkPresent cs
    pure (c :: rest)

/-- prefix.go:137-185 `getMutationRoot` -/
def getMutationRoot (cs : Suite) (st : Store) (ver : Nat) (add : List Entry) (remove : List Bytes) :
    G (Node × Proof × List Bytes) := do
  let vrfs := add.map Entry.vrf ++ remove
  if ver = 0 then
    if remove.length > 0 then goErr "can not remove vrf output that does not exist"
    else do
      let (proof, _) ← runProofBuilder cs .empty vrfs
      pure (.empty, proof, [])
  else do
    let root ← loadVersion cs st ver vrfs
    let (proof, commitments) ← runProofBuilder cs root vrfs
    checkAdds remove add (commitments.take add.length)
    let removed ← checkPresent (commitments.drop add.length)
    pure (root, proof, removed)

/-- prefix.go:122-130: marshal and write the tiles -/
def putTiles (cs : Suite) : List Tile → Store → G Store
  | [], st => pure st
  | t :: ts, st => do
    let raw ← t.marshal cs
    putTiles cs ts ((t.id, raw) :: st)

/-- result of `Tree.Mutate` -/
structure MutateResult where
  root : Bytes
  proof : Proof
  removed : List Bytes
  store : Store
  deriving DecidableEq, Repr

/-- prefix.go:85-133 `Tree.Mutate` -/
def mutate (cs : Suite) (st : Store) (ver : Nat) (add : List Entry) (remove : List Bytes) : G MutateResult := do
  let sortedAdd := sortBy Entry.vrf add
  checkEntries cs false "unable to insert same vrf output multiple times" none sortedAdd
  let sortedRemove := sortBy id remove
  checkRemoves cs none sortedRemove
  let (root, proof, removed) ← getMutationRoot cs st ver add remove
  let root ← addRemoveEntries cs (mutationFuel cs) root sortedAdd sortedRemove 0
  let tiles ← splitIntoTiles cs (ver + 1) root
  let st ← putTiles cs tiles st
  pure ⟨root.hash cs, proof, removed, st⟩

/-! ### verify.go -/

/-- verify.go:12-23 `terminalNode` -/
def terminalNode (e : Entry) : Res → Node
  | .inclusion _ => .leaf e.vrf e.com
  | .nonInclusionLeaf v c _ => .leaf v c
  | .nonInclusionParent _ => .empty

/-- the zero value of `externalNode` -/
def blank : Node := .ext [] ⟨0, 0⟩

/-- verify.go:27-67 `addToSkeleton` with the current depth.  Every second step at least goes one level
down, and an external node is only expanded above the depth of the result; the fuel is twice that depth
plus twice the size of the tree (the walk ends at a leaf or an external node). -/
def addToSkeletonAux (e : Entry) (res : Res) : Nat → Node → Nat → G Node
  | 0, _, _ => .error .diverge
  | fuel + 1, n, depth =>
    match n with
    | .empty => if res.depth ≠ depth ∨ res.isInclusion then goErr "malformed proof" else pure .empty
    | .leaf v c =>
      if res.depth ≠ depth ∨ res.isInclusion ≠ (e.vrf == v) then goErr "malformed proof" else pure (.leaf v c)
    | .parent l r h id => do
      let b ← getBit e.vrf depth
      if b then do
        let r ← addToSkeletonAux e res fuel r (depth + 1)
        pure (.parent l r h id)
      else do
        let l ← addToSkeletonAux e res fuel l (depth + 1)
        pure (.parent l r h id)
    | .ext _ _ =>
      if depth > res.depth then goErr "current depth is greater than result depth"
      else if depth = res.depth then pure (terminalNode e res)
      else addToSkeletonAux e res fuel (.parent blank blank none none) depth

/-- verify.go:27-67 `addToSkeleton` -/
def addToSkeleton (n : Node) (e : Entry) (res : Res) : G Node :=
  addToSkeletonAux e res (2 * res.depth + 2 * n.size + 2) n 0

/-- verify.go:71-98 `fillInCopath` -/
def fillInCopath : Node → List Bytes → G (Node × List Bytes)
  | .empty, es => pure (.empty, es)
  | .leaf v c, es => pure (.leaf v c, es)
  | .parent l r h id, es => do
    let (l, es) ← fillInCopath l es
    let (r, es) ← fillInCopath r es
    pure (.parent l r h id, es)
  | .ext _ _, [] => goErr "wrong number of copath nodes provided"
  | .ext _ _, e :: es => pure (.ext e ⟨0, 0⟩, es)

/-- verify.go:117-122: add all entries -/
def addAll : Node → List Entry → List Res → G Node
  | n, [], _ => pure n
  | _, _ :: _, [] => goPanic "index out of range"
  | n, e :: es, r :: rs => do
    let n ← addToSkeleton n e r
    addAll n es rs

/-- verify.go:100-131 `evaluate` -/
def evaluate (cs : Suite) (entries : List Entry) (proof : Proof) : G Node := do
  checkEntries cs true "same vrf output present multiple times" none (sortBy Entry.vrf entries)
  if entries.length ≠ proof.results.length then
    goErr "number of entries searched for does not match number of results"
  else do
    let root ← addAll blank entries proof.results
    let (root, rest) ← fillInCopath root proof.elements
    if rest.length ≠ 0 then goErr "wrong number of copath nodes provided"
    else pure root

/-- verify.go:134-140 `Evaluate` -/
def evaluateRoot (cs : Suite) (entries : List Entry) (proof : Proof) : G Bytes := do
  let root ← evaluate cs entries proof
  pure (root.hash cs)

/-- verify.go:143-151 `Verify` -/
def verify (cs : Suite) (entries : List Entry) (proof : Proof) (root : Bytes) : G Unit := do
  let cand ← evaluateRoot cs entries proof
  if root ≠ cand then goErr "root hash does not match expected value" else pure ()

/-- verify.go:155-184 `EvaluateBeforeAfter` -/
def evaluateBeforeAfter (cs : Suite) (add remove : List Entry) (proof : Proof) : G (Bytes × Bytes) := do
  let root ← evaluate cs (add ++ remove) proof
  let before := root.hash cs
  let root := root.cacheHashes cs
  let sortedAdd := sortBy Entry.vrf add
  let sortedRemove := sortBy id (remove.map Entry.vrf)
  let root ← addRemoveEntries cs (mutationFuel cs) root sortedAdd sortedRemove 0
  pure (before, root.hash cs)

end Katie.Prefix
