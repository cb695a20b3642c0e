import Verif.Model.Prefix
import Mathlib.Data.List.Dedup

/-
Model of /repo/tree/prefix/batch.go as it is: several searches at once, in rounds, on nodes that live in memory, are
shared by the tile cache and by the trees of several versions, and are overwritten through pointers.

`Verif.Model.Prefix` has the same search as one recursive descent (`expand`); `C91_…` says that both give the same
answers for every store that `Mutate` can have written.

* A `*parentNode` is the address of an object that was made when a tile was decoded; it is named by the tile and the path
  inside the tile.  Decoding a tile a second time would make a second set of objects with the same names: that is an
  explicit panic in `HBatch.decode` (and does not happen, since decoded tiles are cached).
* `parentNode.hash` and `parentNode.id` are set when the object is made and are not changed by batch.go.
* Go iterates over maps in any order: the order is a parameter (`MapOrder`).
-/

namespace Katie.Prefix
open Katie

/-- a value of type `node` -/
inductive HNode where
  | empty
  | leaf (vrf com : Bytes)
  | ptr (tile : TileId) (path : List Bool) (hash : Option Bytes)
  | ext (hash : Bytes) (id : TileId)
  deriving DecidableEq, Repr

/-- a value of type `*node`: the root of an output tile (batch.go:70-71, 79), a field `left` or `right` of the object at
`path.dropLast` (:37, :39, :162, :164), or the root of the copy `t` of a cached tile (:150, :157).  Every copy is a
variable of its own, which only one search ever points to and which is not read again after it is written; so it is
enough to know its value. -/
inductive Loc where
  | root (ver : Nat)
  | slot (tile : TileId) (path : List Bool)
  | copy (n : HNode)
  deriving DecidableEq, Repr

/-- batch.go:52-56 `batch`, and the memory; `asked` is what has been requested from the database -/
structure HBatch where
  roots : Nat → HNode := fun ver => .ext [] ⟨ver, 0⟩
  slots : TileId → List Bool → Option HNode := fun _ _ => none
  cache : TileId → Option (Nat × HNode) := fun _ => none
  asked : List (List TileId) := []

/-- `*p` -/
def HBatch.read (b : HBatch) : Loc → Option HNode
  | .root ver => some (b.roots ver)
  | .slot id q => b.slots id q
  | .copy n => some n

/-- `*p = x` -/
def HBatch.write (b : HBatch) (p : Loc) (x : HNode) : HBatch :=
  match p with
  | .root ver => { b with roots := fun v => if v = ver then x else b.roots v }
  | .slot id q => { b with slots := fun i r => if i = id ∧ r = q then some x else b.slots i r }
  | .copy _ => b

/-- `*p`, if `p` points to something -/
def HBatch.deref (b : HBatch) (p : Loc) : G HNode :=
  match b.read p with
  | some x => pure x
  | none => goPanic "dangling pointer"

/-- the value of a decoded node -/
def Node.shallow (id : TileId) (q : List Bool) : Node → HNode
  | .empty => .empty
  | .leaf v c => .leaf v c
  | .parent _ _ h _ => .ptr id q h
  | .ext h i => .ext h i

/-- batch.go:20-23 `cursor`, and the node that it is in the list of (:129) -/
structure Cursor where
  vrf : Bytes
  depth : Nat
  loc : Loc
  deriving DecidableEq, Repr

/-- batch.go:26-48 `step`: the tile to be loaded, the new depth and the node where the search ended.  Beyond the last bit
`getBit` panics, which bounds the number of iterations. -/
def HBatch.step (b : HBatch) (v : Bytes) : Nat → Nat → Loc → G (Option (TileId × Nat × Loc))
  | 0, _, _ => .error .diverge
  | fuel + 1, depth, p => do
    let x ← b.deref p
    match x with
    | .empty => pure none
    | .leaf _ _ => pure none
    | .ptr id q _ => do
      let bit ← getBit v depth
      b.step v fuel (depth + 1) (.slot id (q ++ [bit]))
    | .ext _ id => pure (some (id, depth, p))

/-- batch.go:130-137: the searches that need another tile -/
def HBatch.stepAll (b : HBatch) : List Cursor → G (List (Cursor × TileId))
  | [] => pure []
  | c :: cs => do
    let r ← b.step c.vrf (8 * c.vrf.length + 1) c.depth c.loc
    let rest ← b.stepAll cs
    match r with
    | none => pure rest
    | some (id, depth, p) => pure ((⟨c.vrf, depth, p⟩, id) :: rest)

/-- batch.go:117-121, nodes.go:249-266: decode a tile, keep it in the cache -/
def HBatch.decode (cs : Suite) (st : Store) (b : HBatch) (id : TileId) : G HBatch := do
  let t ← getTile cs st id
  if (b.cache id).isSome then goPanic "decoded twice"
  else pure { b with
    slots := fun i q => if i = id then (t.root.at q).map (Node.shallow id q) else b.slots i q
    cache := fun i => if i = id then some (t.depth, t.root.shallow id []) else b.cache i }

/-- batch.go:112-121 -/
def HBatch.decodeAll (cs : Suite) (st : Store) : HBatch → List TileId → G HBatch
  | b, [] => pure b
  | b, id :: ids => do
    let b ← b.decode cs st id
    HBatch.decodeAll cs st b ids

/-- batch.go:85-123 `get`; the tiles that it returns are the requested ones that are in the cache afterwards -/
def HBatch.get (cs : Suite) (st : Store) (b : HBatch) (ids : List TileId) : G HBatch :=
  if ids.any (fun id => (b.cache id).isSome) then pure b
  else HBatch.decodeAll cs st { b with asked := b.asked ++ [ids] } ids

/-- batch.go:157-169: down inside a tile, `k` times -/
def HBatch.walk (b : HBatch) (v : Bytes) : Nat → Loc → Nat → G Loc
  | 0, p, _ => pure p
  | k + 1, p, depth => do
    let x ← b.deref p
    match x with
    | .ptr id q _ => do
      let bit ← getBit v depth
      b.walk v k (.slot id (q ++ [bit])) (depth + 1)
    | _ => goErr "unexpected node found in search path"

/-- batch.go:149-176: one search -/
def HBatch.serve (b : HBatch) (c : Cursor) (id : TileId) : G (HBatch × Cursor) :=
  match b.cache id with
  | none => pure (b, c)
  | some (depth, root) => do
    let n ← b.walk c.vrf (c.depth - depth) (.copy root) depth
    let x ← b.deref n
    pure (b.write c.loc x, { c with loc := n })

/-- batch.go:148-176 -/
def HBatch.serveAll : HBatch → List (Cursor × TileId) → G (HBatch × List Cursor)
  | b, [] => pure (b, [])
  | b, (c, id) :: rest => do
    let (b, c) ← b.serve c id
    let (b, cs) ← HBatch.serveAll b rest
    pure (b, c :: cs)

/-- the order in which the maps are iterated over: `nextSteps` (batch.go:148) and `dedup` (:93, :112) -/
structure MapOrder where
  steps : Nat → List (Cursor × TileId) → List (Cursor × TileId)
  steps_perm : ∀ k l, (steps k l).Perm l
  keys : Nat → List TileId → List TileId
  keys_perm : ∀ k l, (keys k l).Perm l

/-- batch.go:129-179 `search`.  The fuel counts the rounds. -/
def HBatch.search (cs : Suite) (st : Store) (ord : MapOrder) : Nat → HBatch → List Cursor → G HBatch
  | 0, _, _ => .error .diverge
  | fuel + 1, b, cursors => do
    let pending ← b.stepAll cursors
    if pending = [] then pure b
    else do
      let b ← b.get cs st (ord.keys fuel (pending.map Prod.snd).dedup)
      let (b, cursors) ← HBatch.serveAll b (ord.steps fuel pending)
      HBatch.search cs st ord fuel b cursors

/-- the tree that a node is the root of, following pointers -/
def HBatch.tree (b : HBatch) : Nat → HNode → G Node
  | _, .empty => pure .empty
  | _, .leaf v c => pure (.leaf v c)
  | _, .ext h i => pure (.ext h i)
  | 0, .ptr _ _ _ => .error .diverge
  | fuel + 1, .ptr id q h => do
    let x ← b.deref (.slot id (q ++ [false]))
    let y ← b.deref (.slot id (q ++ [true]))
    let l ← b.tree fuel x
    let r ← b.tree fuel y
    pure (.parent l r h (some id))

/-- prefix.go:61-70: one search, on the tree that is in memory -/
def HBatch.answer (cs : Suite) (b : HBatch) (s : Search) : G (Proof × List (Option Bytes)) := do
  let root ← b.tree (8 * cs.hashSize + 1) (b.roots s.version)
  runProofBuilder cs root s.vrfs

/-- batch.go:64-81 `initialize`: every VRF output begins at the root of its version -/
def initialCursors (searches : List Search) : List Cursor :=
  searches.flatMap (fun s => s.vrfs.map (fun v => ⟨v, 0, .root s.version⟩))

/-- prefix.go:55-59: load what the searches need -/
def loadAll (cs : Suite) (st : Store) (ord : MapOrder) (searches : List Search) : G HBatch :=
  HBatch.search cs st ord ((initialCursors searches).length * (8 * cs.hashSize + 1) + 1) {} (initialCursors searches)

/-- prefix.go:41-71 `Tree.Search`, and what it has requested from the database -/
def batchSearch (cs : Suite) (st : Store) (ord : MapOrder) (searches : List Search) :
    G (List (Proof × List (Option Bytes)) × List (List TileId)) := do
  checkSearches cs searches
  let b ← loadAll cs st ord searches
  let out ← searches.mapM (b.answer cs)
  pure (out, b.asked)

/-- prefix.go:153-158: the tree of version `ver`, as far as it is needed for a mutation -/
def batchLoad (cs : Suite) (st : Store) (ord : MapOrder) (ver : Nat) (vrfs : List Bytes) : G (Node × List (List TileId)) := do
  let b ← loadAll cs st ord [⟨ver, vrfs⟩]
  let root ← b.tree (8 * cs.hashSize + 1) (b.roots ver)
  pure (root, b.asked)

/-- prefix.go:137-185 `getMutationRoot`, and what it has requested from the database -/
def batchMutationRoot (cs : Suite) (st : Store) (ord : MapOrder) (ver : Nat) (add : List Entry) (remove : List Bytes) :
    G ((Node × Proof × List Bytes) × List (List TileId)) := do
  let vrfs := add.map Entry.vrf ++ remove
  if ver = 0 then
    if remove.length > 0 then goErr "can not remove vrf output that does not exist"
    else do
      let (proof, _) ← runProofBuilder cs .empty vrfs
      pure ((.empty, proof, []), [])
  else do
    let (root, asked) ← batchLoad cs st ord ver vrfs
    let (proof, commitments) ← runProofBuilder cs root vrfs
    checkAdds remove add (commitments.take add.length)
    let removed ← checkPresent (commitments.drop add.length)
    pure ((root, proof, removed), asked)

/-- prefix.go:85-133 `Tree.Mutate`, and what it has requested from the database.  `addRemoveEntries` and
`splitIntoTiles` change the tree in place; it is read from memory as a value before, which makes no difference because no
object is in it twice (`C91_no_sharing`). -/
def batchMutate (cs : Suite) (st : Store) (ord : MapOrder) (ver : Nat) (add : List Entry) (remove : List Bytes) :
    G (MutateResult × List (List TileId)) := do
  let sortedAdd := sortBy Entry.vrf add
  checkEntries cs false "unable to insert same vrf output multiple times" none sortedAdd
  let sortedRemove := sortBy id remove
  checkRemoves cs none sortedRemove
  let ((root, proof, removed), asked) ← batchMutationRoot cs st ord ver add remove
  let root ← addRemoveEntries cs (mutationFuel cs) root sortedAdd sortedRemove 0
  let tiles ← splitIntoTiles cs (ver + 1) root
  let st ← putTiles cs tiles st
  pure (⟨root.hash cs, proof, removed, st⟩, asked)

end Katie.Prefix
