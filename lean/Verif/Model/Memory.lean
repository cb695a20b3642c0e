import Verif.Model.DB

/-
Model of /repo/db/memory/memory.go (the in-memory implementation of `db.TransparencyStore`, on which the tests run), and of
the methods of `ldbTransparencyStore`, `ldbLogStore` and `ldbPrefixStore` in /repo/db/leveldb.go, both as implementations of
the interface of /repo/db/db.go.

A clone of the in-memory store is another struct with the same maps; the maps are kept in `Maps`, the fields of a struct in
`Heads`.  `ReadOnly` is never read and `Lookups` is only for tests; both are left out.
-/

namespace Katie.DB
open Katie

/-- the methods of db.go:6-51; `BatchGet` of the log, of the log tree and of the prefix tree are `getEntries`, `getChunks` and
`getTiles`, and so on -/
inductive Call where
  | getTreeHead
  | putTreeHead (raw : Option Bytes)
  | putAuditorTreeHead (raw : Option Bytes)
  | getIndexes (labels : List Bytes)
  | putIndex (label : Bytes) (data : Option Bytes)
  | deleteIndex (label : Bytes)
  | getVersion (label : Bytes) (ver : Nat)
  | putVersion (label : Bytes) (ver : Nat) (data : Option Bytes)
  | deleteVersion (label : Bytes) (ver : Nat)
  | getEntries (keys : List Nat)
  | putEntry (key : Nat) (data : Option Bytes)
  | deleteEntry (key : Nat)
  | getChunks (keys : List Nat)
  | putChunk (key : Nat) (data : Option Bytes)
  | deleteChunk (key : Nat)
  | getTiles (keys : List Key)
  | putTile (key : Key) (data : Option Bytes)
  | deleteTile (key : Key)
  | commit

/-- what a method returns; a map is the list of its pairs, in the order of the keys asked for -/
inductive Reply where
  | done
  | failed
  | panicked
  | heads (treeHead auditor : Option Bytes)
  | raws (l : List (Option Bytes))
  | raw (r : Option Bytes)
  | numbered (l : List (Nat × Bytes))
  | named (l : List (Key × Bytes))
  deriving DecidableEq

/-- the pairs of the map returned by `BatchGet` -/
def found {κ : Type} (get : κ → Option Bytes) (keys : List κ) : List (κ × Bytes) :=
  keys.filterMap (fun k => (get k).map (fun v => (k, v)))

/-! ### memory.go -/

/-- memory.go:22-27: what the clones share -/
structure Maps where
  indices : Key → Option Bytes := fun _ => none
  versions : Key → Option Bytes := fun _ => none
  entries : Nat → Option Bytes := fun _ => none
  chunks : Nat → Option Bytes := fun _ => none
  tiles : Key → Option Bytes := fun _ => none

/-- memory.go:21: what every clone has for itself -/
structure Heads where
  treeHead : Option Bytes := none
  auditor : Option Bytes := none
  deriving DecidableEq

/-- an assignment to an element of a map, or a `delete` -/
def assign {κ : Type} [DecidableEq κ] (m : κ → Option Bytes) (k : κ) (v : Option Bytes) : κ → Option Bytes :=
  fun k' => if k' = k then v else m k'

/-- memory.go:96, 103, 108: the key of a version -/
def memVersionKey (label : Bytes) (ver : Nat) : Key := hexBytes label ++ ':' :: decimal ver

/-- memory.go:60-137, 147-170, 181-205 -/
def memCall (c : Call) (m : Maps) (h : Heads) : Reply × Maps × Heads :=
  match c with
  | .getTreeHead => (.heads h.treeHead h.auditor, m, h)
  | .putTreeHead raw => (.done, m, { h with treeHead := raw })
  | .putAuditorTreeHead raw => (.done, m, { h with auditor := raw })
  | .getIndexes labels => (.raws (labels.map (fun l => m.indices (hexBytes l))), m, h)
  | .putIndex _ none => (.failed, m, h)
  | .putIndex l (some d) => (.done, { m with indices := assign m.indices (hexBytes l) (some d) }, h)
  | .deleteIndex l => (.done, { m with indices := assign m.indices (hexBytes l) none }, h)
  | .getVersion l v => (.raw (m.versions (memVersionKey l v)), m, h)
  | .putVersion _ _ none => (.failed, m, h)
  | .putVersion l v (some d) => (.done, { m with versions := assign m.versions (memVersionKey l v) (some d) }, h)
  | .deleteVersion l v => (.done, { m with versions := assign m.versions (memVersionKey l v) none }, h)
  | .getEntries ks => (.numbered (found m.entries ks), m, h)
  | .putEntry _ none => (.failed, m, h)
  | .putEntry k (some d) => (.done, { m with entries := assign m.entries k (some d) }, h)
  | .deleteEntry k => (.done, { m with entries := assign m.entries k none }, h)
  | .getChunks ks => (.numbered (found m.chunks ks), m, h)
  | .putChunk _ none => (.failed, m, h)
  | .putChunk k (some d) => (.done, { m with chunks := assign m.chunks k (some d) }, h)
  | .deleteChunk k => (.done, { m with chunks := assign m.chunks k none }, h)
  | .getTiles ks => (.named (found m.tiles ks), m, h)
  | .putTile _ none => (.failed, m, h)
  | .putTile k (some d) => (.done, { m with tiles := assign m.tiles k (some d) }, h)
  | .deleteTile k => (.done, { m with tiles := assign m.tiles k none }, h)
  | .commit => (.done, m, h)

/-! ### leveldb.go -/

/-- a write of the connection, as the last statement of a method: leveldb.go:43-48 -/
def Conn.write (c : Conn) (key : Key) (v : Option Bytes) : Reply × Conn :=
  match c.put key v with
  | .ok c' => (.done, c')
  | .error _ => (.panicked, c)

/-- leveldb.go:97-283 -/
def ldbCall (o : Call) (c : Conn) : Reply × Conn :=
  match o with
  | .getTreeHead =>
    match c.get treeHeadKey with
    | none => (.heads none none, c)
    | some th => (.heads (some th) (c.get auditorKey), c)
  | .putTreeHead raw => c.write treeHeadKey raw
  | .putAuditorTreeHead raw => c.write auditorKey raw
  | .getIndexes labels => (.raws (labels.map (fun l => c.get (indexKey l))), c)
  | .putIndex _ none => (.failed, c)
  | .putIndex l (some d) => c.write (indexKey l) (some d)
  | .deleteIndex l => c.write (indexKey l) none
  | .getVersion l v => (.raw (c.get (versionKey l v)), c)
  | .putVersion _ _ none => (.failed, c)
  | .putVersion l v (some d) => c.write (versionKey l v) (some d)
  | .deleteVersion l v => c.write (versionKey l v) none
  | .getEntries ks => (.numbered (found (fun k => c.get (entryKey k)) ks), c)
  | .putEntry _ none => (.failed, c)
  | .putEntry k (some d) => c.write (entryKey k) (some d)
  | .deleteEntry k => c.write (entryKey k) none
  | .getChunks ks => (.numbered (found (fun k => c.get (chunkKey k)) ks), c)
  | .putChunk _ none => (.failed, c)
  | .putChunk k (some d) => c.write (chunkKey k) (some d)
  | .deleteChunk k => c.write (chunkKey k) none
  | .getTiles ks => (.named (found (fun k => c.get ('p' :: k)) ks), c)
  | .putTile _ none => (.failed, c)
  | .putTile k (some d) => c.write ('p' :: k) (some d)
  | .deleteTile k => c.write ('p' :: k) none
  | .commit =>
    match c.commit with
    | .ok c' => (.done, c')
    | .error _ => (.panicked, c)

/-! ### stores and their clones -/

/-- the in-memory store and its clones -/
structure MemWorld where
  maps : Maps := {}
  handles : List Heads := [{}]

/-- a LevelDB database, and its connections: whether they are read-only, and their batches -/
structure LdbWorld where
  db : KV := fun _ => none
  handles : List (Bool × List (Key × Option Bytes)) := [(false, [])]

/-- one call on the store number `i`, or a clone of it (memory.go:45-58, leveldb.go:95-97) -/
inductive Step where
  | call (i : Nat) (c : Call)
  | clone (i : Nat)

/-- one step of the in-memory store; `none` as reply if there is no such store -/
def MemWorld.step (w : MemWorld) : Step → Option Reply × MemWorld
  | .call i c =>
    match w.handles[i]? with
    | none => (none, w)
    | some h => (some (memCall c w.maps h).1, ⟨(memCall c w.maps h).2.1, w.handles.set i (memCall c w.maps h).2.2⟩)
  | .clone i =>
    match w.handles[i]? with
    | none => (none, w)
    | some h => (some .done, ⟨w.maps, w.handles ++ [h]⟩)

/-- one step of the LevelDB store -/
def LdbWorld.step (w : LdbWorld) : Step → Option Reply × LdbWorld
  | .call i c =>
    match w.handles[i]? with
    | none => (none, w)
    | some (ro, b) =>
      (some (ldbCall c ⟨w.db, ro, b⟩).1,
        ⟨(ldbCall c ⟨w.db, ro, b⟩).2.db, w.handles.set i ((ldbCall c ⟨w.db, ro, b⟩).2.readonly, (ldbCall c ⟨w.db, ro, b⟩).2.batch)⟩)
  | .clone i =>
    match w.handles[i]? with
    | none => (none, w)
    | some _ => (some .done, ⟨w.db, w.handles ++ [(true, [])]⟩)

/-- the replies to a sequence of steps -/
def MemWorld.replies : MemWorld → List Step → List (Option Reply)
  | _, [] => []
  | w, s :: ss => (w.step s).1 :: (w.step s).2.replies ss

/-- the replies to a sequence of steps -/
def LdbWorld.replies : LdbWorld → List Step → List (Option Reply)
  | _, [] => []
  | w, s :: ss => (w.step s).1 :: (w.step s).2.replies ss

end Katie.DB
