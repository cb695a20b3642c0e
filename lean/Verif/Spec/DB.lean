import Verif.Model.DB

/-
Specification side of the database properties: records, and what a writer and its readers should see.
-/

namespace Katie.DBSpec
open Katie

/-- everything the server stores -/
inductive Record where
  | treeHead
  | auditorTreeHead
  | index (label : Bytes)
  | version (label : Bytes) (ver : Nat)
  | logEntry (pos : Nat)
  | logChunk (id : Nat)
  | prefixTile (id : Prefix.TileId)

/-- under which key it is stored -/
def Record.key : Record → DB.Key
  | .treeHead => DB.treeHeadKey
  | .auditorTreeHead => DB.auditorKey
  | .index l => DB.indexKey l
  | .version l v => DB.versionKey l v
  | .logEntry p => DB.entryKey p
  | .logChunk i => DB.chunkKey i
  | .prefixTile i => DB.tileKey i

/-- what a writer of the database does -/
inductive Op where
  | put (key : DB.Key) (value : Option Bytes)
  | commit

/-- What is visible: to everybody, and to the writer.  No batches, no caches. -/
structure Views where
  everybody : DB.Key → Option Bytes
  writer : DB.Key → Option Bytes

def Views.step (v : Views) : Op → Views
  | .put key value => { v with writer := fun k => if k = key then value else v.writer k }
  | .commit => { v with everybody := v.writer }

/-- the writer of the implementation -/
def perform (c : DB.Conn) : List Op → G DB.Conn
  | [] => pure c
  | .put key value :: ops => do
    let c ← c.put key value
    perform c ops
  | .commit :: ops => do
    let c ← c.commit
    perform c ops

end Katie.DBSpec
