import Verif.Model.Prefix

/-
Model of /repo/db/leveldb.go (`ldbConn` and the keys of `ldbTransparencyStore`, `ldbLogStore`, `ldbPrefixStore`)
and of the label index encoding in /repo/tree/transparency/crypto.go.

LevelDB itself is a map from keys to values; a `Write` of a batch and a `Put` are atomic (the documented behaviour
of goleveldb).  Read errors other than "not found" do not occur in the model.  A nil slice is `none`.
-/

namespace Katie.DB
open Katie

abbrev Key := List Char

/-! ### keys -/

/-- `fmt.Sprintf("%x", b)` of a byte slice -/
def hexBytes : Bytes → List Char
  | [] => []
  | b :: l => Nat.digitChar (b.toNat / 16) :: Nat.digitChar (b.toNat % 16) :: hexBytes l

/-- `fmt.Sprint(n)` of an unsigned number -/
def decimal (n : Nat) : List Char := Nat.toDigits 10 n

/-- leveldb.go:10 -/
def treeHeadKey : Key := "tree-head".toList
/-- leveldb.go:102, 115 -/
def auditorKey : Key := "auditor-tree-head".toList
/-- leveldb.go:123, 139, 144 -/
def indexKey (label : Bytes) : Key := 'i' :: hexBytes label
/-- leveldb.go:149, 162, 167 -/
def versionKey (label : Bytes) (ver : Nat) : Key := 'v' :: (hexBytes label ++ ':' :: Prefix.hexDigits ver)
/-- leveldb.go:175, 191, 196 -/
def entryKey (pos : Nat) : Key := 't' :: decimal pos
/-- leveldb.go:221, 237, 242 -/
def chunkKey (id : Nat) : Key := 'l' :: decimal id
/-- leveldb.go:255, 271, 276, with the key of the tile (prefix/nodes.go) -/
def tileKey (id : Prefix.TileId) : Key := 'p' :: id.key

/-! ### ldbConn -/

/-- the contents of a LevelDB database -/
abbrev KV := Key → Option Bytes

/-- leveldb.go:23-27 `ldbConn`: the batch has at most one pair per key -/
structure Conn where
  db : KV
  readonly : Bool := false
  batch : List (Key × Option Bytes) := []

/-- leveldb.go:29-31 `newLDBConn` -/
def newConn (db : KV) (readonly : Bool) : Conn := { db := db, readonly := readonly }

/-- leveldb.go:33-41 `Get` (`none`: `leveldb.ErrNotFound`) -/
def Conn.get (c : Conn) (key : Key) : Option Bytes :=
  match c.batch.lookup key with
  | some value => value
  | none => c.db key

/-- leveldb.go:43-48 `Put` -/
def Conn.put (c : Conn) (key : Key) (value : Option Bytes) : G Conn :=
  if c.readonly then goPanic "connection is readonly"
  else pure { c with batch := (key, value) :: c.batch.filter (fun e => e.1 ≠ key) }

/-- leveldb.go:55-67: the atomic write of everything but the tree head -/
def writeBatch (batch : List (Key × Option Bytes)) (db : KV) : KV := fun k =>
  if k = treeHeadKey then db k
  else match batch.lookup k with
    | some value => value
    | none => db k

/-- leveldb.go:68-72: the write of the tree head (a nil value is stored as an empty one) -/
def writeHead (value : Option Bytes) (db : KV) : KV := fun k => if k = treeHeadKey then some (value.getD []) else db k

/-- the writes of leveldb.go:50-76 `Commit`, in order -/
def Conn.writes (c : Conn) : List (KV → KV) :=
  writeBatch c.batch ::
    (match c.batch.lookup treeHeadKey with
     | some value => [writeHead value]
     | none => [])

/-- the database when only the first `i` writes of `Commit` took place: a crash after them, or an error of the
write after them (`Commit` then returns, and the batch is kept) -/
def Conn.crash (c : Conn) (i : Nat) : KV := (c.writes.take i).foldl (fun db w => w db) c.db

/-- leveldb.go:50-76 `Commit` when no write fails -/
def Conn.commit (c : Conn) : G Conn :=
  if c.readonly then goPanic "connection is readonly"
  else pure { c with db := c.writes.foldl (fun db w => w db) c.db, batch := [] }

/-- leveldb.go:93-95 `Clone` -/
def Conn.clone (c : Conn) : Conn := newConn c.db true

/-! ### the index of a label (crypto.go) -/

/-- crypto.go:33-42: read uvarints until the end of the input (an end of input inside a number is an error) -/
def readIndexLoop : Nat → Bytes → G (List Nat)
  | 0, _ => .error .diverge
  | _ + 1, [] => pure []
  | fuel + 1, b :: rest => do
    let (pos, rest) ← readUvarint (b :: rest)
    let l ← readIndexLoop fuel rest
    pure (pos :: l)

/-- crypto.go:43-45: `index[i] += index[i-1]`, in 64 bits -/
def prefixSums (acc : Nat) : List Nat → List Nat
  | [] => []
  | d :: l => (d + acc) % 2 ^ 64 :: prefixSums ((d + acc) % 2 ^ 64) l

/-- crypto.go:18-51 `batchGetIndex` for one label: `raw` is what the database returned (nil, if there is none, is
the empty string here; both give an empty index). -/
def decodeIndex (raw : Bytes) : G (List Nat) := do
  let l ← readIndexLoop (raw.length + 1) raw
  match l with
  | [] => pure []
  | x :: l => pure (x :: prefixSums x l)

/-- crypto.go:56-62: differences, with the check that no element is smaller than the one before -/
def differences (prev : Nat) : List Nat → G (List Nat)
  | [] => pure []
  | x :: l =>
    if x < prev then goErr "list of label-version positions is not monotonic"
    else do
      let ds ← differences x l
      pure ((x - prev) :: ds)

/-- crypto.go:54-72 `putIndex`, up to the database write: the value to store.  The buffer's `Bytes()` is nil when
nothing was written to it. -/
def encodeIndex (index : List Nat) : G (Option Bytes) :=
  match index with
  | [] => pure none
  | x :: l => do
    let ds ← differences x l
    pure (some ((x :: ds).map encodeUvarint).flatten)

/-- leveldb.go:134-141 `PutIndex` -/
def putIndexRaw (c : Conn) (label : Bytes) (index : Option Bytes) : G Conn :=
  match index with
  | none => goErr "leveldb: can not store nil value"
  | some raw => c.put (indexKey label) (some raw)

/-- crypto.go:54-72 `putIndex` -/
def putIndex (c : Conn) (label : Bytes) (index : List Nat) : G Conn := do
  let raw ← encodeIndex index
  putIndexRaw c label raw

/-- crypto.go:18-51 `batchGetIndex` with leveldb.go:119-132 `BatchGetIndex`, for one label -/
def getIndex (c : Conn) (label : Bytes) : G (List Nat) := decodeIndex ((c.get (indexKey label)).getD [])

end Katie.DB
