import Verif.Model.Uvarint

/-
Model of /repo/tree/transparency/structs/structs.go: the primitives from which all encodings are built.

A writer returns the bytes it appends to the buffer; a reader takes the unread part of the buffer and
returns the value and what is still unread.  The element count of a slice is read before its elements, so the
loops are structural recursions on the count.  A nil slice and an empty slice are both `[]`; pointers and byte
slices for which the code distinguishes nil are `Option`.
-/

namespace Katie

/-- A reader of a `*bytes.Buffer` -/
def Rd (α : Type) := Bytes → G (α × Bytes)

instance : Monad Rd where
  pure a := fun buf => .ok (a, buf)
  bind r f := fun buf =>
    match r buf with
    | .ok (a, rest) => f a rest
    | .error e => .error e

/-- `return nil, errors.New(msg)` while reading -/
def Rd.err {α : Type} (msg : String) : Rd α := fun _ => goErr msg

/-- write one thing after the other -/
def wSeq (a b : G Bytes) : G Bytes :=
  match a with
  | .ok x =>
    match b with
    | .ok y => .ok (x ++ y)
    | .error e => .error e
  | .error e => .error e

@[inherit_doc] infixr:60 " +> " => wSeq

/-- The `k` low-order bytes of `n`, most significant first (`binary.BigEndian`) -/
def putBE : Nat → Nat → Bytes
  | 0, _ => []
  | k + 1, n => UInt8.ofNat (n / 256 ^ k % 256) :: putBE k n

/-- the number with the given big-endian bytes -/
def getBE (b : Bytes) : Nat := b.foldl (fun acc x => acc * 256 + x.toNat) 0

/-- `writeNumeric` of an unsigned type of `k` bytes, structs.go:38-40 -/
def wNum (k n : Nat) : G Bytes := .ok (putBE k n)

/-- `readNumeric` of an unsigned type of `k` bytes, structs.go:30-36 -/
def rNum (k : Nat) : Rd Nat := fun buf =>
  if buf.length < k then goErr "EOF" else .ok (getBE (buf.take k), buf.drop k)

/-- `writeNumeric[int]`, structs.go:38-40: `binary.Write` does not support `int`, returns an error that is
ignored, and writes nothing. -/
def wInt (_ : Int) : G Bytes := .ok []

/-- `readNumeric[int]`, structs.go:30-36: `binary.Read` does not support `int`. -/
def rInt : Rd Int := Rd.err "binary.Read: invalid type *int"

/-- `readOptional`, structs.go:42-50 -/
def rOptional : Rd Bool := fun buf =>
  match buf with
  | [] => goErr "EOF"
  | b :: rest =>
    if b ≠ 0 ∧ b ≠ 1 then goErr "read unexpected value in optional" else .ok (b == 1, rest)

/-- `writeOptional`, structs.go:52-59 (the result tells the caller whether to write the value) -/
def wOptional (present : Bool) : G Bytes := .ok (if present then [1] else [0])

/-- `readOptional` followed by the value if present: structs.go:61-75, client.go:148-156, 185-193,
crypto.go:144-152 -/
def rOpt {α : Type} (r : Rd α) : Rd (Option α) := do
  let present ← rOptional
  if present then do
    let a ← r
    pure (some a)
  else pure none

/-- `if writeOptional(buf, val != nil) { … }`: structs.go:77-81, client.go:167-169, crypto.go:159-161 -/
def wOpt {α : Type} (w : α → G Bytes) : Option α → G Bytes
  | none => wOptional false
  | some a => wOptional true +> w a

/-- `io.ReadFull` of `n` bytes -/
def rFull (n : Nat) : Rd Bytes := readFull n

/-- `buf.Write(b)` -/
def wRaw (b : Bytes) : G Bytes := .ok b

/-- `readBytes` with a length field of `k` bytes, structs.go:89-99 -/
def rBytes (k : Nat) : Rd Bytes := do
  let size ← rNum k
  rFull size

/-- `writeBytes` with a length field of `k` bytes, structs.go:101-108 -/
def wBytes (k : Nat) (name : String) (b : Bytes) : G Bytes :=
  if b.length > 256 ^ k - 1 then goErr (name ++ " is too long to marshal")
  else wNum k b.length +> wRaw b

/-- a loop reading `n` elements -/
def rLoop {α : Type} (r : Rd α) : Nat → Rd (List α)
  | 0 => pure []
  | n + 1 => do
    let a ← r
    let as ← rLoop r n
    pure (a :: as)

/-- a loop writing the elements -/
def wLoop {α : Type} (w : α → G Bytes) : List α → G Bytes
  | [] => .ok []
  | a :: as => w a +> wLoop w as

/-- `readByteSlice` (structs.go:110-124), `readNumericSlice` (:137-151), `readFuncSlice` (:168-185): a count
of `k` bytes and the elements -/
def rSlice {α : Type} (k : Nat) (r : Rd α) : Rd (List α) := do
  let size ← rNum k
  rLoop r size

/-- `writeByteSlice` (structs.go:126-135), `writeNumericSlice` (:153-166), `writeFuncSlice` (:187-203),
`writeMarshalSlice` (:205-219) -/
def wSlice {α : Type} (k : Nat) (name : String) (w : α → G Bytes) (l : List α) : G Bytes :=
  if l.length > 256 ^ k - 1 then goErr (name ++ " list is too long to marshal")
  else wNum k l.length +> wLoop w l

end Katie
