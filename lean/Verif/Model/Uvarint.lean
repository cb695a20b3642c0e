import Verif.Model.Basic

/-
Go's `binary.PutUvarint` / `binary.ReadUvarint`, used by /repo/tree/prefix/nodes.go:29-33, 155-162,
/repo/tree/transparency/crypto.go and the LevelDB and auditor encodings.
-/

namespace Katie

/-- `binary.PutUvarint`: seven bits per byte, least significant first, top bit set on all but the last
byte.  At most ten bytes for a `uint64` (the fuel). -/
def uvarintAux : Nat → Nat → Bytes
  | 0, _ => []
  | f + 1, x =>
    if x < 128 then [UInt8.ofNat x] else UInt8.ofNat (x % 128 + 128) :: uvarintAux f (x / 128)

/-- prefix/nodes.go:29-33 `encodeUvarint` -/
def encodeUvarint (x : Nat) : Bytes := uvarintAux 10 x

/-- `binary.ReadUvarint` from the byte with index `10 - fuel` on: errors at the end of the input, on an
eleventh byte, and on a tenth byte above 1. -/
def readUvarintAux : Nat → Bytes → G (Nat × Bytes)
  | 0, _ => goErr "binary: varint overflows a 64-bit integer"
  | _ + 1, [] => goErr "EOF"
  | f + 1, b :: rest =>
    if b.toNat < 128 then
      if f = 0 ∧ b.toNat > 1 then goErr "binary: varint overflows a 64-bit integer"
      else pure (b.toNat, rest)
    else do
      let (x, rest') ← readUvarintAux f rest
      pure (b.toNat - 128 + 128 * x, rest')

/-- `binary.ReadUvarint`: the value and the unread bytes -/
def readUvarint (buf : Bytes) : G (Nat × Bytes) := readUvarintAux 10 buf

/-- `io.ReadFull` of `n` bytes: the bytes and the rest, or an error when there are fewer. -/
def readFull (n : Nat) (buf : Bytes) : G (Bytes × Bytes) :=
  if buf.length < n then goErr "unexpected EOF" else pure (buf.take n, buf.drop n)

/-- `buf.ReadByte()` -/
def readByte : Bytes → G (UInt8 × Bytes)
  | [] => goErr "EOF"
  | b :: rest => pure (b, rest)

end Katie
