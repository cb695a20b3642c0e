import Verif.Model.Codec
import Mathlib.Algebra.Group.Defs

/-
Model of /repo/crypto/vrf/p256/p256.go and /repo/crypto/vrf/edwards25519/edwards25519.go.

The curve is an arbitrary commutative group with an encoding of its points; SHA-2 and the nonce derivation are arbitrary
functions; the derivation itself is in Verif/Model/Nonce.lean.  Everything else - layout of the proof, scalars, order of the hashed
points, range checks - follows the code.  What is assumed about the group and the encoding is stated in
Verif/Spec/VRF.lean.
-/

namespace Katie.VRF
open Katie

/-- the number with the given little-endian bytes -/
def getLE (b : Bytes) : Nat := getBE b.reverse
/-- the `k` low-order bytes, least significant first -/
def putLE (k n : Nat) : Bytes := (putBE k n).reverse

/-- what the two implementations take from `nistec`, `edwards25519` and `crypto/sha...` -/
structure Curve (P : Type) where
  /-- order of the base point -/
  q : Nat
  /-- base point -/
  B : P
  /-- `BytesCompressed` / `Bytes` -/
  enc : P → Bytes
  /-- `SetBytes` -/
  dec : Bytes → Option P
  /-- `sha256.Sum256` / `sha512.Sum512` -/
  sha : Bytes → Bytes
  /-- `generateNonce`, as a number -/
  nonce : Bytes → Bytes → Nat

variable {P : Type} [AddCommGroup P]

/-! ### P-256 -/

namespace P256
variable (E : Curve P)

/-- p256.go:18-50, the loop of `encodeToCurve` at `counter` with `fuel` attempts left -/
def encodeLoop (salt m : Bytes) : Nat → Nat → G P
  | 0, _ => goPanic "encode to curve failed unexpectedly"
  | fuel + 1, counter =>
    match E.dec (0x02 :: E.sha ([0x01, 0x01] ++ salt ++ m ++ [UInt8.ofNat counter, 0x00])) with
    | some p => pure p
    | none => encodeLoop salt m fuel (counter + 1)

/-- p256.go:18-50 `encodeToCurve` -/
def encodeToCurve (salt m : Bytes) : G P := encodeLoop E salt m 256 0

/-- p256.go:115-131 `generateChallenge` -/
def challenge (p1 p2 p3 p4 p5 : P) : Bytes :=
  (E.sha ([0x01, 0x02] ++ E.enc p1 ++ E.enc p2 ++ E.enc p3 ++ E.enc p4 ++ E.enc p5 ++ [0x00])).take 16

/-- p256.go:134-143 `proofToHash` -/
def proofToHash (gamma : Bytes) : Bytes := E.sha ([0x01, 0x03] ++ gamma ++ [0x00])

/-- p256.go:145-148 `PrivateKey` -/
structure PrivateKey (P : Type) where
  scalar : Bytes
  point : P

/-- p256.go:162-180 `NewPrivateKey` -/
def newPrivateKey (raw : Bytes) : G (PrivateKey P) :=
  if raw.length ≠ 32 then goErr "vrf private key is unexpected length"
  else if getBE raw = 0 ∨ getBE raw ≥ E.q then goErr "vrf private key is malformed"
  else pure ⟨raw, getBE raw • E.B⟩

/-- `copy(dst[a:b], src)` into zeroes -/
def fit (n : Nat) (b : Bytes) : Bytes := b.take n ++ List.replicate (n - b.length) 0

/-- p256.go:182-218 `Prove` -/
def prove (key : PrivateKey P) (m : Bytes) : G (Bytes × Bytes) := do
  let H ← encodeToCurve E (E.enc key.point) m
  let Gamma := getBE key.scalar • H
  let k := E.nonce key.scalar (E.enc H)
  let c := challenge E key.point H Gamma (k • E.B) (k • H)
  let s := (getBE c * getBE key.scalar + k) % E.q
  let gamma := fit 33 (E.enc Gamma)
  pure (proofToHash E gamma, gamma ++ fit 16 c ++ putBE 32 s)

/-- p256.go:242-296 `verify`, with the decoded point passed on -/
def verify (point : P) (m proof : Bytes) : G Unit :=
  if proof.length ≠ 33 + 16 + 32 then goErr "vrf proof is invalid size"
  else
    match E.dec (proof.take 33) with
    | none => goErr "invalid point"
    | some Gamma =>
      let c := (proof.drop 33).take 16
      let s := proof.drop 49
      if getBE s = 0 ∨ getBE s ≥ E.q then goErr "vrf proof is malformed"
      else do
        let H ← encodeToCurve E (E.enc point) m
        let U := getBE s • E.B - getBE c • point
        let V := getBE s • H - getBE c • Gamma
        if c ≠ challenge E point H Gamma U V then goErr "vrf proof verification failed"
        else pure ()

/-- p256.go:298-305 `Verify` -/
def verifyOutput (point : P) (m proof : Bytes) : G Bytes := do
  verify E point m proof
  pure (proofToHash E (proof.take 33))

end P256

/-! ### edwards25519 -/

namespace Ed
variable (E : Curve P)

/-- edwards25519.go:17-46, the loop of `encodeToCurve` -/
def encodeLoop (salt m : Bytes) : Nat → Nat → G P
  | 0, _ => goPanic "encode to curve failed unexpectedly"
  | fuel + 1, counter =>
    match E.dec ((E.sha ([0x03, 0x01] ++ salt ++ m ++ [UInt8.ofNat counter, 0x00])).take 32) with
    | some p => pure (8 • p)
    | none => encodeLoop salt m fuel (counter + 1)

/-- edwards25519.go:17-46 `encodeToCurve` -/
def encodeToCurve (salt m : Bytes) : G P := encodeLoop E salt m 256 0

/-- edwards25519.go:62-79 `generateChallenge`: the first 16 bytes of the hash and 16 zeroes -/
def challenge (p1 p2 p3 p4 p5 : P) : Bytes :=
  (E.sha ([0x03, 0x02] ++ E.enc p1 ++ E.enc p2 ++ E.enc p3 ++ E.enc p4 ++ E.enc p5 ++ [0x00])).take 16 ++
    List.replicate 16 0

/-- edwards25519.go:82-92 `proofToHash` -/
def proofToHash (Gamma : P) : Bytes := (E.sha ([0x03, 0x03] ++ E.enc (8 • Gamma) ++ [0x00])).take 32

/-- edwards25519.go:94-98 `PrivateKey`: the scalar is a number below the group order -/
structure PrivateKey (P : Type) where
  scalar : Nat
  point : P
  upper : Bytes

/-- edwards25519.go:106-119 `NewPrivateKey`; `clamp` is `SetBytesWithClamping` -/
def newPrivateKey (clamp : Bytes → Nat) (raw : Bytes) : G (PrivateKey P) :=
  if raw.length ≠ 32 then goErr "vrf private key is unexpected length"
  else
    let h := E.sha raw
    let scalar := clamp (h.take 32) % E.q
    pure ⟨scalar, scalar • E.B, h.drop 32⟩

/-- `SetCanonicalBytes` -/
def canonical (b : Bytes) : G Nat := if getLE b < E.q then pure (getLE b) else goErr "invalid scalar encoding"

/-- edwards25519.go:121-148 `Prove` -/
def prove (key : PrivateKey P) (m : Bytes) : G (Bytes × Bytes) := do
  let H ← encodeToCurve E (E.enc key.point) m
  let Gamma := key.scalar • H
  let k := E.nonce key.upper (E.enc H)
  let c := challenge E key.point H Gamma (k • E.B) (k • H)
  if getLE c < E.q then
    let s := (getLE c * key.scalar + k) % E.q
    pure (proofToHash E Gamma, P256.fit 32 (E.enc Gamma) ++ c.take 16 ++ putLE 32 s)
  else goPanic "invalid scalar encoding"

/-- edwards25519.go:158-173 `NewPublicKey` -/
def newPublicKey [DecidableEq P] (raw : Bytes) : G P :=
  match E.dec raw with
  | none => goErr "invalid point"
  | some p => if 8 • p = 0 then goErr "public key is malformed" else pure p

/-- edwards25519.go:175-217 `Verify` -/
def verify (point : P) (m proof : Bytes) : G Bytes :=
  if proof.length ≠ 32 + 16 + 32 then goErr "vrf proof is invalid size"
  else
    match E.dec (proof.take 32) with
    | none => goErr "invalid point"
    | some Gamma => do
      let cBytes := (proof.drop 32).take 16 ++ List.replicate 16 0
      let c ← canonical E cBytes
      let s ← canonical E (proof.drop 48)
      let H ← encodeToCurve E (E.enc point) m
      let U := s • E.B - c • point
      let V := s • H - c • Gamma
      if cBytes ≠ challenge E point H Gamma U V then goErr "vrf proof verification failed"
      else pure (proofToHash E Gamma)

end Ed
end Katie.VRF
