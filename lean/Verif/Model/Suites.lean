import Verif.Model.VRF

/-
Model of /repo/crypto/suites: keys and signatures of the two cipher suites.

ECDSA and Ed25519 themselves (`crypto/ecdsa`, `crypto/ed25519`) are arbitrary functions; what is modelled is how the
suites encode and decode what these functions take and return.
-/

namespace Katie.Suites
open Katie Katie.VRF

/-! ### P-256 -/

/-- number of bytes of `big.Int.Bytes` -/
def byteLen (n : Nat) : Nat := if n = 0 then 0 else Nat.log2 n / 8 + 1

/-- `big.Int.Bytes`: big-endian, without leading zeroes -/
def bigBytes (n : Nat) : Bytes := putBE (byteLen n) n

/-- `copy(dst[n-len(src):], src)` for `n ≤ len(dst)`: panics if `n < len(src)` -/
def copyBefore (dst : Bytes) (n : Nat) (src : Bytes) : G Bytes :=
  if n < src.length then goPanic "slice bounds out of range"
  else pure (dst.take (n - src.length) ++ src ++ dst.drop n)

/-- what suites/kt_sha256_p256.go takes from `crypto/ecdsa` and `crypto/sha256`; `K` are private keys, `Y` public keys.
The randomness of `ecdsa.Sign` is an argument. -/
structure Ecdsa (K Y : Type) where
  sha : Bytes → Bytes
  sign : Nat → K → Bytes → Option (Nat × Nat)
  verify : Y → Bytes → Nat → Nat → Bool

variable {K Y : Type}

/-- suites/kt_sha256_p256.go:64-78 `p256PrivateKey.Sign` -/
def p256Sign (E : Ecdsa K Y) (rand : Nat) (key : K) (message : Bytes) : G Bytes :=
  match E.sign rand key (E.sha message) with
  | none => goErr "ecdsa"
  | some (r, s) => do
    let sig := List.replicate 64 0
    let sig ← copyBefore sig 32 (bigBytes r)
    copyBefore sig 64 (bigBytes s)

/-- suites/kt_sha256_p256.go:90-101 `p256PublicKey.Verify` -/
def p256Verify (E : Ecdsa K Y) (key : Y) (message sig : Bytes) : Bool :=
  if sig.length ≠ 64 then false
  else E.verify key (E.sha message) (getBE (sig.take 32)) (getBE (sig.drop 32))

/-! ### Ed25519 -/

/-- what suites/kt_sha256_ed25519.go takes from `crypto/ed25519` -/
structure Ed25519 where
  /-- public key for a seed -/
  pub : Bytes → Bytes
  sign : Bytes → Bytes → Bytes
  verify : Bytes → Bytes → Bytes → Bool

/-- suites/kt_sha256_ed25519.go:33-38 `ParseSigningPrivateKey` (the key is represented by its seed) -/
def ed25519ParsePrivate (raw : Bytes) : G Bytes :=
  if raw.length ≠ 32 then goErr "encoding private key is unexpected size" else pure raw

/-- suites/kt_sha256_ed25519.go:40-45 `ParseSigningPublicKey` -/
def ed25519ParsePublic (raw : Bytes) : G Bytes :=
  if raw.length ≠ 32 then goErr "encoded public key is unexpected size" else pure raw

/-- suites/kt_sha256_ed25519.go:75-77 `Verify`; `ed25519.Verify` panics if the length of the key is wrong -/
def ed25519Verify (E : Ed25519) (key message sig : Bytes) : G Bool :=
  if key.length ≠ 32 then goPanic "ed25519: bad public key length"
  else pure (E.verify key message sig)

/-! ### VRF keys -/

variable {P : Type} [AddCommGroup P]

/-- p256.go:151-161 `GeneratePrivateKey`: the first acceptable string among those drawn -/
def p256Generate (E : Curve P) (draws : List Bytes) : Option Bytes :=
  draws.find? fun k => getBE k ≠ 0 ∧ getBE k < E.q

/-- p256.go:228-240 `NewPublicKey` -/
def p256NewPublicKey (E : Curve P) (raw : Bytes) : G P :=
  if raw.length = 1 then goErr "public key is malformed"
  else
    match E.dec raw with
    | none => goErr "invalid point"
    | some p => pure p

/-- `edwards25519.Scalar.SetBytesWithClamping`: clear the three lowest bits and the two highest, set the second-highest -/
def clamp (b : Bytes) : Nat := getLE b % 2 ^ 254 / 8 * 8 + 2 ^ 254

end Katie.Suites
