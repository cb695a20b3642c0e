import Verif.Model.Suites
import Verif.Model.DB

/-
/repo/cmd/generate-keys/main.go: the program that prints fresh keys, and how its output is read (`encoding/hex`, the parsers of
/repo/crypto/suites).

`crypto/ecdsa` and `crypto/ed25519` are arbitrary functions.  Random strings are arguments.  The program prints to standard output
and `log.Fatal` ends it with a nonzero status; lines printed before that stay.
-/

namespace Katie.GenerateKeys
open Katie Katie.VRF Katie.Suites

/-- how a run of the program ends: status 0, a nonzero status, or not within the random strings given -/
inductive Outcome where
  | done
  | fatal
  | waiting
deriving DecidableEq

/-- what is printed, each line with the text before the key and the key, and how the run ends -/
structure Run where
  lines : List (String × List Char)
  outcome : Outcome
deriving DecidableEq

/-- `fmt.Printf(label+"%x\n", key)` -/
def line (label : String) (key : Bytes) : String × List Char := (label, DB.hexBytes key)

/-- what the program and the suite take from `crypto/ecdsa` for P-256; `K` are private keys, `Y` public keys -/
structure EcdsaKeys (K Y : Type) where
  /-- `ecdsa.GenerateKey` -/
  gen : Nat → Option K
  /-- `PrivateKey.Bytes` -/
  privBytes : K → Option Bytes
  /-- `PrivateKey.Public` -/
  pub : K → Y
  /-- `PublicKey.Bytes` -/
  pubBytes : Y → Option Bytes
  /-- `ecdsa.ParseRawPrivateKey`, which is `ParseSigningPrivateKey` (suites/kt_sha256_p256.go:35-41) -/
  parsePriv : Bytes → Option K
  /-- `ecdsa.ParseUncompressedPublicKey`, which is `ParseSigningPublicKey` (suites/kt_sha256_p256.go:43-49) -/
  parsePub : Bytes → Option Y

variable {P : Type} [AddCommGroup P]

/-- cmd/generate-keys/main.go:30-56 `generateP256` -/
def generateP256 {K Y : Type} (S : EcdsaKeys K Y) (E : Curve P) (rand : Nat) (draws : List Bytes) : Run :=
  match S.gen rand with
  | none => ⟨[], .fatal⟩
  | some sigKey =>
    match S.privBytes sigKey with
    | none => ⟨[], .fatal⟩
    | some sigKeyRaw =>
      let l1 := line "Signing Private Key: " sigKeyRaw
      match S.pubBytes (S.pub sigKey) with
      | none => ⟨[l1], .fatal⟩
      | some sigPublic =>
        let l2 := line "Signing Public Key:  " sigPublic
        match p256Generate E draws with
        | none => ⟨[l1, l2], .waiting⟩
        | some vrfKey =>
          let l3 := line "VRF Private Key:     " vrfKey
          match P256.newPrivateKey E vrfKey with
          | .error _ => ⟨[l1, l2, l3], .fatal⟩
          | .ok temp => ⟨[l1, l2, l3, line "VRF Public Key:      " (E.enc temp.point)], .done⟩

/-- cmd/generate-keys/main.go:58-76 `generateEd25519`; `none` if `rand.Read` fails -/
def generateEd25519 (S : Ed25519) (draw1 draw2 : Option Bytes) : Run :=
  match draw1 with
  | none => ⟨[], .fatal⟩
  | some sigKey =>
    let l1 := line "Signing Private Key: " sigKey
    let l2 := line "Signing Public Key:  " (S.pub sigKey)
    match draw2 with
    | none => ⟨[l1, l2], .fatal⟩
    | some vrfKey =>
      ⟨[l1, l2, line "VRF Private Key:     " vrfKey, line "VRF Public Key:      " (S.pub vrfKey)], .done⟩

/-- cmd/generate-keys/main.go:16-28 `main`; `arg` is `flag.Arg(0)`, empty if there is none -/
def main {K Y : Type} (S : EcdsaKeys K Y) (E : Curve P) (D : Ed25519) (arg : String) (rand : Nat) (draws : List Bytes)
    (draw1 draw2 : Option Bytes) : Run :=
  if arg = "p256" then generateP256 S E rand draws
  else if arg = "ed25519" then generateEd25519 D draw1 draw2
  else ⟨[], .fatal⟩

/-! ### reading the keys -/

/-- `fromHexChar` of `encoding/hex`: both cases of the letters are accepted -/
def fromHexChar (c : Char) : Option Nat :=
  if '0' ≤ c ∧ c ≤ '9' then some (c.toNat - '0'.toNat)
  else if 'a' ≤ c ∧ c ≤ 'f' then some (c.toNat - 'a'.toNat + 10)
  else if 'A' ≤ c ∧ c ≤ 'F' then some (c.toNat - 'A'.toNat + 10)
  else none

/-- `hex.DecodeString` -/
def hexDecode : List Char → Option Bytes
  | [] => some []
  | [_] => none
  | a :: b :: rest =>
    match fromHexChar a, fromHexChar b, hexDecode rest with
    | some x, some y, some l => some (UInt8.ofNat (16 * x + y) :: l)
    | _, _, _ => none

end Katie.GenerateKeys
