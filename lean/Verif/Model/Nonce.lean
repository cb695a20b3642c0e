import Verif.Model.VRF
import Verif.Model.Commitment

/-
Model of the derivation of nonces: /repo/crypto/vrf/p256/p256.go `generateNonce`, `mac`, and
/repo/crypto/vrf/edwards25519/edwards25519.go `generateNonce`.  SHA-256 and SHA-512 are arbitrary functions.

In Verif/Model/VRF.lean the nonce is an arbitrary function of the same two arguments (`Curve.nonce`), so what is proved
there holds for this one wherever it returns.
-/

namespace Katie.VRF
open Katie

namespace P256

/-- p256.go:52-56 `mac`; the keys have 32 bytes -/
def mac (H : Bytes → Bytes) (key message : Bytes) : Bytes := Commit.hmac H key message

/-- p256.go:97-111, the loop of `generateNonce` -/
def nonceLoop (H : Bytes → Bytes) (q : Nat) : Nat → Bytes → Bytes → G Bytes
  | 0, _, _ => goPanic "nonce generation failed unexpectedly"
  | fuel + 1, K, V =>
    let V := mac H K V
    if getBE V ≠ 0 ∧ getBE V < q then pure V
    else
      let K := mac H K (V ++ [0x00])
      let V := mac H K V
      nonceLoop H q fuel K V

/-- p256.go:58-114 `generateNonce` -/
def generateNonce (H : Bytes → Bytes) (q : Nat) (priv hStr : Bytes) : G Bytes :=
  let h1 := H hStr
  let V := List.replicate 32 0x01
  let K := List.replicate 32 0x00
  let K := mac H K (V ++ [0x00] ++ priv ++ h1)
  let V := mac H K V
  let K := mac H K (V ++ [0x01] ++ priv ++ h1)
  let V := mac H K V
  nonceLoop H q 256 K V

end P256

namespace Ed

/-- edwards25519.go:48-57 `generateNonce`; `SetUniformBytes` reads 64 bytes, least significant first, modulo the order -/
def generateNonce (H : Bytes → Bytes) (q : Nat) (lower hStr : Bytes) : G Nat :=
  let kStr := H (lower ++ hStr)
  if kStr.length ≠ 64 then goPanic "edwards25519: invalid SetUniformBytes input length"
  else pure (getLE kStr % q)

end Ed

end Katie.VRF
