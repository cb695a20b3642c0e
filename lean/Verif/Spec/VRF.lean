import Verif.Model.VRF
import Mathlib.Data.Nat.Prime.Defs

/-
What the VRF theorems assume about the curves (P-256: a group of prime order; edwards25519: cofactor 8).
-/

namespace Katie.VRFSpec
open Katie Katie.VRF

variable {P : Type} [AddCommGroup P]

/-- P-256 and the compressed point encoding -/
structure P256Laws (E : Curve P) : Prop where
  prime : E.q.Prime
  big : 2 ^ 128 < E.q
  small : E.q < 2 ^ 256
  base : E.B ≠ 0
  /-- the group has prime order … -/
  order : ∀ p : P, E.q • p = 0
  /-- … and is generated by the base point -/
  generated : ∀ p : P, ∃ x : Nat, p = x • E.B
  dec_enc : ∀ p : P, p ≠ 0 → E.dec (E.enc p) = some p
  enc_length : ∀ p : P, p ≠ 0 → (E.enc p).length = 33
  /-- a 33-byte string is no encoding of the point at infinity, and the encoding is unique -/
  dec_nonzero : ∀ b p, b.length = 33 → E.dec b = some p → p ≠ 0 ∧ E.enc p = b
  sha_length : ∀ b, (E.sha b).length = 32

/-- edwards25519 -/
structure EdLaws (E : Curve P) : Prop where
  prime : E.q.Prime
  big : 2 ^ 128 < E.q
  small : E.q < 2 ^ 256
  base : E.B ≠ 0
  base_order : E.q • E.B = 0
  order : ∀ p : P, (8 * E.q) • p = 0
  generated : ∀ p : P, ∃ x : Nat, 8 • p = (8 * x) • E.B
  dec_enc : ∀ p : P, E.dec (E.enc p) = some p
  enc_length : ∀ p : P, (E.enc p).length = 32
  sha_length : ∀ b, (E.sha b).length = 64

/-- `(U, V)` and the claimed output point `Γ` for public key `Y` and hashed input `H` fit the challenge `c` -/
def Completes (E : Curve P) (Y H Γ U V : P) (c : Nat) : Prop :=
  ∃ s : Nat, s • E.B - c • Y = U ∧ s • H - c • Γ = V

/-- The challenge `c`, which is the hash of `(Y, H, Γ, U, V)`, is the only 128-bit number for which `(U, V)` can be
completed to a proof.  (It is determined by the hash's input: without luck 2^-128 per attempt the hash is something
else.) -/
def Guessed (E : Curve P) (Y H Γ U V : P) (c : Nat) : Prop :=
  Completes E Y H Γ U V c ∧ ∀ c' < 2 ^ 128, Completes E Y H Γ U V c' → c' = c

end Katie.VRFSpec
