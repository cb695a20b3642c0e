import Verif.Model.Codec

/-
RFC 6979, section 3.2: deterministic generation of `k`, for a hash function with 32-byte output and a group order of 256
bits (so `qlen = hlen = 256` and one block of output is enough for a candidate), as prescribed for ECVRF-P256-SHA256-TAI
by RFC 9381, section 5.4.2.1.  HMAC is RFC 2104.
-/

namespace Katie.NonceSpec
open Katie

variable (H : Bytes → Bytes) (q : Nat)

/-- RFC 2104 with blocks of 64 bytes, for keys that are not longer: the two strings that are hashed, the inner one first -/
def hmacStrings (key message : Bytes) : Bytes × Bytes :=
  let pad (p : UInt8) := (key ++ List.replicate (64 - key.length) 0).map (· ^^^ p)
  (pad 0x36 ++ message, pad 0x5c ++ H (pad 0x36 ++ message))

def hmac (key message : Bytes) : Bytes := H (hmacStrings H key message).2

/-- RFC 6979, 2.3.3 -/
def int2octets (x : Nat) : Bytes := putBE 32 x
/-- RFC 6979, 2.3.2, for strings of 32 bytes -/
def bits2int (b : Bytes) : Nat := getBE b
/-- RFC 6979, 2.3.4 -/
def bits2octets (b : Bytes) : Bytes := int2octets (bits2int b % q)

/-- steps b to g: the pair of `K` and `V`; `x` is the key and `h` the hash of the message, as octets -/
def start (x h : Bytes) : Bytes × Bytes :=
  let V0 := List.replicate 32 0x01
  let K0 := List.replicate 32 0x00
  let K1 := hmac H K0 (V0 ++ [0x00] ++ x ++ h)
  let V1 := hmac H K1 V0
  let K2 := hmac H K1 (V1 ++ [0x01] ++ x ++ h)
  (K2, hmac H K2 V1)

/-- the pair of `K` and `V` at the beginning of step h, after `n` candidates have been refused -/
def state (x h : Bytes) : Nat → Bytes × Bytes
  | 0 => start H x h
  | n + 1 =>
    let (K, V) := state x h n
    let T := hmac H K V
    let K' := hmac H K (T ++ [0x00])
    (K', hmac H K' T)

/-- step h: the candidate number `n` -/
def candidate (x h : Bytes) (n : Nat) : Bytes := hmac H (state H x h n).1 (state H x h n).2

/-- step h.3 -/
def Acceptable (k : Bytes) : Prop := 1 ≤ bits2int k ∧ bits2int k ≤ q - 1

/-- `k` is the nonce: the first acceptable candidate -/
def IsNonce (x h k : Bytes) : Prop :=
  ∃ n, (∀ i < n, ¬ Acceptable q (candidate H x h i)) ∧ Acceptable q (candidate H x h n) ∧ k = candidate H x h n

/-- the strings that are hashed for one HMAC -/
def strings (c : Bytes × Bytes) : List Bytes := [(hmacStrings H c.1 c.2).1, (hmacStrings H c.1 c.2).2]

/-- all strings that are hashed until the candidate number `n` is computed -/
def hashed (x h : Bytes) (n : Nat) : List Bytes :=
  let V0 := List.replicate 32 0x01
  let K0 := List.replicate 32 0x00
  let K1 := hmac H K0 (V0 ++ [0x00] ++ x ++ h)
  let V1 := hmac H K1 V0
  let K2 := hmac H K1 (V1 ++ [0x01] ++ x ++ h)
  (([(K0, V0 ++ [0x00] ++ x ++ h), (K1, V0), (K1, V1 ++ [0x01] ++ x ++ h), (K2, V1)] ++
    (List.range n).flatMap (fun i => [((state H x h i).1, candidate H x h i ++ [0x00]),
      ((state H x h (i + 1)).1, candidate H x h i)]) ++
    (List.range (n + 1)).map (fun i => state H x h i))).flatMap (strings H)

end Katie.NonceSpec
