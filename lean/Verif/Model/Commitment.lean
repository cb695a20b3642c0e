import Verif.Model.Structs

/-
Model of /repo/crypto/commitments/commitments.go, including HMAC (RFC 2104, Go's crypto/hmac) with the 64-byte
block size of SHA-256 and the fixed key of the cipher suites (suites/kt_sha256_*.go).
-/

namespace Katie.Commit
open Katie

/-- crypto/hmac: the key xored with a byte and padded to the block size (the key is at most 64 bytes long) -/
def padKey (key : Bytes) (p : UInt8) : Bytes := (key ++ List.replicate (64 - key.length) 0).map (· ^^^ p)

/-- crypto/hmac -/
def hmac (H : Bytes → Bytes) (key message : Bytes) : Bytes :=
  H (padKey key 0x5c ++ H (padKey key 0x36 ++ message))

/-- suites/kt_sha256_p256.go:28-33, kt_sha256_ed25519.go:28-33 `CommitmentFixedBytes` -/
def fixedBytes : Bytes :=
  [0xd8, 0x21, 0xf8, 0x79, 0x0d, 0x97, 0x70, 0x97, 0x96, 0xb4, 0xd7, 0x90, 0x33, 0x57, 0xc3, 0xf5]

/-- commitments.go:19-24 `Commit` -/
def commit (cs : Log.Suite) (opening body : Bytes) : Bytes := hmac cs.H fixedBytes (opening ++ body)

/-- commitments.go:28-31 `Verify` -/
def verify (cs : Log.Suite) (opening body commitment : Bytes) : Bool := commitment == commit cs opening body

end Katie.Commit
