import Verif.Model.Structs

/-
How much memory the decoders of /repo/tree/transparency/structs and /repo/tree/prefix/proof.go reserve.

The decoders of `Verif.Model.Structs`, once more, with a count of the bytes asked for by `make([]T, n)` (the length
`n` times the size of `T` on a 64-bit machine).  `make` comes before the elements are read, so what it asks for
depends on the length field only.  Not counted: objects of a fixed size per structure read (`new`, `&T{…}`), of
which there is at most one per byte consumed, and the buffers inside encoding/binary.
`C90_counts_the_decoders` says that apart from the count these are the decoders of `Verif.Model.Structs`.
-/

namespace Katie.Wire
open Katie

/-- A reader that counts the bytes it has reserved when it ends -/
def Mr (α : Type) := Bytes → G (α × Bytes) × Nat

instance : Monad Mr where
  pure a := fun buf => (.ok (a, buf), 0)
  bind m f := fun buf =>
    match m buf with
    | (.ok (a, rest), n) => ((f a rest).1, n + (f a rest).2)
    | (.error e, n) => (.error e, n)

/-- `make` of `n` bytes -/
def reserve (n : Nat) : Mr Unit := fun buf => (.ok ((), buf), n)

/-- a reader that reserves nothing -/
def Mr.of {α : Type} (r : Rd α) : Mr α := fun buf => (r buf, 0)

/-- `x := make([]byte, n)` and `io.ReadFull(buf, x)` -/
def mFull (n : Nat) : Mr Bytes := do
  reserve n
  .of (rFull n)

/-- structs.go:89-99 -/
def mBytes (k : Nat) : Mr Bytes := do
  let size ← Mr.of (rNum k)
  mFull size

/-- structs.go:61-75, client.go:148-156, crypto.go:144-152 -/
def mOpt {α : Type} (r : Mr α) : Mr (Option α) := do
  let present ← Mr.of rOptional
  if present then do
    let a ← r
    pure (some a)
  else pure none

/-- the loop of `readByteSlice`, `readNumericSlice`, `readFuncSlice` -/
def mLoop {α : Type} (r : Mr α) : Nat → Mr (List α)
  | 0 => pure []
  | n + 1 => do
    let a ← r
    let as ← mLoop r n
    pure (a :: as)

/-- structs.go:110-124, 137-151, 168-185, proof.go:25-37, 39-50: the size of an element is `w` -/
def mSlice {α : Type} (k w : Nat) (r : Mr α) : Mr (List α) := do
  let size ← Mr.of (rNum k)
  reserve (w * size)
  mLoop r size

/-- a slice header -/
def sliceSize : Nat := 24

/-- tree_head.go:13-23 -/
def mTreeHead : Mr TreeHead := do
  let treeSize ← Mr.of (rNum 8)
  let signature ← mBytes 2
  pure ⟨treeSize, signature⟩

/-- tree_head.go:51-65 -/
def mAuditorTreeHead : Mr AuditorTreeHead := do
  let timestamp ← Mr.of (rNum 8)
  let treeSize ← Mr.of (rNum 8)
  let signature ← mBytes 2
  pure ⟨timestamp, treeSize, signature⟩

/-- tree_head.go:102-130 -/
def mFullTreeHead (c : Config) : Mr FullTreeHead := do
  let headType ← Mr.of (rNum 1)
  if headType = 1 then pure ⟨none, none⟩
  else if headType = 2 then do
    let th ← mTreeHead
    if c.mode = thirdPartyAuditing then do
      let a ← mAuditorTreeHead
      pure ⟨some th, some a⟩
    else pure ⟨some th, none⟩
  else Mr.of (Rd.err "unexpected head type read")

/-- proof.go:122-171 -/
def mRes (sz : Sizes) : Mr Prefix.Res := do
  let t ← Mr.of (rNum 1)
  if t = 1 then do
    let d ← Mr.of (rNum 1)
    pure (.inclusion d)
  else if t = 2 then do
    let v ← mFull sz.hash
    let c ← mFull sz.hash
    let d ← Mr.of (rNum 1)
    pure (.nonInclusionLeaf v c d)
  else if t = 3 then do
    let d ← Mr.of (rNum 1)
    pure (.nonInclusionParent d)
  else Mr.of (Rd.err "invalid prefix search result type read")

/-- proof.go:24-52; a result is an interface (two words) -/
def mPrefixProof (sz : Sizes) : Mr Prefix.Proof := do
  let results ← mSlice 1 16 (mRes sz)
  let elements ← mSlice 2 sliceSize (mFull sz.hash)
  pure ⟨results, elements⟩

/-- proofs.go:34-54, 14-20; a prefix proof is two slices -/
def mCombinedTreeProof (sz : Sizes) : Mr CombinedTreeProof := do
  let timestamps ← mSlice 1 8 (Mr.of (rNum 8))
  let proofs ← mSlice 1 (2 * sliceSize) (mPrefixProof sz)
  let roots ← mSlice 1 sliceSize (mFull sz.hash)
  let inclusion ← mSlice 2 sliceSize (mFull sz.hash)
  pure ⟨timestamps, proofs, roots, inclusion⟩

/-- crypto.go:14-23 -/
def mUpdateSuffix (c : Config) : Mr (Option Bytes) :=
  if c.mode ≠ thirdPartyManagement then pure none
  else do
    let s ← mBytes 2
    pure (some s)

/-- crypto.go:37-47 -/
def mUpdateValue (c : Config) : Mr UpdateValue := do
  let value ← mBytes 4
  let suffix ← mUpdateSuffix c
  pure ⟨value, suffix⟩

/-- crypto.go:138-155 -/
def mBinaryLadderStep (sz : Sizes) : Mr BinaryLadderStep := do
  let proof ← mFull sz.vrfProof
  let commitment ← mOpt (mFull sz.hash)
  pure ⟨proof, commitment⟩

/-- crypto.go:191-197 -/
def mLabelValue : Mr Bytes := mBytes 4

/-- crypto.go:208-218 -/
def mUpdateInfo (c : Config) (sz : Sizes) : Mr UpdateInfo := do
  let opening ← mFull sz.opening
  let suffix ← mUpdateSuffix c
  pure ⟨opening, suffix⟩

/-- operations.go:15-29 -/
def mSearchRequest : Mr SearchRequest := do
  let last ← mOpt (Mr.of (rNum 8))
  let label ← mBytes 1
  let version ← mOpt (Mr.of (rNum 4))
  pure ⟨last, label, version⟩

/-- operations.go:51-90; a ladder step is two slices -/
def mSearchResponse (c : Config) (sz : Sizes) (req : SearchRequest) : Mr SearchResponse := do
  let fth ← mFullTreeHead c
  let version ← Mr.of (newRespVersion req)
  let opening ← mFull sz.opening
  let value ← mUpdateValue c
  let steps ← mSlice 1 (2 * sliceSize) (mBinaryLadderStep sz)
  let search ← mCombinedTreeProof sz
  pure ⟨fth, version, opening, value, steps, search⟩

/-- operations.go:116-126 -/
def mMonitorMapEntry : Mr MonitorMapEntry := do
  let position ← Mr.of (rNum 8)
  let version ← Mr.of (rNum 4)
  pure ⟨position, version⟩

/-- operations.go:141-155; a map entry takes 16 bytes -/
def mContactMonitorRequest : Mr ContactMonitorRequest := do
  let last ← mOpt (Mr.of (rNum 8))
  let label ← mBytes 1
  let entries ← mSlice 1 16 mMonitorMapEntry
  pure ⟨last, label, entries⟩

/-- operations.go:170-183, 318-331 -/
def mMonitorResponse (c : Config) (sz : Sizes) : Mr MonitorResponse := do
  let fth ← mFullTreeHead c
  let monitor ← mCombinedTreeProof sz
  pure ⟨fth, monitor⟩

/-- operations.go:199-213 -/
def mOwnerInitRequest : Mr OwnerInitRequest := do
  let last ← mOpt (Mr.of (rNum 8))
  let label ← mBytes 1
  let start ← Mr.of (rNum 8)
  pure ⟨last, label, start⟩

/-- operations.go:232-255 -/
def mOwnerInitResponse (c : Config) (sz : Sizes) : Mr OwnerInitResponse := do
  let fth ← mFullTreeHead c
  let versions ← mSlice 1 4 (Mr.of (rNum 4))
  let steps ← mSlice 2 (2 * sliceSize) (mBinaryLadderStep sz)
  let init ← mCombinedTreeProof sz
  pure ⟨fth, versions, steps, init⟩

/-- operations.go:277-299 -/
def mOwnerMonitorRequest : Mr OwnerMonitorRequest := do
  let last ← mOpt (Mr.of (rNum 8))
  let label ← mBytes 1
  let entries ← mSlice 1 16 mMonitorMapEntry
  let start ← Mr.of (rNum 8)
  let greatestVersion ← mOpt (Mr.of (rNum 4))
  pure ⟨last, label, entries, start, greatestVersion⟩

/-- operations.go:348-366 -/
def mUpdateRequest : Mr UpdateRequest := do
  let last ← mOpt (Mr.of (rNum 8))
  let label ← mBytes 1
  let greatestVersion ← mOpt (Mr.of (rNum 4))
  let values ← mSlice 1 sliceSize mLabelValue
  pure ⟨last, label, greatestVersion, values⟩

/-- operations.go:386-410; an update value is two slices -/
def mManagerUpdateRequest (c : Config) : Mr ManagerUpdateRequest := do
  let last ← mOpt (Mr.of (rNum 8))
  let label ← mBytes 1
  let greatestVersion ← mOpt (Mr.of (rNum 4))
  let signedVersion ← Mr.of (rNum 4)
  let values ← mSlice 1 (2 * sliceSize) (mUpdateValue c)
  pure ⟨last, label, greatestVersion, signedVersion, values⟩

/-- operations.go:433-466 -/
def mUpdateResponse (c : Config) (sz : Sizes) : Mr UpdateResponse := do
  let fth ← mFullTreeHead c
  let position ← Mr.of (rNum 8)
  let values ← mSlice 1 sliceSize mLabelValue
  let info ← mSlice 1 (2 * sliceSize) (mUpdateInfo c sz)
  let ladder ← mSlice 1 (2 * sliceSize) (mBinaryLadderStep sz)
  let update ← mCombinedTreeProof sz
  pure ⟨fth, position, values, info, ladder, update⟩

/-- third_party.go:11-21 -/
def mPrefixEntry (sz : Sizes) : Mr Prefix.Entry := do
  let v ← mFull sz.hash
  let c ← mFull sz.hash
  pure ⟨v, c⟩

/-- third_party.go:35-62; an entry is two slices -/
def mAuditorUpdate (sz : Sizes) : Mr AuditorUpdate := do
  let timestamp ← Mr.of (rNum 8)
  let added ← mSlice 2 (2 * sliceSize) (mPrefixEntry sz)
  let removed ← mSlice 2 (2 * sliceSize) (mPrefixEntry sz)
  let proof ← mPrefixProof sz
  pure ⟨timestamp, added, removed, proof⟩

end Katie.Wire
