import Verif.Model.Structs

/-
What a lossless encoding is, and which values of the model's records are values of the Go types (numbers in
range, fixed-size fields of the right size, pointers nil exactly when the mode says so).
-/

namespace Katie.Wire
open Katie

/-- Whatever is written can be read back, and exactly the written bytes are consumed. -/
def RoundTrips {α : Type} (P : α → Prop) (w : α → G Bytes) (r : Rd α) : Prop :=
  ∀ a b rest, P a → w a = .ok b → r (b ++ rest) = .ok (a, rest)

/-- Whatever is read has the given form and is written back as the same bytes: no value has two encodings. -/
def Canonical {α : Type} (P : α → Prop) (w : α → G Bytes) (r : Rd α) : Prop :=
  ∀ bs a rest, r bs = .ok (a, rest) → P a ∧ ∃ b, w a = .ok b ∧ bs = b ++ rest

/-- Both. -/
structure Codec {α : Type} (P : α → Prop) (w : α → G Bytes) (r : Rd α) : Prop where
  rt : RoundTrips P w r
  canon : Canonical P w r

/-- a number of `k` bytes -/
def Fits (k n : Nat) : Prop := n < 256 ^ k

/-- `P` of the value if there is one -/
def Maybe {α : Type} (P : α → Prop) (o : Option α) : Prop := ∀ a, o = some a → P a

/-- `P` of every element -/
def Each {α : Type} (P : α → Prop) (l : List α) : Prop := ∀ a ∈ l, P a

def TreeHead.Typed (t : TreeHead) : Prop := Fits 8 t.treeSize

def AuditorTreeHead.Typed (a : AuditorTreeHead) : Prop := Fits 8 a.timestamp ∧ Fits 8 a.treeSize

/-- An updated head carries an auditor's head exactly in third-party auditing mode; "same head" carries
nothing. -/
def FullTreeHead.Typed (c : Config) (f : FullTreeHead) : Prop :=
  Maybe TreeHead.Typed f.treeHead ∧ Maybe AuditorTreeHead.Typed f.auditor ∧
  (f.auditor.isSome ↔ f.treeHead.isSome ∧ c.mode = thirdPartyAuditing)

/-- depths of search results fit in a byte -/
def ResTyped (sz : Sizes) : Prefix.Res → Prop
  | .inclusion d => Fits 1 d
  | .nonInclusionLeaf v c d => v.length = sz.hash ∧ c.length = sz.hash ∧ Fits 1 d
  | .nonInclusionParent d => Fits 1 d

def ProofTyped (sz : Sizes) (p : Prefix.Proof) : Prop :=
  Each (ResTyped sz) p.results ∧ Each (fun e => e.length = sz.hash) p.elements

def CombinedTreeProof.Typed (sz : Sizes) (p : CombinedTreeProof) : Prop :=
  Each (Fits 8) p.timestamps ∧ Each (ProofTyped sz) p.prefixProofs ∧
  Each (fun e => e.length = sz.hash) p.prefixRoots ∧ Each (fun e => e.length = sz.hash) p.inclusion

/-- a signature exactly in third-party management mode -/
def SuffixTyped (c : Config) (s : Option Bytes) : Prop := s.isSome ↔ c.mode = thirdPartyManagement

def UpdateValue.Typed (c : Config) (u : UpdateValue) : Prop := SuffixTyped c u.signature

def LogEntry.Typed (hashSize : Nat) (e : LogEntry) : Prop := Fits 8 e.timestamp ∧ e.prefixTree.length = hashSize

def BinaryLadderStep.Typed (sz : Sizes) (s : BinaryLadderStep) : Prop :=
  s.proof.length = sz.vrfProof ∧ Maybe (fun c => c.length = sz.hash) s.commitment

def OpeningAndValue.Typed (c : Config) (sz : Sizes) (o : OpeningAndValue) : Prop :=
  o.opening.length = sz.opening ∧ o.value.Typed c

def UpdateInfo.Typed (c : Config) (sz : Sizes) (u : UpdateInfo) : Prop :=
  u.opening.length = sz.opening ∧ SuffixTyped c u.signature

def SearchRequest.Typed (r : SearchRequest) : Prop := Maybe (Fits 8) r.last ∧ Maybe (Fits 4) r.version

/-- The version is present exactly if the request did not name one. -/
def SearchResponse.Typed (c : Config) (sz : Sizes) (req : SearchRequest) (r : SearchResponse) : Prop :=
  r.fullTreeHead.Typed c ∧ (Maybe (Fits 4) r.version ∧ (r.version.isSome ↔ req.version = none)) ∧
  r.opening.length = sz.opening ∧ r.value.Typed c ∧ Each (BinaryLadderStep.Typed sz) r.binaryLadder ∧
  r.search.Typed sz

def MonitorMapEntry.Typed (e : MonitorMapEntry) : Prop := Fits 8 e.position ∧ Fits 4 e.version

def ContactMonitorRequest.Typed (r : ContactMonitorRequest) : Prop :=
  Maybe (Fits 8) r.last ∧ Each MonitorMapEntry.Typed r.entries

def MonitorResponse.Typed (c : Config) (sz : Sizes) (r : MonitorResponse) : Prop :=
  r.fullTreeHead.Typed c ∧ r.monitor.Typed sz

def OwnerInitRequest.Typed (r : OwnerInitRequest) : Prop := Maybe (Fits 8) r.last ∧ Fits 8 r.start

def OwnerInitResponse.Typed (c : Config) (sz : Sizes) (r : OwnerInitResponse) : Prop :=
  r.fullTreeHead.Typed c ∧ Each (Fits 4) r.greatestVersions ∧ Each (BinaryLadderStep.Typed sz) r.binaryLadder ∧
  r.init.Typed sz

def OwnerMonitorRequest.Typed (r : OwnerMonitorRequest) : Prop :=
  Maybe (Fits 8) r.last ∧ Each MonitorMapEntry.Typed r.entries ∧ Fits 8 r.start ∧ Maybe (Fits 4) r.greatestVersion

def UpdateRequest.Typed (r : UpdateRequest) : Prop := Maybe (Fits 8) r.last ∧ Maybe (Fits 4) r.greatestVersion

def ManagerUpdateRequest.Typed (c : Config) (r : ManagerUpdateRequest) : Prop :=
  Maybe (Fits 8) r.last ∧ Maybe (Fits 4) r.greatestVersion ∧ Fits 4 r.signedVersion ∧
  Each (UpdateValue.Typed c) r.values

def UpdateResponse.Typed (c : Config) (sz : Sizes) (r : UpdateResponse) : Prop :=
  r.fullTreeHead.Typed c ∧ Fits 8 r.position ∧ Each (UpdateInfo.Typed c sz) r.info ∧
  Each (BinaryLadderStep.Typed sz) r.binaryLadder ∧ r.update.Typed sz

def EntryTyped (sz : Sizes) (e : Prefix.Entry) : Prop := e.vrf.length = sz.hash ∧ e.com.length = sz.hash

def AuditorUpdate.Typed (sz : Sizes) (u : AuditorUpdate) : Prop :=
  Fits 8 u.timestamp ∧ Each (EntryTyped sz) u.added ∧ Each (EntryTyped sz) u.removed ∧ ProofTyped sz u.proof

/-- the positions of the retained log entries are distinct (they are the keys of a map) -/
def ClientState.Typed (c : Config) (sz : Sizes) (s : ClientState) : Prop :=
  s.treeHead.Typed ∧ (Maybe AuditorTreeHead.Typed s.auditor ∧ (s.auditor.isSome ↔ c.mode = thirdPartyAuditing)) ∧
  Each (fun e => e.length = sz.hash) s.fullSubtrees ∧
  Each (fun e => Fits 8 e.1 ∧ e.2.Typed sz.hash) s.logEntries ∧ (s.logEntries.map Prod.fst).Nodup

def RetainedVersion.Typed (sz : Sizes) (r : RetainedVersion) : Prop :=
  Fits 4 r.version ∧ r.vrfOutput.length = sz.hash ∧ Maybe (fun c => c.length = sz.hash) r.commitment

def ClientLabelState.Typed (sz : Sizes) (s : ClientLabelState) : Prop :=
  Each MonitorMapEntry.Typed s.contact ∧ Each (RetainedVersion.Typed sz) s.versions

end Katie.Wire
