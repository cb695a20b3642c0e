import Verif.Lemmas.Codec

/-
The encodings of all structures are lossless and canonical.
-/

namespace Katie.Wire
open Katie

@[simp] theorem each_true {α : Type} (l : List α) : Each (fun _ => True) l := fun _ _ => trivial

theorem codec_treeHead  : Codec TreeHead.Typed TreeHead.marshal newTreeHead :=
  (((codec_num 8).pair (codec_bytes 2 "signature"))).iso
    (fun p => (⟨p.1, p.2⟩ : TreeHead)) (fun s => (s.treeSize, s.signature)) (fun _ => rfl) (fun _ => rfl)
    (fun s => by simp [TreeHead.Typed]) (fun _ => rfl)
    (by unfold newTreeHead; simp only [bind_assoc, pure_bind])

theorem codec_auditorTreeHead  : Codec AuditorTreeHead.Typed AuditorTreeHead.marshal newAuditorTreeHead :=
  (((codec_num 8).pair ((codec_num 8).pair (codec_bytes 2 "auditor signature")))).iso
    (fun p => (⟨p.1, p.2.1, p.2.2⟩ : AuditorTreeHead)) (fun s => (s.timestamp, s.treeSize, s.signature)) (fun _ => rfl) (fun _ => rfl)
    (fun s => by simp [AuditorTreeHead.Typed]) (fun _ => rfl)
    (by unfold newAuditorTreeHead; simp only [bind_assoc, pure_bind])

theorem codec_fullTreeHead (c : Config) : Codec (FullTreeHead.Typed c) FullTreeHead.marshal (newFullTreeHead c) := by
  have n1 : Fits 1 1 := by unfold Fits; omega
  have n2 : Fits 1 2 := by unfold Fits; omega
  constructor
  · rintro ⟨th, au⟩ b rest ⟨h1, h2, h3⟩ hb
    unfold newFullTreeHead
    cases th with
    | none =>
      have hau : au = none := by
        cases au with
        | none => rfl
        | some a => simp at h3
      subst hau
      rw [rd_bind_ok ((codec_num 1).rt 1 b rest n1 hb)]
      rfl
    | some th =>
      cases au with
      | none =>
        have hm : c.mode ≠ thirdPartyAuditing := by simpa using h3
        have hb' : (wNum 1 2 +> th.marshal +> .ok []) = .ok b := hb
        obtain ⟨x, y, hx, hy, rfl⟩ := wSeq_ok.1 hb'
        rw [wSeq_nil] at hy
        rw [List.append_assoc, rd_bind_ok ((codec_num 1).rt 2 x _ n2 hx), if_neg (by omega), if_pos rfl,
          rd_bind_ok (codec_treeHead.rt th y rest (h1 th rfl) hy), if_neg hm]
        rfl
      | some a =>
        have hm : c.mode = thirdPartyAuditing := by simpa using h3
        have hb' : (wNum 1 2 +> th.marshal +> a.marshal) = .ok b := hb
        obtain ⟨x, y, hx, hy, rfl⟩ := wSeq_ok.1 hb'
        obtain ⟨y, z, hy', hz, rfl⟩ := wSeq_ok.1 hy
        rw [List.append_assoc, List.append_assoc, rd_bind_ok ((codec_num 1).rt 2 x _ n2 hx), if_neg (by omega),
          if_pos rfl, rd_bind_ok (codec_treeHead.rt th y _ (h1 th rfl) hy'), if_pos hm,
          rd_bind_ok (codec_auditorTreeHead.rt a z rest (h2 a rfl) hz)]
        rfl
  · rintro bs f rest h
    obtain ⟨t, m, h1, h2⟩ := rd_bind_inv h
    obtain ⟨-, x, hx, rfl⟩ := (codec_num 1).canon _ _ _ h1
    split at h2
    · rename_i ht
      subst ht
      cases h2
      exact ⟨⟨(fun a ha => by cases ha), (fun a ha => by cases ha), by simp⟩, x, hx, rfl⟩
    · split at h2
      · rename_i ht
        subst ht
        obtain ⟨th, m', h3, h4⟩ := rd_bind_inv h2
        obtain ⟨hth, y, hy, rfl⟩ := codec_treeHead.canon _ _ _ h3
        split at h4
        · rename_i hm
          obtain ⟨a, m', h5, h6⟩ := rd_bind_inv h4
          cases h6
          obtain ⟨ha, z, hz, rfl⟩ := codec_auditorTreeHead.canon _ _ _ h5
          refine ⟨⟨(fun a ha => by cases ha; exact hth), (fun a' ha' => by cases ha'; exact ha), by simp [hm]⟩,
            x ++ (y ++ z), ?_, by simp only [List.append_assoc]⟩
          exact wSeq_ok.2 ⟨x, _, hx, wSeq_ok.2 ⟨y, z, hy, hz, rfl⟩, rfl⟩
        · rename_i hm
          cases h4
          refine ⟨⟨(fun a ha => by cases ha; exact hth), (fun a' ha' => by cases ha'), by simp [hm]⟩,
            x ++ y, ?_, by simp only [List.append_assoc]⟩
          exact wSeq_ok.2 ⟨x, y, hx, (wSeq_nil _).trans hy, rfl⟩
      · cases h2

theorem codec_res (sz : Sizes) : Codec (ResTyped sz) marshalRes (newRes sz) := by
  have n1 : Fits 1 1 := by unfold Fits; omega
  have n2 : Fits 1 2 := by unfold Fits; omega
  have n3 : Fits 1 3 := by unfold Fits; omega
  constructor
  · intro a b rest ha hb
    unfold newRes
    cases a with
    | inclusion d =>
      obtain ⟨x, y, hx, hy, rfl⟩ := wSeq_ok.1 (show (wNum 1 1 +> wNum 1 d) = .ok b from hb)
      rw [List.append_assoc, rd_bind_ok ((codec_num 1).rt 1 x _ n1 hx), if_pos rfl,
        rd_bind_ok ((codec_num 1).rt d y rest ha hy)]
      rfl
    | nonInclusionLeaf v c d =>
      obtain ⟨x, y, hx, hy, rfl⟩ := wSeq_ok.1 (show (wNum 1 2 +> wRaw v +> wRaw c +> wNum 1 d) = .ok b from hb)
      obtain ⟨y, z, hy', hz, rfl⟩ := wSeq_ok.1 hy
      obtain ⟨z, u, hz', hu, rfl⟩ := wSeq_ok.1 hz
      simp only [List.append_assoc]
      rw [rd_bind_ok ((codec_num 1).rt 2 x _ n2 hx), if_neg (by omega), if_pos rfl,
        rd_bind_ok ((codec_full sz.hash).rt v y _ ha.1 hy'), rd_bind_ok ((codec_full sz.hash).rt c z _ ha.2.1 hz'),
        rd_bind_ok ((codec_num 1).rt d u rest ha.2.2 hu)]
      rfl
    | nonInclusionParent d =>
      obtain ⟨x, y, hx, hy, rfl⟩ := wSeq_ok.1 (show (wNum 1 3 +> wNum 1 d) = .ok b from hb)
      rw [List.append_assoc, rd_bind_ok ((codec_num 1).rt 3 x _ n3 hx), if_neg (by omega), if_neg (by omega),
        if_pos rfl, rd_bind_ok ((codec_num 1).rt d y rest ha hy)]
      rfl
  · intro bs a rest h
    obtain ⟨t, m, h1, h2⟩ := rd_bind_inv h
    obtain ⟨-, x, hx, rfl⟩ := (codec_num 1).canon _ _ _ h1
    split at h2
    · rename_i ht
      subst ht
      obtain ⟨d, m', h3, h4⟩ := rd_bind_inv h2
      cases h4
      obtain ⟨hd, y, hy, rfl⟩ := (codec_num 1).canon _ _ _ h3
      exact ⟨hd, x ++ y, wSeq_ok.2 ⟨x, y, hx, hy, rfl⟩, by simp only [List.append_assoc]⟩
    · split at h2
      · rename_i ht
        subst ht
        obtain ⟨v, m1, h3, h4⟩ := rd_bind_inv h2
        obtain ⟨c, m2, h5, h6⟩ := rd_bind_inv h4
        obtain ⟨d, m3, h7, h8⟩ := rd_bind_inv h6
        cases h8
        obtain ⟨hv, y, hy, rfl⟩ := (codec_full sz.hash).canon _ _ _ h3
        obtain ⟨hc, z, hz, rfl⟩ := (codec_full sz.hash).canon _ _ _ h5
        obtain ⟨hd, u, hu, rfl⟩ := (codec_num 1).canon _ _ _ h7
        exact ⟨⟨hv, hc, hd⟩, x ++ (y ++ (z ++ u)), wSeq_ok.2 ⟨x, _, hx, wSeq_ok.2 ⟨y, _, hy, wSeq_ok.2 ⟨z, u, hz, hu, rfl⟩, rfl⟩, rfl⟩,
          by simp only [List.append_assoc]⟩
      · split at h2
        · rename_i ht
          subst ht
          obtain ⟨d, m', h3, h4⟩ := rd_bind_inv h2
          cases h4
          obtain ⟨hd, y, hy, rfl⟩ := (codec_num 1).canon _ _ _ h3
          exact ⟨hd, x ++ y, wSeq_ok.2 ⟨x, y, hx, hy, rfl⟩, by simp only [List.append_assoc]⟩
        · cases h2

theorem codec_suffix (c : Config) : Codec (SuffixTyped c) marshalUpdateSuffix (newUpdateSuffix c) := by
  constructor
  · intro s b rest hs hb
    unfold newUpdateSuffix
    cases s with
    | none =>
      have hm : c.mode ≠ thirdPartyManagement := by simpa [SuffixTyped] using hs
      cases hb
      rw [if_pos hm]; rfl
    | some s =>
      have hm : c.mode = thirdPartyManagement := by simpa [SuffixTyped] using hs
      rw [if_neg (by simpa using hm), rd_bind_ok ((codec_bytes 2 _).rt s b rest trivial hb)]
      rfl
  · intro bs s rest h
    unfold newUpdateSuffix at h
    split at h
    · rename_i hm
      cases h
      exact ⟨by simpa [SuffixTyped] using hm, [], rfl, rfl⟩
    · rename_i hm
      obtain ⟨s', m, h1, h2⟩ := rd_bind_inv h
      cases h2
      obtain ⟨-, x, hx, rfl⟩ := (codec_bytes 2 "service operator signature").canon _ _ _ h1
      exact ⟨by simpa [SuffixTyped] using hm, x, hx, rfl⟩

theorem codec_labelValue : Codec (fun _ : Bytes => True) marshalLabelValue newLabelValue := codec_bytes 4 "label value"

theorem codec_respVersion (req : SearchRequest) :
    Codec (fun v => Maybe (Fits 4) v ∧ (v.isSome ↔ req.version = none)) marshalRespVersion (newRespVersion req) := by
  constructor
  · rintro v b rest ⟨h1, h2⟩ hb
    unfold newRespVersion
    cases hr : req.version with
    | none =>
      rw [hr] at h2
      cases v with
      | none => simp at h2
      | some v =>
        simp only
        rw [rd_bind_ok ((codec_num 4).rt v b rest (h1 v rfl) hb)]
        rfl
    | some u =>
      rw [hr] at h2
      cases v with
      | none => cases hb; rfl
      | some v => simp at h2
  · intro bs v rest h
    unfold newRespVersion at h
    cases hr : req.version with
    | none =>
      rw [hr] at h
      obtain ⟨n, m, h1, h2⟩ := rd_bind_inv h
      cases h2
      obtain ⟨hn, x, hx, rfl⟩ := (codec_num 4).canon _ _ _ h1
      exact ⟨⟨(fun a ha => by cases ha; exact hn), by simp⟩, x, hx, rfl⟩
    | some u =>
      rw [hr] at h
      cases h
      exact ⟨⟨(fun a ha => by cases ha), by simp⟩, [], rfl, rfl⟩

theorem codec_stateAuditor (c : Config) :
    Codec (fun a => Maybe AuditorTreeHead.Typed a ∧ (a.isSome ↔ c.mode = thirdPartyAuditing)) marshalStateAuditor
      (newStateAuditor c) := by
  constructor
  · rintro a b rest ⟨h1, h2⟩ hb
    unfold newStateAuditor
    cases a with
    | none =>
      have hm : c.mode ≠ thirdPartyAuditing := by simpa using h2
      cases hb
      rw [if_neg hm]; rfl
    | some a =>
      have hm : c.mode = thirdPartyAuditing := by simpa using h2
      rw [if_pos hm, rd_bind_ok (codec_auditorTreeHead.rt a b rest (h1 a rfl) hb)]
      rfl
  · intro bs a rest h
    unfold newStateAuditor at h
    split at h
    · rename_i hm
      obtain ⟨a', m, h1, h2⟩ := rd_bind_inv h
      cases h2
      obtain ⟨hn, x, hx, rfl⟩ := codec_auditorTreeHead.canon _ _ _ h1
      exact ⟨⟨(fun a ha => by cases ha; exact hn), by simp [hm]⟩, x, hx, rfl⟩
    · rename_i hm
      cases h
      exact ⟨⟨(fun a ha => by cases ha), by simp [hm]⟩, [], rfl, rfl⟩

theorem codec_prefixProof (sz : Sizes) : Codec (ProofTyped sz) marshalPrefixProof (newPrefixProof sz) :=
  (((codec_slice (codec_res sz) 1 "results").pair (codec_slice (codec_full sz.hash) 2 "elements"))).iso
    (fun p => (⟨p.1, p.2⟩ : Prefix.Proof)) (fun s => (s.results, s.elements)) (fun _ => rfl) (fun _ => rfl)
    (fun s => by simp [ProofTyped]) (fun _ => rfl)
    (by unfold newPrefixProof; simp only [bind_assoc, pure_bind])

theorem codec_combined (sz : Sizes) : Codec (CombinedTreeProof.Typed sz) CombinedTreeProof.marshal (newCombinedTreeProof sz) :=
  (((codec_slice (codec_num 8) 1 "timestamp").pair ((codec_slice (codec_prefixProof sz) 1 "prefix proof").pair ((codec_slice (codec_full sz.hash) 1 "prefix root").pair (codec_slice (codec_full sz.hash) 2 "inclusion proof"))))).iso
    (fun p => (⟨p.1, p.2.1, p.2.2.1, p.2.2.2⟩ : CombinedTreeProof)) (fun s => (s.timestamps, s.prefixProofs, s.prefixRoots, s.inclusion)) (fun _ => rfl) (fun _ => rfl)
    (fun s => by simp [CombinedTreeProof.Typed]) (fun _ => rfl)
    (by unfold newCombinedTreeProof; simp only [bind_assoc, pure_bind])

theorem codec_updateValue (c : Config) : Codec (UpdateValue.Typed c) UpdateValue.marshal (newUpdateValue c) :=
  (((codec_bytes 4 "label value").pair (codec_suffix c))).iso
    (fun p => (⟨p.1, p.2⟩ : UpdateValue)) (fun s => (s.value, s.signature)) (fun _ => rfl) (fun _ => rfl)
    (fun s => by simp [UpdateValue.Typed, UpdateValue.Typed]) (fun _ => rfl)
    (by unfold newUpdateValue; simp only [bind_assoc, pure_bind])

theorem codec_logEntry (hs : Nat) : Codec (LogEntry.Typed hs) LogEntry.marshal (newLogEntry hs) :=
  (((codec_num 8).pair (codec_full hs))).iso
    (fun p => (⟨p.1, p.2⟩ : LogEntry)) (fun s => (s.timestamp, s.prefixTree)) (fun _ => rfl) (fun _ => rfl)
    (fun s => by simp [LogEntry.Typed]) (fun _ => rfl)
    (by unfold newLogEntry; simp only [bind_assoc, pure_bind])

theorem codec_step (sz : Sizes) : Codec (BinaryLadderStep.Typed sz) BinaryLadderStep.marshal (newBinaryLadderStep sz) :=
  (((codec_full sz.vrfProof).pair (codec_opt (codec_full sz.hash)))).iso
    (fun p => (⟨p.1, p.2⟩ : BinaryLadderStep)) (fun s => (s.proof, s.commitment)) (fun _ => rfl) (fun _ => rfl)
    (fun s => by simp [BinaryLadderStep.Typed]) (fun _ => rfl)
    (by unfold newBinaryLadderStep; simp only [bind_assoc, pure_bind])

theorem codec_openingAndValue (c : Config) (sz : Sizes) : Codec (OpeningAndValue.Typed c sz) OpeningAndValue.marshal (newOpeningAndValue c sz) :=
  (((codec_full sz.opening).pair (codec_updateValue c))).iso
    (fun p => (⟨p.1, p.2⟩ : OpeningAndValue)) (fun s => (s.opening, s.value)) (fun _ => rfl) (fun _ => rfl)
    (fun s => by simp [OpeningAndValue.Typed]) (fun _ => rfl)
    (by unfold newOpeningAndValue; simp only [bind_assoc, pure_bind])

theorem codec_updateInfo (c : Config) (sz : Sizes) : Codec (UpdateInfo.Typed c sz) UpdateInfo.marshal (newUpdateInfo c sz) :=
  (((codec_full sz.opening).pair (codec_suffix c))).iso
    (fun p => (⟨p.1, p.2⟩ : UpdateInfo)) (fun s => (s.opening, s.signature)) (fun _ => rfl) (fun _ => rfl)
    (fun s => by simp [UpdateInfo.Typed]) (fun _ => rfl)
    (by unfold newUpdateInfo; simp only [bind_assoc, pure_bind])

theorem codec_searchRequest  : Codec SearchRequest.Typed SearchRequest.marshal newSearchRequest :=
  (((codec_opt (codec_num 8)).pair ((codec_bytes 1 "label").pair (codec_opt (codec_num 4))))).iso
    (fun p => (⟨p.1, p.2.1, p.2.2⟩ : SearchRequest)) (fun s => (s.last, s.label, s.version)) (fun _ => rfl) (fun _ => rfl)
    (fun s => by simp [SearchRequest.Typed]) (fun _ => rfl)
    (by unfold newSearchRequest; simp only [bind_assoc, pure_bind])

theorem codec_searchResponse (c : Config) (sz : Sizes) (req : SearchRequest) : Codec (SearchResponse.Typed c sz req) SearchResponse.marshal (newSearchResponse c sz req) :=
  (((codec_fullTreeHead c).pair ((codec_respVersion req).pair ((codec_full sz.opening).pair ((codec_updateValue c).pair ((codec_slice (codec_step sz) 1 "binary ladder").pair (codec_combined sz))))))).iso
    (fun p => (⟨p.1, p.2.1, p.2.2.1, p.2.2.2.1, p.2.2.2.2.1, p.2.2.2.2.2⟩ : SearchResponse)) (fun s => (s.fullTreeHead, s.version, s.opening, s.value, s.binaryLadder, s.search)) (fun _ => rfl) (fun _ => rfl)
    (fun s => by simp [SearchResponse.Typed]) (fun _ => rfl)
    (by unfold newSearchResponse; simp only [bind_assoc, pure_bind])

theorem codec_monitorMapEntry  : Codec MonitorMapEntry.Typed MonitorMapEntry.marshal newMonitorMapEntry :=
  (((codec_num 8).pair (codec_num 4))).iso
    (fun p => (⟨p.1, p.2⟩ : MonitorMapEntry)) (fun s => (s.position, s.version)) (fun _ => rfl) (fun _ => rfl)
    (fun s => by simp [MonitorMapEntry.Typed]) (fun _ => rfl)
    (by unfold newMonitorMapEntry; simp only [bind_assoc, pure_bind])

theorem codec_contactMonitorRequest  : Codec ContactMonitorRequest.Typed ContactMonitorRequest.marshal newContactMonitorRequest :=
  (((codec_opt (codec_num 8)).pair ((codec_bytes 1 "label").pair (codec_slice codec_monitorMapEntry 1 "monitoring map")))).iso
    (fun p => (⟨p.1, p.2.1, p.2.2⟩ : ContactMonitorRequest)) (fun s => (s.last, s.label, s.entries)) (fun _ => rfl) (fun _ => rfl)
    (fun s => by simp [ContactMonitorRequest.Typed]) (fun _ => rfl)
    (by unfold newContactMonitorRequest; simp only [bind_assoc, pure_bind])

theorem codec_monitorResponse (c : Config) (sz : Sizes) : Codec (MonitorResponse.Typed c sz) MonitorResponse.marshal (newMonitorResponse c sz) :=
  (((codec_fullTreeHead c).pair (codec_combined sz))).iso
    (fun p => (⟨p.1, p.2⟩ : MonitorResponse)) (fun s => (s.fullTreeHead, s.monitor)) (fun _ => rfl) (fun _ => rfl)
    (fun s => by simp [MonitorResponse.Typed]) (fun _ => rfl)
    (by unfold newMonitorResponse; simp only [bind_assoc, pure_bind])

theorem codec_ownerInitRequest  : Codec OwnerInitRequest.Typed OwnerInitRequest.marshal newOwnerInitRequest :=
  (((codec_opt (codec_num 8)).pair ((codec_bytes 1 "label").pair (codec_num 8)))).iso
    (fun p => (⟨p.1, p.2.1, p.2.2⟩ : OwnerInitRequest)) (fun s => (s.last, s.label, s.start)) (fun _ => rfl) (fun _ => rfl)
    (fun s => by simp [OwnerInitRequest.Typed]) (fun _ => rfl)
    (by unfold newOwnerInitRequest; simp only [bind_assoc, pure_bind])

theorem codec_ownerInitResponse (c : Config) (sz : Sizes) : Codec (OwnerInitResponse.Typed c sz) OwnerInitResponse.marshal (newOwnerInitResponse c sz) :=
  (((codec_fullTreeHead c).pair ((codec_slice (codec_num 4) 1 "versions").pair ((codec_slice (codec_step sz) 2 "binary ladder").pair (codec_combined sz))))).iso
    (fun p => (⟨p.1, p.2.1, p.2.2.1, p.2.2.2⟩ : OwnerInitResponse)) (fun s => (s.fullTreeHead, s.greatestVersions, s.binaryLadder, s.init)) (fun _ => rfl) (fun _ => rfl)
    (fun s => by simp [OwnerInitResponse.Typed]) (fun _ => rfl)
    (by unfold newOwnerInitResponse; simp only [bind_assoc, pure_bind])

theorem codec_ownerMonitorRequest  : Codec OwnerMonitorRequest.Typed OwnerMonitorRequest.marshal newOwnerMonitorRequest :=
  (((codec_opt (codec_num 8)).pair ((codec_bytes 1 "label").pair ((codec_slice codec_monitorMapEntry 1 "monitoring map").pair ((codec_num 8).pair (codec_opt (codec_num 4))))))).iso
    (fun p => (⟨p.1, p.2.1, p.2.2.1, p.2.2.2.1, p.2.2.2.2⟩ : OwnerMonitorRequest)) (fun s => (s.last, s.label, s.entries, s.start, s.greatestVersion)) (fun _ => rfl) (fun _ => rfl)
    (fun s => by simp [OwnerMonitorRequest.Typed]) (fun _ => rfl)
    (by unfold newOwnerMonitorRequest; simp only [bind_assoc, pure_bind])

theorem codec_updateRequest  : Codec UpdateRequest.Typed UpdateRequest.marshal newUpdateRequest :=
  (((codec_opt (codec_num 8)).pair ((codec_bytes 1 "label").pair ((codec_opt (codec_num 4)).pair (codec_slice codec_labelValue 1 "label value"))))).iso
    (fun p => (⟨p.1, p.2.1, p.2.2.1, p.2.2.2⟩ : UpdateRequest)) (fun s => (s.last, s.label, s.greatestVersion, s.values)) (fun _ => rfl) (fun _ => rfl)
    (fun s => by simp [UpdateRequest.Typed]) (fun _ => rfl)
    (by unfold newUpdateRequest; simp only [bind_assoc, pure_bind])

theorem codec_managerUpdateRequest (c : Config) : Codec (ManagerUpdateRequest.Typed c) ManagerUpdateRequest.marshal (newManagerUpdateRequest c) :=
  (((codec_opt (codec_num 8)).pair ((codec_bytes 1 "label").pair ((codec_opt (codec_num 4)).pair ((codec_num 4).pair (codec_slice (codec_updateValue c) 1 "label value")))))).iso
    (fun p => (⟨p.1, p.2.1, p.2.2.1, p.2.2.2.1, p.2.2.2.2⟩ : ManagerUpdateRequest)) (fun s => (s.last, s.label, s.greatestVersion, s.signedVersion, s.values)) (fun _ => rfl) (fun _ => rfl)
    (fun s => by simp [ManagerUpdateRequest.Typed]) (fun _ => rfl)
    (by unfold newManagerUpdateRequest; simp only [bind_assoc, pure_bind])

theorem codec_updateResponse (c : Config) (sz : Sizes) : Codec (UpdateResponse.Typed c sz) UpdateResponse.marshal (newUpdateResponse c sz) :=
  (((codec_fullTreeHead c).pair ((codec_num 8).pair ((codec_slice codec_labelValue 1 "label value").pair ((codec_slice (codec_updateInfo c sz) 1 "update info").pair ((codec_slice (codec_step sz) 1 "binary ladder").pair (codec_combined sz))))))).iso
    (fun p => (⟨p.1, p.2.1, p.2.2.1, p.2.2.2.1, p.2.2.2.2.1, p.2.2.2.2.2⟩ : UpdateResponse)) (fun s => (s.fullTreeHead, s.position, s.values, s.info, s.binaryLadder, s.update)) (fun _ => rfl) (fun _ => rfl)
    (fun s => by simp [UpdateResponse.Typed]) (fun _ => rfl)
    (by unfold newUpdateResponse; simp only [bind_assoc, pure_bind])

theorem codec_prefixEntry (sz : Sizes) : Codec (EntryTyped sz) marshalPrefixEntry (newPrefixEntry sz) :=
  (((codec_full sz.hash).pair (codec_full sz.hash))).iso
    (fun p => (⟨p.1, p.2⟩ : Prefix.Entry)) (fun s => (s.vrf, s.com)) (fun _ => rfl) (fun _ => rfl)
    (fun s => by simp [EntryTyped]) (fun _ => rfl)
    (by unfold newPrefixEntry; simp only [bind_assoc, pure_bind])

theorem codec_auditorUpdate (sz : Sizes) : Codec (AuditorUpdate.Typed sz) AuditorUpdate.marshal (newAuditorUpdate sz) :=
  (((codec_num 8).pair ((codec_slice (codec_prefixEntry sz) 2 "added prefix entry").pair ((codec_slice (codec_prefixEntry sz) 2 "removed prefix entry").pair (codec_prefixProof sz))))).iso
    (fun p => (⟨p.1, p.2.1, p.2.2.1, p.2.2.2⟩ : AuditorUpdate)) (fun s => (s.timestamp, s.added, s.removed, s.proof)) (fun _ => rfl) (fun _ => rfl)
    (fun s => by simp [AuditorUpdate.Typed]) (fun _ => rfl)
    (by unfold newAuditorUpdate; simp only [bind_assoc, pure_bind])

theorem codec_retainedVersion (sz : Sizes) : Codec (RetainedVersion.Typed sz) RetainedVersion.marshal (newRetainedVersion sz) :=
  (((codec_num 4).pair ((codec_full sz.hash).pair (codec_opt (codec_full sz.hash))))).iso
    (fun p => (⟨p.1, p.2.1, p.2.2⟩ : RetainedVersion)) (fun s => (s.version, s.vrfOutput, s.commitment)) (fun _ => rfl) (fun _ => rfl)
    (fun s => by simp [RetainedVersion.Typed]) (fun _ => rfl)
    (by unfold newRetainedVersion; simp only [bind_assoc, pure_bind])

theorem codec_indexedLogEntry (sz : Sizes) :
    Codec (fun e : Nat × LogEntry => Fits 8 e.1 ∧ e.2.Typed sz.hash) marshalIndexedLogEntry (newIndexedLogEntry sz) :=
  (codec_num 8).pair (codec_logEntry sz.hash)

/-- a format with a check after reading -/
theorem Codec.guard {α : Type} {P : α → Prop} {w : α → G Bytes} {r : Rd α} (c : Codec P w r) (Q : α → Prop)
    [DecidablePred Q] (msg : String) :
    Codec (fun a => P a ∧ Q a) w (do let a ← r; if Q a then pure a else Rd.err msg) := by
  constructor
  · rintro a b rest ⟨hp, hq⟩ hb
    rw [rd_bind_ok (c.rt a b rest hp hb), if_pos hq]; rfl
  · intro bs a rest h
    obtain ⟨a', m, h1, h2⟩ := rd_bind_inv h
    split at h2
    · rename_i hq
      cases h2
      obtain ⟨hp, hb⟩ := c.canon _ _ _ h1
      exact ⟨⟨hp, hq⟩, hb⟩
    · cases h2

theorem codec_clientState (c : Config) (sz : Sizes) :
    Codec (ClientState.Typed c sz) ClientState.marshal (newClientState c sz) := by
  have h1 := codec_treeHead.pair ((codec_stateAuditor c).pair
    ((codec_slice (codec_full sz.hash) 1 "full subtrees").pair
      ((codec_slice (codec_indexedLogEntry sz) 1 "log entry").guard
        (fun l => (l.map Prod.fst).Nodup) "same log entry present multiple times")))
  refine h1.iso (fun p => (⟨p.1, p.2.1, p.2.2.1, p.2.2.2⟩ : ClientState))
    (fun s => (s.treeHead, s.auditor, s.fullSubtrees, s.logEntries)) (fun _ => rfl) (fun _ => rfl)
    (fun s => Iff.rfl) (fun _ => rfl) ?_
  unfold newClientState
  simp only [bind_assoc, pure_bind]
  congr 1; funext a; congr 1; funext b; congr 1; funext d; congr 1; funext e
  split <;> rfl

theorem wLoop_total {α : Type} {w : α → G Bytes} (hw : ∀ a, ∃ b, w a = .ok b) (l : List α) :
    ∃ b, wLoop w l = .ok b := by
  induction l with
  | nil => exact ⟨_, rfl⟩
  | cons a l ih =>
    obtain ⟨b, hb⟩ := ih
    obtain ⟨a', ha⟩ := hw a
    exact ⟨a' ++ b, wSeq_ok.2 ⟨_, _, ha, hb, rfl⟩⟩

/-! ### comparing encodings -/

theorem codec_sep {α : Type} {P : α → Prop} {w : α → G Bytes} {r : Rd α} (c : Codec P w r) {a a' : α} (ha : P a)
    (ha' : P a') {x x' s s' : Bytes} (hx : w a = .ok x) (hx' : w a' = .ok x') (h : x ++ s = x' ++ s') :
    a = a' ∧ s = s' := by
  have h1 := c.rt a x s ha hx
  have h2 := c.rt a' x' s' ha' hx'
  rw [h, h2] at h1
  cases h1
  exact ⟨rfl, rfl⟩

/-- one step of comparing two encodings -/
theorem seq_sep {α : Type} {P : α → Prop} {w : α → G Bytes} {r : Rd α} (c : Codec P w r) {a a' : α} (ha : P a)
    (ha' : P a') {v v' : G Bytes} {b b' s s' : Bytes} (hb : (w a +> v) = .ok b) (hb' : (w a' +> v') = .ok b')
    (h : b ++ s = b' ++ s') : a = a' ∧ ∃ y y', v = .ok y ∧ v' = .ok y' ∧ y ++ s = y' ++ s' := by
  obtain ⟨x, y, hx, hy, rfl⟩ := wSeq_ok.1 hb
  obtain ⟨x', y', hx', hy', rfl⟩ := wSeq_ok.1 hb'
  rw [List.append_assoc, List.append_assoc] at h
  obtain ⟨h1, h2⟩ := codec_sep c ha ha' hx hx' h
  exact ⟨h1, y, y', hy, hy', h2⟩

theorem codec_mayWNum8 : Codec (fun l : Nat => Fits 8 l)
    (fun l => if l > 0 then wOptional true +> wNum 8 l else wOptional false)
    (fun buf => match rOptional buf with
      | .ok (true, rest) => (match rNum 8 rest with
          | .ok (n, rest) => if n > 0 then .ok (n, rest) else goErr "zero"
          | .error e => .error e)
      | .ok (false, rest) => .ok (0, rest)
      | .error e => .error e) := by
  constructor
  · intro l b rest hl hb
    by_cases h0 : l > 0
    · simp only [if_pos h0] at hb
      obtain ⟨x, y, hx, hy, rfl⟩ := wSeq_ok.1 hb
      rw [List.append_assoc]
      simp only [codec_optional.rt true x (y ++ rest) trivial hx, (codec_num 8).rt l y rest hl hy, if_pos h0]
    · simp only [if_neg h0] at hb
      simp only [codec_optional.rt false b rest trivial hb]
      have : l = 0 := by omega
      rw [this]
  · intro bs a rest h
    rcases ho : rOptional bs with e | ⟨p, mid⟩
    · simp only [ho] at h; cases h
    · obtain ⟨_, x, hx, rfl⟩ := codec_optional.canon _ _ _ ho
      cases p with
      | false =>
        simp only [ho] at h
        cases h
        exact ⟨by unfold Fits; omega, x, hx, rfl⟩
      | true =>
        simp only [ho] at h
        rcases hn : rNum 8 mid with e | ⟨n, mid'⟩
        · simp only [hn] at h; cases h
        · obtain ⟨hf, y, hy, rfl⟩ := (codec_num 8).canon _ _ _ hn
          simp only [hn] at h
          by_cases h0 : n > 0
          · rw [if_pos h0] at h
            cases h
            exact ⟨hf, x ++ y, by simp only [if_pos h0]; exact wSeq_ok.2 ⟨x, y, hx, hy, rfl⟩, by rw [List.append_assoc]⟩
          · rw [if_neg h0] at h; cases h

end Katie.Wire
