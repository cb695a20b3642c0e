import Verif.Lemmas.Structs

/-
C47: wire messages round-trip.  C46: client state survives a restart.

`Codec Typed marshal new` (Spec/Codec.lean) says: for every value `a` of the Go type (`Typed a`) that encodes to
`b`, and every suffix `rest` of following bytes, decoding `b ++ rest` gives back `a` and leaves exactly `rest`;
and conversely whatever decodes is a value of the type whose encoding is exactly the bytes consumed, so every
message has one encoding.
-/

namespace Katie.Props
open Katie Katie.Wire

/-! ### C47 -/

theorem C47_search_request : Codec SearchRequest.Typed SearchRequest.marshal newSearchRequest := codec_searchRequest

theorem C47_search_response (c : Config) (sz : Sizes) (req : SearchRequest) :
    Codec (SearchResponse.Typed c sz req) SearchResponse.marshal (newSearchResponse c sz req) :=
  codec_searchResponse c sz req

theorem C47_contact_monitor_request :
    Codec ContactMonitorRequest.Typed ContactMonitorRequest.marshal newContactMonitorRequest :=
  codec_contactMonitorRequest

/-- also the format of `OwnerMonitorResponse` -/
theorem C47_monitor_response (c : Config) (sz : Sizes) :
    Codec (MonitorResponse.Typed c sz) MonitorResponse.marshal (newMonitorResponse c sz) := codec_monitorResponse c sz

theorem C47_owner_init_request : Codec OwnerInitRequest.Typed OwnerInitRequest.marshal newOwnerInitRequest :=
  codec_ownerInitRequest

theorem C47_owner_init_response (c : Config) (sz : Sizes) :
    Codec (OwnerInitResponse.Typed c sz) OwnerInitResponse.marshal (newOwnerInitResponse c sz) :=
  codec_ownerInitResponse c sz

theorem C47_owner_monitor_request :
    Codec OwnerMonitorRequest.Typed OwnerMonitorRequest.marshal newOwnerMonitorRequest := codec_ownerMonitorRequest

theorem C47_update_request : Codec UpdateRequest.Typed UpdateRequest.marshal newUpdateRequest := codec_updateRequest

theorem C47_manager_update_request (c : Config) :
    Codec (ManagerUpdateRequest.Typed c) ManagerUpdateRequest.marshal (newManagerUpdateRequest c) :=
  codec_managerUpdateRequest c

theorem C47_update_response (c : Config) (sz : Sizes) :
    Codec (UpdateResponse.Typed c sz) UpdateResponse.marshal (newUpdateResponse c sz) := codec_updateResponse c sz

theorem C47_auditor_update (sz : Sizes) :
    Codec (AuditorUpdate.Typed sz) AuditorUpdate.marshal (newAuditorUpdate sz) := codec_auditorUpdate sz

theorem C47_tree_head : Codec TreeHead.Typed TreeHead.marshal newTreeHead := codec_treeHead

theorem C47_auditor_tree_head : Codec AuditorTreeHead.Typed AuditorTreeHead.marshal newAuditorTreeHead :=
  codec_auditorTreeHead

theorem C47_log_entry (hashSize : Nat) : Codec (LogEntry.Typed hashSize) LogEntry.marshal (newLogEntry hashSize) :=
  codec_logEntry hashSize

theorem C47_opening_and_value (c : Config) (sz : Sizes) :
    Codec (OpeningAndValue.Typed c sz) OpeningAndValue.marshal (newOpeningAndValue c sz) := codec_openingAndValue c sz

/-- A response that is not of the form its mode prescribes may encode without an error and then not decode to
itself: an updated head without the auditor's head, in third-party auditing mode.  This is what the server sends
before it has received the first head from the auditor (transparency.go:121, with `auditorHead` nil). -/
theorem C47_missing_auditor_head_false :
    let c : Config := { mode := thirdPartyAuditing }
    let f : FullTreeHead := ⟨some ⟨5, []⟩, none⟩
    ∃ b, f.marshal = .ok b ∧ Errs (newFullTreeHead c b) := by
  refine ⟨[2, 0, 0, 0, 0, 0, 0, 0, 5, 0, 0], by decide, "EOF", by decide⟩

/-- Likewise the value of a label that does not exist, in third-party management mode: the server sends it
without a signature (crypto.go:73-80 `getVersion`), the client expects one. -/
theorem C47_missing_signature_false :
    let c : Config := { mode := thirdPartyManagement }
    let v : UpdateValue := ⟨[], none⟩
    ∃ b, v.marshal = .ok b ∧ Errs (newUpdateValue c b) := by
  refine ⟨[0, 0, 0, 0], by decide, "EOF", by decide⟩

/-- Over-long byte strings are refused when encoding: `k` is the width of the length field. -/
theorem C47_too_long_refused (k : Nat) (name : String) (b : Bytes) :
    (256 ^ k ≤ b.length → Errs (wBytes k name b)) ∧
    (b.length < 256 ^ k → ∃ out, wBytes k name b = .ok out ∧ out.length = k + b.length) := by
  have hp : 0 < 256 ^ k := Nat.pow_pos (by omega)
  constructor
  · intro h
    unfold wBytes
    rw [if_pos (by omega)]
    exact ⟨_, rfl⟩
  · intro h
    unfold wBytes
    rw [if_neg (by omega)]
    exact ⟨_, rfl, by rw [List.length_append, putBE_length]⟩

/-- Over-long lists are refused when encoding. -/
theorem C47_long_list_refused {α : Type} (k : Nat) (name : String) (w : α → G Bytes) (l : List α)
    (h : 256 ^ k ≤ l.length) : Errs (wSlice k name w l) := by
  have hp : 0 < 256 ^ k := Nat.pow_pos (by omega)
  unfold wSlice
  rw [if_pos (by omega)]
  exact ⟨_, rfl⟩

/-- A request with a label of more than 255 bytes is refused when encoding. -/
theorem C47_long_label_refused (r : SearchRequest) (h : 255 < r.label.length) : Errs r.marshal := by
  obtain ⟨m, hm⟩ := (C47_too_long_refused 1 "label" r.label).1 (by omega)
  refine ⟨m, ?_⟩
  unfold SearchRequest.marshal
  rw [hm]
  cases r.last <;> rfl

/-- a request of the kind covered by `C47_search_request` -/
example : (⟨some 7, [1, 2, 3], none⟩ : SearchRequest).Typed ∧
    (⟨some 7, [1, 2, 3], none⟩ : SearchRequest).marshal = .ok [1, 0, 0, 0, 0, 0, 0, 0, 7, 3, 1, 2, 3, 0] ∧
    newSearchRequest ([1, 0, 0, 0, 0, 0, 0, 0, 7, 3, 1, 2, 3, 0] ++ [9, 9]) =
      .ok (⟨some 7, [1, 2, 3], none⟩, [9, 9]) :=
  ⟨⟨fun a h => by cases h; unfold Fits; omega, fun a h => by cases h⟩, by decide, by decide⟩

/-- a response of the kind covered by `C47_search_response`, with a proof of each kind -/
def exResponse : SearchResponse :=
  { fullTreeHead := ⟨some ⟨300, [1, 2]⟩, some ⟨5, 299, [3]⟩⟩, version := some 4, opening := [8, 8],
    value := ⟨[1], none⟩, binaryLadder := [⟨[5], some [6]⟩, ⟨[7], none⟩],
    search := ⟨[1000, 2 ^ 40], [⟨[.inclusion 3, .nonInclusionLeaf [1] [2] 200, .nonInclusionParent 0], [[9]]⟩], [[4]],
      [[1], [2]]⟩ }

example :
    let c : Config := { mode := thirdPartyAuditing }
    let sz : Sizes := ⟨1, 1, 2⟩
    ∃ b, exResponse.marshal = .ok b ∧ 60 < b.length ∧
      newSearchResponse c sz ⟨none, [1], none⟩ (b ++ [1, 2]) = .ok (exResponse, [1, 2]) := by
  refine ⟨_, rfl, by decide, by decide +kernel⟩

/-! ### C46 -/

/-- The state about the log survives a restart. -/
theorem C46_client_state (c : Config) (sz : Sizes) :
    Codec (ClientState.Typed c sz) ClientState.marshal (newClientState c sz) := codec_clientState c sz

/-- The state about a label survives a restart if the user does not own the label.

Missing for the full statement: labels the user owns (`C46_owner_false`). -/
theorem C46_label_state_partial (sz : Sizes) (s : ClientLabelState) (hs : s.Typed sz) (ho : s.owner = none)
    (b rest : Bytes) (hb : s.marshal = .ok b) : newClientLabelState sz (b ++ rest) = .ok (s, rest) := by
  obtain ⟨contact, owner, versions⟩ := s
  simp only at ho
  subst ho
  obtain ⟨x, y, hx, hy, rfl⟩ := wSeq_ok.1 hb
  obtain ⟨y, z, hy', hz, rfl⟩ := wSeq_ok.1 hy
  unfold newClientLabelState
  simp only [List.append_assoc]
  rw [rd_bind_ok ((codec_slice codec_monitorMapEntry 4 "contact state").rt contact x _ hs.1 hx)]
  have h1 : rOpt newLabelOwnerState (y ++ (z ++ rest)) = .ok (none, z ++ rest) := by
    unfold rOpt
    rw [rd_bind_ok (codec_optional.rt false y _ trivial hy')]
    rfl
  rw [rd_bind_ok h1]
  have h2 := (codec_slice (codec_retainedVersion sz) 4 "retained versions").rt versions z rest hs.2 hz
  have h3 : newVersions sz (z ++ rest) = .ok (versions, rest) := by
    unfold newVersions; rw [h2]
  rw [rd_bind_ok h3]
  rfl

/-- The state of a label the user owns never survives: it always encodes (if its lists are short enough), and
what was written never decodes. -/
theorem C46_owner_false (sz : Sizes) (s : ClientLabelState) (o : LabelOwnerState) (ho : s.owner = some o)
    (hc : Each MonitorMapEntry.Typed s.contact) (hcl : s.contact.length < 2 ^ 32)
    (hu : o.upcomingVers.length < 2 ^ 32) :
    ∃ b, s.marshal = .ok b ∧ Errs (newClientLabelState sz b) := by
  obtain ⟨contact, owner, versions⟩ := s
  simp only at ho hc hcl
  subst ho
  have hloop : ∀ {α : Type} (w : α → G Bytes) (l : List α), (∀ a, ∃ b, w a = .ok b) → ∃ b, wLoop w l = .ok b := by
    intro α w l hw
    induction l with
    | nil => exact ⟨_, rfl⟩
    | cons a l ih =>
      obtain ⟨b, hb⟩ := ih
      obtain ⟨a', ha⟩ := hw a
      exact ⟨a' ++ b, wSeq_ok.2 ⟨_, _, ha, hb, rfl⟩⟩
  obtain ⟨x, hx⟩ : ∃ x, wSlice 4 "contact state" MonitorMapEntry.marshal contact = .ok x := by
    unfold wSlice
    rw [if_neg (by omega)]
    obtain ⟨y, hy⟩ := hloop MonitorMapEntry.marshal contact (fun a => ⟨_, rfl⟩)
    exact ⟨_, wSeq_ok.2 ⟨_, _, rfl, hy, rfl⟩⟩
  obtain ⟨u, hu'⟩ : ∃ u, wSlice 4 "upcoming versions" (wNum 8) o.upcomingVers = .ok u := by
    unfold wSlice
    rw [if_neg (by omega)]
    obtain ⟨y, hy⟩ := hloop (wNum 8) o.upcomingVers (fun a => ⟨_, rfl⟩)
    exact ⟨_, wSeq_ok.2 ⟨_, _, rfl, hy, rfl⟩⟩
  have hm : o.marshal = .ok (putBE 8 o.starting ++ ([] ++ u)) :=
    wSeq_ok.2 ⟨_, _, rfl, wSeq_ok.2 ⟨_, _, rfl, hu', rfl⟩, rfl⟩
  refine ⟨x ++ ([1] ++ (putBE 8 o.starting ++ ([] ++ u))),
    wSeq_ok.2 ⟨x, _, hx, wSeq_ok.2 ⟨[1], _, rfl, hm, rfl⟩, rfl⟩, "binary.Read: invalid type *int", ?_⟩
  unfold newClientLabelState
  rw [rd_bind_ok ((codec_slice codec_monitorMapEntry 4 "contact state").rt contact x _ hc hx)]
  have h0 : rNum 8 (putBE 8 o.starting ++ ([] ++ u)) = .ok (o.starting % 256 ^ 8, [] ++ u) := by
    unfold rNum
    rw [if_neg (by rw [List.length_append, putBE_length]; omega),
      List.take_append_of_le_length (by rw [putBE_length]), List.take_of_length_le (by rw [putBE_length]),
      getBE_putBE, List.drop_append, List.drop_of_length_le (by rw [putBE_length]), putBE_length]
    simp
  have h1 : newLabelOwnerState (putBE 8 o.starting ++ ([] ++ u)) = .error (.err "binary.Read: invalid type *int") := by
    unfold newLabelOwnerState
    rw [rd_bind_ok h0]
    rfl
  have h2 : rOpt newLabelOwnerState ([1] ++ (putBE 8 o.starting ++ ([] ++ u))) =
      .error (.err "binary.Read: invalid type *int") := by
    unfold rOpt
    rw [rd_bind_ok (codec_optional.rt true [1] _ trivial rfl), if_pos rfl]
    exact rd_bind_err h1
  exact rd_bind_err h2

/-- A truncated file is not noticed: the versions are silently dropped. -/
theorem C46_truncation_unnoticed : ∃ (s : ClientLabelState) (b : Bytes), s.marshal = .ok b ∧
    newClientLabelState ⟨1, 1, 1⟩ b.dropLast.dropLast = .ok (⟨s.contact, none, []⟩, []) ∧
    s.versions ≠ [] :=
  ⟨⟨[⟨5, 1⟩], none, [⟨3, [7], none⟩]⟩, [0, 0, 0, 1, 0, 0, 0, 0, 0, 0, 0, 5, 0, 0, 0, 1, 0, 0, 0, 0, 1, 0, 0, 0, 3, 7, 0],
    by decide, by decide, by decide⟩

/-- a label state of the kind covered by `C46_label_state_partial` -/
example : (⟨[⟨5, 1⟩], none, [⟨3, [7], some [9]⟩]⟩ : ClientLabelState).Typed ⟨1, 1, 1⟩ := by
  refine ⟨fun a h => ?_, fun a h => ?_⟩
  · rw [List.mem_singleton.1 h]; exact ⟨by show 5 < 256 ^ 8; omega, by show 1 < 256 ^ 4; omega⟩
  · rw [List.mem_singleton.1 h]
    exact ⟨by show 3 < 256 ^ 4; omega, rfl, fun c hc => by cases hc; rfl⟩

end Katie.Props
