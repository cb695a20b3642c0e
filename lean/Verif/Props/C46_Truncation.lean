import Verif.Lemmas.Truncation
import Verif.Lemmas.ReceiveSearch
import Verif.Props.C46_C47_Wire

/-
C46: which truncations of a stored label state a client notices.  C47: every truncated message is refused.
-/

namespace Katie.Props
open Katie Katie.Wire Katie.Client Katie.Server

/-- `r` decodes no proper initial part of the encoding of a value of the type. -/
def TruncationRefused {α : Type} (P : α → Prop) (w : α → G Bytes) (r : Rd α) : Prop :=
  ∀ a b, P a → w a = .ok b → ∀ k < b.length, ∀ p, r (b.take k) ≠ .ok p

/-- Every message cut off anywhere is refused. -/
theorem C47_truncation_refused (c : Config) (sz : Sizes) (req : SearchRequest) :
    TruncationRefused SearchRequest.Typed SearchRequest.marshal newSearchRequest ∧
    TruncationRefused (SearchResponse.Typed c sz req) SearchResponse.marshal (newSearchResponse c sz req) ∧
    TruncationRefused ContactMonitorRequest.Typed ContactMonitorRequest.marshal newContactMonitorRequest ∧
    TruncationRefused (MonitorResponse.Typed c sz) MonitorResponse.marshal (newMonitorResponse c sz) ∧
    TruncationRefused OwnerInitRequest.Typed OwnerInitRequest.marshal newOwnerInitRequest ∧
    TruncationRefused (OwnerInitResponse.Typed c sz) OwnerInitResponse.marshal (newOwnerInitResponse c sz) ∧
    TruncationRefused OwnerMonitorRequest.Typed OwnerMonitorRequest.marshal newOwnerMonitorRequest ∧
    TruncationRefused UpdateRequest.Typed UpdateRequest.marshal newUpdateRequest ∧
    TruncationRefused (ManagerUpdateRequest.Typed c) ManagerUpdateRequest.marshal (newManagerUpdateRequest c) ∧
    TruncationRefused (UpdateResponse.Typed c sz) UpdateResponse.marshal (newUpdateResponse c sz) ∧
    TruncationRefused (AuditorUpdate.Typed sz) AuditorUpdate.marshal (newAuditorUpdate sz) ∧
    TruncationRefused (ClientState.Typed c sz) ClientState.marshal (newClientState c sz) :=
  ⟨fun _ _ h e _ hk p => C47_search_request.prefix_fails h e hk p,
    fun _ _ h e _ hk p => (C47_search_response c sz req).prefix_fails h e hk p,
    fun _ _ h e _ hk p => C47_contact_monitor_request.prefix_fails h e hk p,
    fun _ _ h e _ hk p => (C47_monitor_response c sz).prefix_fails h e hk p,
    fun _ _ h e _ hk p => C47_owner_init_request.prefix_fails h e hk p,
    fun _ _ h e _ hk p => (C47_owner_init_response c sz).prefix_fails h e hk p,
    fun _ _ h e _ hk p => C47_owner_monitor_request.prefix_fails h e hk p,
    fun _ _ h e _ hk p => C47_update_request.prefix_fails h e hk p,
    fun _ _ h e _ hk p => (C47_manager_update_request c).prefix_fails h e hk p,
    fun _ _ h e _ hk p => (C47_update_response c sz).prefix_fails h e hk p,
    fun _ _ h e _ hk p => (C47_auditor_update sz).prefix_fails h e hk p,
    fun _ _ h e _ hk p => (C46_client_state c sz).prefix_fails h e hk p⟩

/-- the encoded size of a list of monitoring map entries -/
theorem contact_length {l : List MonitorMapEntry} {b : Bytes}
    (hb : wSlice 4 "contact state" MonitorMapEntry.marshal l = .ok b) : b.length = 4 + 12 * l.length := by
  unfold wSlice at hb
  split at hb
  · cases hb
  · obtain ⟨x, y, hx, hy, rfl⟩ := wSeq_ok.1 hb
    cases hx
    rw [List.length_append, putBE_length]
    congr 1
    clear hb
    induction l generalizing y with
    | nil => cases hy; rfl
    | cons e l ih =>
      obtain ⟨u, v, hu, hv, rfl⟩ := wSeq_ok.1 hy
      cases hu
      rw [List.length_append, ih (by rename_i h; rw [List.length_cons] at h; omega) v hv]
      simp [putBE_length]
      omega

/-- Exactly which truncations of the stored state of a label (that the user does not own) are noticed: those that
reach into the monitoring map.  If any of the retained versions are cut off, all of them are silently forgotten. -/
theorem C46_truncation (env : CEnv) (s : ClientLabelState) (hs : s.Typed env.sz) (ho : s.owner = none) (b : Bytes)
    (hb : s.marshal = .ok b) (k : Nat) (hk : k < b.length) :
    (k < 4 + 12 * s.contact.length + 1 → Errs (parseLabelState env (some (b.take k)))) ∧
    (4 + 12 * s.contact.length + 1 ≤ k → parseLabelState env (some (b.take k)) = .ok ⟨s.contact, none, []⟩) := by
  obtain ⟨contact, owner, versions⟩ := s
  simp only at ho
  subst ho
  obtain ⟨x, y, hx, hy, rfl⟩ := wSeq_ok.1 hb
  obtain ⟨y, z, hy', hz, rfl⟩ := wSeq_ok.1 hy
  obtain rfl : ([0] : Bytes) = y := by cases hy'; rfl
  clear hy' hy hb
  change wSlice 4 "contact state" MonitorMapEntry.marshal contact = .ok x at hx
  change wSlice 4 "retained versions" RetainedVersion.marshal versions = .ok z at hz
  have hxl := contact_length hx
  show (k < 4 + 12 * contact.length + 1 → _) ∧ (4 + 12 * contact.length + 1 ≤ k → _)
  have cc := codec_slice codec_monitorMapEntry 4 "contact state"
  constructor
  · intro h
    have hcalm : Alg.Calm (parseLabelState env (some ((x ++ (([0] : Bytes) ++ z)).take k))) := by
      unfold parseLabelState
      exact labelState_calmRd.all
    have hno : ∀ v, parseLabelState env (some ((x ++ (([0] : Bytes) ++ z)).take k)) ≠ .ok v := by
      intro v hv
      have hr : ∃ p, newClientLabelState env.sz ((x ++ (([0] : Bytes) ++ z)).take k) = .ok p := by
        change readAll (newClientLabelState env.sz) _ _ = _ at hv
        unfold readAll at hv
        cases hp : newClientLabelState env.sz ((x ++ (([0] : Bytes) ++ z)).take k) with
        | ok p => exact ⟨p, rfl⟩
        | error e => rw [hp] at hv; cases hv
      obtain ⟨p, hp⟩ := hr
      unfold newClientLabelState at hp
      obtain ⟨c, m, h1, h2⟩ := rd_bind_inv hp
      by_cases hkx : k < x.length
      · rw [List.take_append_of_le_length (by omega)] at h1
        exact cc.prefix_fails hs.1 hx hkx _ h1
      · have hkx' : k = x.length := by omega
        rw [hkx', List.take_left'  rfl] at h1
        have h3 := cc.rt contact x [] hs.1 hx
        rw [List.append_nil, h1] at h3
        cases h3
        obtain ⟨o, m', h4, _⟩ := rd_bind_inv h2
        unfold rOpt at h4
        obtain ⟨q, m'', h5, _⟩ := rd_bind_inv h4
        cases h5
    cases hr : parseLabelState env (some ((x ++ (([0] : Bytes) ++ z)).take k)) with
    | ok v => exact absurd hr (hno v)
    | error e =>
      obtain ⟨m, rfl⟩ := hcalm e hr
      exact ⟨m, rfl⟩
  · intro h
    have hj : k - x.length - 1 < z.length := by
      rw [List.length_append, List.length_append, List.length_singleton] at hk
      omega
    have ht : (x ++ (([0] : Bytes) ++ z)).take k = x ++ (([0] : Bytes) ++ z.take (k - x.length - 1)) := by
      rw [List.take_append, List.take_of_length_le (by omega), List.take_append,
        List.take_of_length_le (by rw [List.length_singleton]; omega), List.length_singleton]
    rw [ht]
    have h1 := cc.rt contact x (([0] : Bytes) ++ z.take (k - x.length - 1)) hs.1 hx
    have h2 : rOpt newLabelOwnerState (([0] : Bytes) ++ z.take (k - x.length - 1)) =
        .ok (none, z.take (k - x.length - 1)) := rfl
    have h3 : newVersions env.sz (z.take (k - x.length - 1)) = .ok ([], []) := by
      have hc : Alg.Calm (rSlice 4 (newRetainedVersion env.sz) (z.take (k - x.length - 1))) := by
        unfold newRetainedVersion
        exact CalmRd.slice (.bind .num (fun _ => .bind .full (fun _ => .bind (.opt .full) (fun _ => .pure)))) _
      unfold newVersions
      cases hr : rSlice 4 (newRetainedVersion env.sz) (z.take (k - x.length - 1)) with
      | ok p =>
        exact absurd hr ((codec_slice (codec_retainedVersion env.sz) 4 "retained versions").prefix_fails hs.2 hz hj p)
      | error e =>
        obtain ⟨m, rfl⟩ := hc e hr
        show (Except.ok ([], versionsRest env.sz _) : G _) = _
        rw [versionsRest_prefix hs.2 hz hj]
    have h4 : newClientLabelState env.sz (x ++ (([0] : Bytes) ++ z.take (k - x.length - 1))) =
        .ok (⟨contact, none, []⟩, []) := by
      unfold newClientLabelState
      rw [rd_bind_ok h1, rd_bind_ok h2, rd_bind_ok h3]
      rfl
    show readAll (newClientLabelState env.sz) _ _ = _
    unfold readAll
    rw [h4]
    rfl

/-- a stored label state with a retained version, and where it is cut -/
example : ∃ b, (⟨[⟨5, 1⟩], none, [⟨3, [7], none⟩]⟩ : ClientLabelState).marshal = .ok b ∧ 4 + 12 * 1 + 1 ≤ 20 ∧
    20 < b.length := ⟨_, rfl, by decide, by decide⟩

end Katie.Props
