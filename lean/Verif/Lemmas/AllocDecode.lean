import Verif.Lemmas.Alloc
import Verif.Lemmas.Structs

/-
Helper lemmas for C90: what each decoder reserves.
-/

namespace Katie.Wire
open Katie

variable {c : Config} {sz : Sizes}

/-- the sizes of the cryptographic values, in total -/
def Sizes.total (sz : Sizes) : Nat := sz.hash + sz.vrfProof + sz.opening

/-- what a failing decoder of lists of at most 65535 elements may have reserved -/
def slackSmall (sz : Sizes) : Nat := sz.total + 48 * 65535

/-- what a failing decoder of a value may have reserved -/
def slackLarge (sz : Sizes) : Nat := sz.total + 48 * 65535 + 4294967295

theorem tracks_treeHead {k E : Nat} (hk : 1 ≤ k) (hE : 65535 ≤ E) : Tracks mTreeHead newTreeHead k E :=
  .bind .num (fun _ => .bind (.bytes hk hE) (fun _ => .pure))

theorem tracks_auditorTreeHead {k E : Nat} (hk : 1 ≤ k) (hE : 65535 ≤ E) :
    Tracks mAuditorTreeHead newAuditorTreeHead k E :=
  .bind .num (fun _ => .bind .num (fun _ => .bind (.bytes hk hE) (fun _ => .pure)))

theorem tracks_fullTreeHead {k E : Nat} (hk : 1 ≤ k) (hE : 65535 ≤ E) :
    Tracks (mFullTreeHead c) (newFullTreeHead c) k E :=
  .bind .num (fun _ => .ite .pure (.ite (.bind (tracks_treeHead hk hE) (fun _ =>
    .ite (.bind (tracks_auditorTreeHead hk hE) (fun _ => .pure)) .pure)) .error))

theorem tracks_res : Tracks (mRes sz) (newRes sz) 1 sz.hash :=
  .bind .num (fun _ => .ite (.bind .num (fun _ => .pure)) (.ite
    (.bind (.full (Nat.le_refl _) (Nat.le_refl _)) (fun _ => .bind (.full (Nat.le_refl _) (Nat.le_refl _)) (fun _ =>
      .bind .num (fun _ => .pure)))) (.ite (.bind .num (fun _ => .pure)) .error)))

theorem eats_res : Eats (newRes sz) :=
  Tracks.eats (eats_num (by omega)) (fun _ => .ite (.bind .num (fun _ => .pure)) (.ite
    (.bind (.full (Nat.le_refl _) (Nat.le_refl sz.hash)) (fun _ => .bind (.full (Nat.le_refl _) (Nat.le_refl _)) (fun _ =>
      .bind .num (fun _ => .pure)))) (.ite (.bind .num (fun _ => .pure)) .error)))

theorem tracks_elements (h : 0 < sz.hash) {k c' E : Nat} (hc : 25 ≤ c') (hE : sz.hash + 24 * (256 ^ k - 1) ≤ E) :
    Tracks (mSlice k sliceSize (mFull sz.hash)) (rSlice k (rFull sz.hash)) c' E :=
  .slice (.full (Nat.le_refl 1) (Nat.le_refl _)) (eats_full h) hc hE

theorem tracks_prefixProof (h : 0 < sz.hash) :
    Tracks (mPrefixProof sz) (newPrefixProof sz) 25 (sz.hash + 24 * 65535) :=
  .bind (.slice tracks_res eats_res (by omega) (by omega)) (fun _ =>
    .bind (tracks_elements h (by omega) (by omega)) (fun _ => .pure))

theorem eats_prefixProof (h : 0 < sz.hash) : Eats (newPrefixProof sz) := by
  intro bs a rest e
  obtain ⟨l, m, h1, h2⟩ := rd_bind_inv e
  obtain ⟨n, m', h3, h4⟩ := rd_bind_inv h1
  have h5 := eats_num (k := 1) (by omega) _ _ _ h3
  have h6 := ((Tracks.loop (m := mRes sz) tracks_res n).ok _ _ _ h4).1
  have h7 := ((Tracks.bind (tracks_elements (k := 2) (c' := 25) (E := sz.hash + 24 * 65535) h (by omega) (by omega))
    (fun els => Tracks.pure (a := (⟨l, els⟩ : Prefix.Proof)))).ok _ _ _ h2).1
  omega

theorem tracks_combined (h : 0 < sz.hash) {E : Nat} (hE : slackSmall sz ≤ E) :
    Tracks (mCombinedTreeProof sz) (newCombinedTreeProof sz) 73 E := by
  have h1 : sz.hash ≤ sz.total := by unfold Sizes.total; omega
  unfold slackSmall at hE
  refine .bind (.slice (c := 0) (E := 0) .num (eats_num (by omega)) (by omega) (by omega)) (fun _ => ?_)
  refine .bind (.slice (tracks_prefixProof h) (eats_prefixProof h) (by unfold sliceSize; omega) (by unfold sliceSize; omega)) (fun _ => ?_)
  exact .bind (tracks_elements h (by omega) (by omega)) (fun _ =>
    .bind (tracks_elements h (by omega) (by omega)) (fun _ => .pure))

theorem tracks_step : Tracks (mBinaryLadderStep sz) (newBinaryLadderStep sz) 1 sz.total := by
  have h1 : sz.hash ≤ sz.total := by unfold Sizes.total; omega
  have h2 : sz.vrfProof ≤ sz.total := by unfold Sizes.total; omega
  exact .bind (.full (Nat.le_refl _) h2) (fun _ => .bind (.opt (.full (Nat.le_refl _) h1)) (fun _ => .pure))

theorem eats_step : Eats (newBinaryLadderStep sz) := by
  intro bs a rest e
  obtain ⟨p, m, h1, h2⟩ := rd_bind_inv e
  obtain ⟨o, m', h3, h4⟩ := rd_bind_inv h2
  cases h4
  have h5 := ((Tracks.full (n := sz.vrfProof) (c := 1) (Nat.le_refl _) (Nat.le_refl _)).ok _ _ _ h1).1
  obtain ⟨q, m'', h6, h7⟩ := rd_bind_inv h3
  have h8 : m''.length + 1 ≤ m.length := by
    obtain ⟨_, b, hb, rfl⟩ := codec_optional.canon _ _ _ h6
    cases hb
    cases q <;> simp
  have h9 : rest.length ≤ m''.length :=
    ((Tracks.ite (p := q = true) (Tracks.bind (Tracks.full (n := sz.hash) (c := 1) (Nat.le_refl _) (Nat.le_refl _))
      (fun a => Tracks.pure (a := some a))) .pure).ok _ _ _ h7).1
  omega

theorem tracks_steps {k E : Nat} (hE : sz.total + 48 * (256 ^ k - 1) ≤ E) :
    Tracks (mSlice k (2 * sliceSize) (mBinaryLadderStep sz)) (rSlice k (newBinaryLadderStep sz)) 73 E :=
  .slice tracks_step eats_step (by unfold sliceSize; omega) (by unfold sliceSize; omega)

theorem tracks_suffix {k E : Nat} (hk : 1 ≤ k) (hE : 65535 ≤ E) : Tracks (mUpdateSuffix c) (newUpdateSuffix c) k E :=
  .ite .pure (.bind (.bytes hk hE) (fun _ => .pure))

theorem tracks_value {k E : Nat} (hk : 1 ≤ k) (hE : 4294967295 ≤ E) : Tracks (mUpdateValue c) (newUpdateValue c) k E :=
  .bind (.bytes hk hE) (fun _ => .bind (tracks_suffix hk (by omega)) (fun _ => .pure))

theorem eats_bytes {k : Nat} (hk : 0 < k) : Eats (rBytes k) :=
  eats_bind (eats_num hk) (fun n bs _ _ e =>
    ((Tracks.full (n := n) (c := 1) (Nat.le_refl _) (Nat.le_refl _)).ok _ _ _ e).1)

theorem eats_value : Eats (newUpdateValue c) :=
  Tracks.eats (c := 1) (E := 65535) (eats_bytes (by omega)) (fun _ => .bind (tracks_suffix (Nat.le_refl _) (Nat.le_refl _)) (fun _ => .pure))

theorem tracks_info : Tracks (mUpdateInfo c sz) (newUpdateInfo c sz) 1 (sz.total + 65535) :=
  .bind (.full (Nat.le_refl _) (by unfold Sizes.total; omega)) (fun _ => .bind (tracks_suffix (Nat.le_refl _) (by omega)) (fun _ => .pure))

theorem eats_info (h : 0 < sz.opening) : Eats (newUpdateInfo c sz) :=
  Tracks.eats (c := 1) (E := 65535) (eats_full h) (fun _ => .bind (tracks_suffix (Nat.le_refl _) (Nat.le_refl _)) (fun _ => .pure))

theorem tracks_entry : Tracks mMonitorMapEntry newMonitorMapEntry 0 0 :=
  .bind .num (fun _ => .bind .num (fun _ => .pure))

theorem eats_entry : Eats newMonitorMapEntry :=
  Tracks.eats (c := 0) (E := 0) (eats_num (by omega)) (fun _ => .bind .num (fun _ => .pure))

theorem tracks_entries : Tracks (mSlice 1 16 mMonitorMapEntry) (rSlice 1 newMonitorMapEntry) 16 4080 :=
  .slice tracks_entry eats_entry (by omega) (by omega)

theorem tracks_searchRequest : Tracks mSearchRequest newSearchRequest 16 4080 :=
  .bind (.opt .num) (fun _ => .bind (.bytes (by omega) (by omega)) (fun _ => .bind (.opt .num) (fun _ => .pure)))

theorem tracks_contactMonitorRequest : Tracks mContactMonitorRequest newContactMonitorRequest 16 4080 :=
  .bind (.opt .num) (fun _ => .bind (.bytes (by omega) (by omega)) (fun _ => .bind tracks_entries (fun _ => .pure)))

theorem tracks_ownerInitRequest : Tracks mOwnerInitRequest newOwnerInitRequest 16 4080 :=
  .bind (.opt .num) (fun _ => .bind (.bytes (by omega) (by omega)) (fun _ => .bind .num (fun _ => .pure)))

theorem tracks_ownerMonitorRequest : Tracks mOwnerMonitorRequest newOwnerMonitorRequest 16 4080 :=
  .bind (.opt .num) (fun _ => .bind (.bytes (by omega) (by omega)) (fun _ => .bind tracks_entries (fun _ =>
    .bind .num (fun _ => .bind (.opt .num) (fun _ => .pure)))))

theorem tracks_monitorResponse (h : 0 < sz.hash) :
    Tracks (mMonitorResponse c sz) (newMonitorResponse c sz) 73 (slackSmall sz) :=
  .bind (tracks_fullTreeHead (by omega) (by unfold slackSmall; omega)) (fun _ =>
    .bind (tracks_combined h (Nat.le_refl _)) (fun _ => .pure))

theorem tracks_ownerInitResponse (h : 0 < sz.hash) :
    Tracks (mOwnerInitResponse c sz) (newOwnerInitResponse c sz) 73 (slackSmall sz) :=
  .bind (tracks_fullTreeHead (by omega) (by unfold slackSmall; omega)) (fun _ =>
    .bind (.slice (c := 0) (E := 0) .num (eats_num (by omega)) (by omega) (by unfold slackSmall; omega)) (fun _ =>
    .bind (tracks_steps (by unfold slackSmall; omega)) (fun _ => .bind (tracks_combined h (Nat.le_refl _)) (fun _ => .pure))))

theorem tracks_prefixEntry : Tracks (mPrefixEntry sz) (newPrefixEntry sz) 1 sz.hash :=
  .bind (.full (Nat.le_refl _) (Nat.le_refl _)) (fun _ => .bind (.full (Nat.le_refl _) (Nat.le_refl _)) (fun _ => .pure))

theorem eats_prefixEntry (h : 0 < sz.hash) : Eats (newPrefixEntry sz) :=
  Tracks.eats (c := 1) (E := sz.hash) (eats_full h) (fun _ => .bind (.full (Nat.le_refl _) (Nat.le_refl _)) (fun _ => .pure))

theorem tracks_auditorUpdate (h : 0 < sz.hash) :
    Tracks (mAuditorUpdate sz) (newAuditorUpdate sz) 73 (slackSmall sz) := by
  have h1 : sz.hash ≤ sz.total := by unfold Sizes.total; omega
  have hs : Tracks (mSlice 2 (2 * sliceSize) (mPrefixEntry sz)) (rSlice 2 (newPrefixEntry sz)) 73 (slackSmall sz) :=
    .slice tracks_prefixEntry (eats_prefixEntry h) (by unfold sliceSize; omega) (by unfold sliceSize slackSmall; omega)
  exact .bind .num (fun _ => .bind hs (fun _ => .bind hs (fun _ =>
    .bind ((tracks_prefixProof h).mono (by omega) (by unfold slackSmall; omega)) (fun _ => .pure))))

theorem tracks_labelValues : Tracks (mSlice 1 sliceSize mLabelValue) (rSlice 1 newLabelValue) 73 (4294967295 + 24 * 255) :=
  .slice (.bytes (Nat.le_refl 1) (Nat.le_refl _)) (eats_bytes (by omega)) (by unfold sliceSize; omega)
    (by unfold sliceSize; omega)

theorem tracks_updateRequest : Tracks mUpdateRequest newUpdateRequest 73 (4294967295 + 24 * 255) :=
  .bind (.opt .num) (fun _ => .bind (.bytes (by omega) (by omega)) (fun _ => .bind (.opt .num) (fun _ =>
    .bind tracks_labelValues (fun _ => .pure))))

theorem tracks_managerUpdateRequest :
    Tracks (mManagerUpdateRequest c) (newManagerUpdateRequest c) 73 (4294967295 + 48 * 255) :=
  .bind (.opt .num) (fun _ => .bind (.bytes (by omega) (by omega)) (fun _ => .bind (.opt .num) (fun _ =>
    .bind .num (fun _ => .bind (.slice (tracks_value (Nat.le_refl 1) (Nat.le_refl _)) eats_value
      (by unfold sliceSize; omega) (by unfold sliceSize; omega)) (fun _ => .pure)))))

theorem tracks_respVersion {req : SearchRequest} {k E : Nat} :
    Tracks (Mr.of (newRespVersion req)) (newRespVersion req) k E := by
  apply Tracks.of
  intro bs a rest e
  cases hv : req.version with
  | none =>
    have e' : (rNum 4 >>= fun v => Pure.pure (some v) : Rd (Option Nat)) bs = .ok (a, rest) := by
      rw [← e]; unfold newRespVersion; rw [hv]
    obtain ⟨v, m, h1, h2⟩ := rd_bind_inv e'
    cases h2
    exact ((Tracks.num (c := 0) (E := 0)).ok _ _ _ h1).1
  | some v =>
    have e' : (Pure.pure none : Rd (Option Nat)) bs = .ok (a, rest) := by
      rw [← e]; unfold newRespVersion; rw [hv]
    cases e'
    omega

theorem tracks_searchResponse (h : 0 < sz.hash) (req : SearchRequest) :
    Tracks (mSearchResponse c sz req) (newSearchResponse c sz req) 73 (slackLarge sz) := by
  have h1 : sz.opening ≤ sz.total := by unfold Sizes.total; omega
  refine .bind (tracks_fullTreeHead (by omega) (by unfold slackLarge; omega)) (fun _ => .bind tracks_respVersion (fun _ => ?_))
  refine .bind (.full (by omega) (by unfold slackLarge; omega)) (fun _ => .bind (tracks_value (by omega) (by unfold slackLarge; omega)) (fun _ => ?_))
  exact .bind (tracks_steps (by unfold slackLarge; omega)) (fun _ =>
    .bind (tracks_combined h (by unfold slackSmall slackLarge; omega)) (fun _ => .pure))

theorem tracks_updateResponse (h : 0 < sz.hash) (ho : 0 < sz.opening) :
    Tracks (mUpdateResponse c sz) (newUpdateResponse c sz) 73 (slackLarge sz) := by
  refine .bind (tracks_fullTreeHead (by omega) (by unfold slackLarge; omega)) (fun _ => .bind .num (fun _ => ?_))
  refine .bind (tracks_labelValues.mono (Nat.le_refl _) (by unfold slackLarge; omega)) (fun _ => ?_)
  refine .bind (.slice tracks_info (eats_info ho) (by unfold sliceSize; omega) (by unfold sliceSize slackLarge; omega)) (fun _ => ?_)
  exact .bind (tracks_steps (by unfold slackLarge; omega)) (fun _ =>
    .bind (tracks_combined h (by unfold slackSmall slackLarge; omega)) (fun _ => .pure))

end Katie.Wire
