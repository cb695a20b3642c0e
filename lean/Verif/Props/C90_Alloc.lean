import Verif.Lemmas.AllocDecode

/-
C90: decoding a message reserves memory in proportion to the length of the message.

`(mX bs).2` is the number of bytes that decoding `bs` asks for with `make` (Verif/Model/Alloc.lean).
-/

namespace Katie.Props
open Katie Katie.Wire

/-- Apart from the count, the counted decoders are the decoders. -/
theorem C90_counts_the_decoders (c : Config) (sz : Sizes) (hh : 0 < sz.hash) (ho : 0 < sz.opening)
    (req : SearchRequest) (bs : Bytes) :
    (mSearchRequest bs).1 = newSearchRequest bs ∧
    (mContactMonitorRequest bs).1 = newContactMonitorRequest bs ∧
    (mOwnerInitRequest bs).1 = newOwnerInitRequest bs ∧
    (mOwnerMonitorRequest bs).1 = newOwnerMonitorRequest bs ∧
    (mUpdateRequest bs).1 = newUpdateRequest bs ∧
    (mManagerUpdateRequest c bs).1 = newManagerUpdateRequest c bs ∧
    (mSearchResponse c sz req bs).1 = newSearchResponse c sz req bs ∧
    (mMonitorResponse c sz bs).1 = newMonitorResponse c sz bs ∧
    (mOwnerInitResponse c sz bs).1 = newOwnerInitResponse c sz bs ∧
    (mUpdateResponse c sz bs).1 = newUpdateResponse c sz bs ∧
    (mAuditorUpdate sz bs).1 = newAuditorUpdate sz bs :=
  ⟨tracks_searchRequest.erase bs, tracks_contactMonitorRequest.erase bs, tracks_ownerInitRequest.erase bs,
    tracks_ownerMonitorRequest.erase bs, tracks_updateRequest.erase bs, tracks_managerUpdateRequest.erase bs,
    (tracks_searchResponse hh req).erase bs, (tracks_monitorResponse hh).erase bs,
    (tracks_ownerInitResponse hh).erase bs, (tracks_updateResponse hh ho).erase bs,
    (tracks_auditorUpdate hh).erase bs⟩

theorem tracks_total {α : Type} {m : Mr α} {r : Rd α} {c E : Nat} (h : Tracks m r c E) (bs : Bytes) :
    (m bs).2 ≤ c * bs.length + E := by
  cases hr : r bs with
  | error e => exact h.err bs e hr
  | ok p =>
    have := (h.ok bs p.1 p.2 hr).2
    omega

/-- Requests that contain no values: at most 16 bytes for each byte received, and 4 kB. -/
theorem C90_requests_partial (bs : Bytes) :
    (mSearchRequest bs).2 ≤ 16 * bs.length + 4080 ∧
    (mContactMonitorRequest bs).2 ≤ 16 * bs.length + 4080 ∧
    (mOwnerInitRequest bs).2 ≤ 16 * bs.length + 4080 ∧
    (mOwnerMonitorRequest bs).2 ≤ 16 * bs.length + 4080 :=
  ⟨tracks_total tracks_searchRequest bs, tracks_total tracks_contactMonitorRequest bs,
    tracks_total tracks_ownerInitRequest bs, tracks_total tracks_ownerMonitorRequest bs⟩

/-- Responses that contain no values, and what an auditor receives: at most 73 bytes for each byte received, and
3 MB. -/
theorem C90_responses_partial (c : Config) (sz : Sizes) (hh : 0 < sz.hash) (bs : Bytes) :
    (mMonitorResponse c sz bs).2 ≤ 73 * bs.length + (sz.hash + sz.vrfProof + sz.opening + 3145680) ∧
    (mOwnerInitResponse c sz bs).2 ≤ 73 * bs.length + (sz.hash + sz.vrfProof + sz.opening + 3145680) ∧
    (mAuditorUpdate sz bs).2 ≤ 73 * bs.length + (sz.hash + sz.vrfProof + sz.opening + 3145680) :=
  ⟨tracks_total (tracks_monitorResponse hh) bs, tracks_total (tracks_ownerInitResponse hh) bs,
    tracks_total (tracks_auditorUpdate hh) bs⟩

/-- Messages that contain values: 4 GB more. -/
theorem C90_values_partial (c : Config) (sz : Sizes) (hh : 0 < sz.hash) (ho : 0 < sz.opening) (req : SearchRequest)
    (bs : Bytes) :
    (mUpdateRequest bs).2 ≤ 73 * bs.length + (2 ^ 32 - 1 + 6120) ∧
    (mManagerUpdateRequest c bs).2 ≤ 73 * bs.length + (2 ^ 32 - 1 + 12240) ∧
    (mSearchResponse c sz req bs).2 ≤
      73 * bs.length + (sz.hash + sz.vrfProof + sz.opening + 3145680 + (2 ^ 32 - 1)) ∧
    (mUpdateResponse c sz bs).2 ≤
      73 * bs.length + (sz.hash + sz.vrfProof + sz.opening + 3145680 + (2 ^ 32 - 1)) :=
  ⟨tracks_total tracks_updateRequest bs, tracks_total tracks_managerUpdateRequest bs,
    tracks_total (tracks_searchResponse hh req) bs, tracks_total (tracks_updateResponse hh ho) bs⟩

/-- If a message is accepted, then there is no such supplement: 73 bytes for each byte received. -/
theorem C90_accepted (c : Config) (sz : Sizes) (hh : 0 < sz.hash) (ho : 0 < sz.opening) (req : SearchRequest)
    (bs : Bytes) :
    (∀ p, newUpdateRequest bs = .ok p → (mUpdateRequest bs).2 ≤ 73 * bs.length) ∧
    (∀ p, newManagerUpdateRequest c bs = .ok p → (mManagerUpdateRequest c bs).2 ≤ 73 * bs.length) ∧
    (∀ p, newSearchResponse c sz req bs = .ok p → (mSearchResponse c sz req bs).2 ≤ 73 * bs.length) ∧
    (∀ p, newUpdateResponse c sz bs = .ok p → (mUpdateResponse c sz bs).2 ≤ 73 * bs.length) :=
  ⟨fun p h => by have := (tracks_updateRequest.ok bs p.1 p.2 h).2; omega,
    fun p h => by have := (tracks_managerUpdateRequest.ok bs p.1 p.2 h).2; omega,
    fun p h => by have := ((tracks_searchResponse hh req).ok bs p.1 p.2 h).2; omega,
    fun p h => by have := ((tracks_updateResponse hh ho).ok bs p.1 p.2 h).2; omega⟩

/-- An update request of 8 bytes (no label, one value said to have 2³² - 1 bytes) makes the server reserve 4 GB
before it refuses the request. -/
theorem C90_update_request_false : ∃ bs : Bytes, bs.length = 8 ∧ 2 ^ 32 - 1 ≤ (mUpdateRequest bs).2 ∧
    Errs (newUpdateRequest bs) :=
  ⟨[0, 0, 0, 1, 255, 255, 255, 255], rfl, by decide +kernel, _, rfl⟩

/-- The same for the request to a manager. -/
theorem C90_manager_update_request_false (c : Config) : ∃ bs : Bytes, bs.length = 12 ∧
    2 ^ 32 - 1 ≤ (mManagerUpdateRequest c bs).2 ∧ Errs (newManagerUpdateRequest c bs) :=
  ⟨[0, 0, 0, 0, 0, 0, 0, 1, 255, 255, 255, 255], rfl,
    (by decide : 2 ^ 32 - 1 ≤ 0 + (0 + 0 + (0 + 0 + (0 + (0 + (48 + (4294967295 + 0))))))), _, rfl⟩

/-- The same for the client that receives the response to an update. -/
theorem C90_update_response_false (c : Config) (sz : Sizes) : ∃ bs : Bytes, bs.length = 14 ∧
    2 ^ 32 - 1 ≤ (mUpdateResponse c sz bs).2 ∧ Errs (newUpdateResponse c sz bs) :=
  ⟨[1, 0, 0, 0, 0, 0, 0, 0, 0, 1, 255, 255, 255, 255], rfl,
    (by decide : 2 ^ 32 - 1 ≤ 0 + (0 + (0 + (24 + (4294967295 + 0))))), _, rfl⟩

theorem mr_bind_ok {α β : Type} {m : Mr α} {f : α → Mr β} {bs rest : Bytes} {a : α} {n : Nat}
    (h : m bs = (.ok (a, rest), n)) : (m >>= f) bs = ((f a rest).1, n + (f a rest).2) := by
  show (match m bs with
    | (.ok (a, rest), n) => ((f a rest).1, n + (f a rest).2)
    | (.error e, n) => (.error e, n)) = _
  rw [h]

theorem mr_bind_err {α β : Type} {m : Mr α} {f : α → Mr β} {bs : Bytes} {e : Fault} {n : Nat}
    (h : m bs = (.error e, n)) : (m >>= f) bs = (.error e, n) := by
  show (match m bs with
    | (.ok (a, rest), n) => ((f a rest).1, n + (f a rest).2)
    | (.error e, n) => (.error e, n)) = _
  rw [h]

/-- The same for the client that receives the response to a search: the value said to be long comes after the
opening. -/
theorem C90_search_response_false (c : Config) (sz : Sizes) (hh : 0 < sz.hash) (req : SearchRequest) :
    ∃ bs : Bytes, bs.length ≤ sz.opening + 9 ∧ 2 ^ 32 - 1 ≤ (mSearchResponse c sz req bs).2 ∧
    Errs (newSearchResponse c sz req bs) := by
  obtain ⟨w, x, hw, hv⟩ : ∃ w x, w.length ≤ 4 ∧ ∀ rest, newRespVersion req (w ++ rest) = .ok (x, rest) := by
    cases h : req.version with
    | none => exact ⟨[0, 0, 0, 0], some 0, by decide, fun rest => by unfold newRespVersion; rw [h]; rfl⟩
    | some v => exact ⟨[], none, by decide, fun rest => by unfold newRespVersion; rw [h]; rfl⟩
  refine ⟨1 :: (w ++ (List.replicate sz.opening 0 ++ [255, 255, 255, 255])), ?_, ?_⟩
  · simp only [List.length_cons, List.length_append, List.length_replicate, List.length_nil]
    omega
  · have h1 : ∀ rest, mFullTreeHead c (1 :: rest) = (.ok (⟨none, none⟩, rest), 0) := fun _ => rfl
    have h2 : ∀ rest, Mr.of (newRespVersion req) (w ++ rest) = (.ok (x, rest), 0) := fun rest => by
      unfold Mr.of; rw [hv]
    have h3 : ∀ rest, mFull sz.opening (List.replicate sz.opening 0 ++ rest) =
        (.ok (List.replicate sz.opening 0, rest), sz.opening) := fun rest => by
      have := (codec_full sz.opening).rt (List.replicate sz.opening 0) _ rest (by simp) rfl
      show (rFull sz.opening _, sz.opening + 0) = _
      rw [this]
      rfl
    have h4 : mUpdateValue c [255, 255, 255, 255] = (.error (.err "unexpected EOF"), 0 + (4294967295 + 0)) := rfl
    have h5 : mSearchResponse c sz req (1 :: (w ++ (List.replicate sz.opening 0 ++ [255, 255, 255, 255]))) =
        (.error (.err "unexpected EOF"), 0 + (0 + (sz.opening + (0 + (4294967295 + 0))))) := by
      unfold mSearchResponse
      rw [mr_bind_ok (h1 _), mr_bind_ok (h2 _), mr_bind_ok (h3 _), mr_bind_err h4]
    have h6 := (tracks_searchResponse (c := c) hh req).erase (1 :: (w ++ (List.replicate sz.opening 0 ++ [255, 255, 255, 255])))
    rw [h5] at h6
    rw [h5]
    exact ⟨by show _ ≤ 0 + (0 + (sz.opening + (0 + (4294967295 + 0)))); omega, _, h6.symm⟩

/-- a message within the bounds: a search request with a label of three bytes -/
example : (mSearchRequest [0, 3, 1, 2, 3, 0]).2 = 3 ∧ newSearchRequest [0, 3, 1, 2, 3, 0] = .ok (⟨none, [1, 2, 3], none⟩, []) :=
  ⟨by decide, by decide⟩

end Katie.Props
