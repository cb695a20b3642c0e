import Verif.Lemmas.Structs

/-
Reading a proper initial part of an encoding (helper lemmas for C46 and C47).
-/

namespace Katie.Wire
open Katie

variable {α : Type}

/-- A format with one encoding for every value, which tells where it ends, has no encoding that begins
another one. -/
theorem Codec.prefix_fails {P : α → Prop} {w : α → G Bytes} {r : Rd α} (c : Codec P w r) {a : α} {b : Bytes}
    (ha : P a) (hb : w a = .ok b) {k : Nat} (hk : k < b.length) (p : α × Bytes) : r (b.take k) ≠ .ok p := by
  obtain ⟨a', rest⟩ := p
  intro h
  obtain ⟨hp, b', hb', e⟩ := c.canon _ _ _ h
  have h1 : r b = .ok (a, []) := by simpa using c.rt a b [] ha hb
  have e2 : b = b' ++ (rest ++ b.drop k) := by rw [← List.append_assoc, ← e, List.take_append_drop]
  have h2 : r b = .ok (a', rest ++ b.drop k) := by
    have := c.rt a' b' (rest ++ b.drop k) hp hb'
    rwa [← e2] at this
  rw [h1] at h2
  injection h2 with h2
  have h3 : ([] : Bytes).length = (rest ++ b.drop k).length := congrArg List.length (congrArg Prod.snd h2)
  rw [List.length_append, List.length_drop] at h3
  simp only [List.length_nil] at h3
  omega

/-- the bytes of a retained version -/
theorem retainedVersion_form {sz : Sizes} {v : RetainedVersion} (hv : v.Typed sz) {b : Bytes}
    (hb : v.marshal = .ok b) : ∃ h t, h.length = 4 + sz.hash ∧ (b = h ++ [0] ∧ t = [] ∨ b = h ++ 1 :: t) := by
  obtain ⟨version, out, com⟩ := v
  obtain ⟨x, y, hx, hy, rfl⟩ := wSeq_ok.1 hb
  obtain ⟨y, z, hy', hz, rfl⟩ := wSeq_ok.1 hy
  cases hx
  cases hy'
  have hl : (putBE 4 version ++ out).length = 4 + sz.hash := by
    rw [List.length_append, putBE_length, hv.2.1]
  cases com with
  | none =>
    cases hz
    exact ⟨putBE 4 version ++ out, [], hl, .inl ⟨by simp, rfl⟩⟩
  | some c =>
    have hz' : wOptional true +> wRaw c = .ok z := hz
    obtain ⟨u, t, hu, ht, rfl⟩ := wSeq_ok.1 hz'
    cases hu
    exact ⟨putBE 4 version ++ out, t, hl, .inr (by simp)⟩

/-- Reading past the end of an incomplete list of retained versions leaves nothing. -/
theorem versionsLeft_prefix {sz : Sizes} : ∀ (vs : List RetainedVersion) (b : Bytes), Each (RetainedVersion.Typed sz) vs →
    wLoop RetainedVersion.marshal vs = .ok b → ∀ k, k < b.length → versionsLeft sz vs.length (b.take k) = []
  | [], b, _, hb, k, hk => by
    cases hb
    simp at hk
  | v :: vs, b, hvs, hb, k, hk => by
    obtain ⟨x, y, hx, hy, rfl⟩ := wSeq_ok.1 hb
    have hv : v.Typed sz := hvs v (by simp)
    rw [List.length_cons]
    unfold versionsLeft
    by_cases hkx : k < x.length
    · rw [List.take_append_of_le_length (by omega)]
      have hf := (codec_retainedVersion sz).prefix_fails hv hx hkx
      cases hr : newRetainedVersion sz (x.take k) with
      | ok p => exact absurd hr (hf p)
      | error e =>
        show (if (x.take k).getD (4 + sz.hash) 0 = 1 then [] else (x.take k).drop (4 + sz.hash + 1)) = []
        obtain ⟨h, t, hl, hc⟩ := retainedVersion_form hv hx
        rcases hc with ⟨rfl, _⟩ | rfl
        · have : ((h ++ [0] : Bytes).take k).drop (4 + sz.hash + 1) = [] := by
            apply List.drop_of_length_le
            rw [List.length_take, List.length_append, hl, List.length_singleton]
            omega
          rw [this]
          exact ite_self _
        · by_cases hk2 : k ≤ 4 + sz.hash
          · have : ((h ++ 1 :: t : Bytes).take k).drop (4 + sz.hash + 1) = [] := by
              apply List.drop_of_length_le
              rw [List.length_take]
              omega
            rw [this]
            exact ite_self _
          · rw [if_pos]
            rw [List.getD_eq_getElem?_getD, List.getElem?_take_of_lt (by omega), ← hl,
              List.getElem?_append_right (by omega), Nat.sub_self]
            rfl
    · rw [List.take_append, List.take_of_length_le (by omega),
        (codec_retainedVersion sz).rt v x _ hv hx]
      exact versionsLeft_prefix vs y (fun a ha => hvs a (by simp [ha])) hy (k - x.length)
        (by rw [List.length_append] at hk; omega)

/-- the same, including the count -/
theorem versionsRest_prefix {sz : Sizes} {vs : List RetainedVersion} {b : Bytes} (hvs : Each (RetainedVersion.Typed sz) vs)
    (hb : wSlice 4 "retained versions" RetainedVersion.marshal vs = .ok b) {k : Nat} (hk : k < b.length) :
    versionsRest sz (b.take k) = [] := by
  unfold wSlice at hb
  split at hb
  · cases hb
  · rename_i hlen
    obtain ⟨x, y, hx, hy, rfl⟩ := wSeq_ok.1 hb
    cases hx
    unfold versionsRest
    by_cases h4 : k < 4
    · have : rNum 4 ((putBE 4 vs.length ++ y).take k) = goErr "EOF" := by
        unfold rNum
        rw [if_pos (by rw [List.length_take]; omega)]
      rw [this]
      rfl
    · have hl : (putBE 4 vs.length).length = 4 := putBE_length ..
      rw [List.take_append, List.take_of_length_le (by omega),
        (codec_num 4).rt vs.length _ _ (by unfold Fits; omega) rfl]
      exact versionsLeft_prefix vs y hvs hy _ (by rw [List.length_append] at hk; omega)

end Katie.Wire
