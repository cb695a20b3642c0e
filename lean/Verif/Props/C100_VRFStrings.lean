import Verif.Spec.VRF
import Verif.Props.C50_C52_Crypto

/-
C100: what the VRFs hash is what RFC 9381 says, determines all that it is made from, and is never the same for two purposes.
-/

namespace Katie.VRFSpec
open Katie Katie.VRF

/-- The strings that are hashed, RFC 9381, 5.2, 5.4.1.1, 5.4.3: the suite, the front separator (1 for encode_to_curve, 2 for the
challenge, 3 for the output), the body, the back separator. -/
def hashString (suite use : UInt8) (body : Bytes) : Bytes := [suite, use] ++ body ++ [0x00]

/-- RFC 9381, 5.4.1.1, ECVRF_encode_to_curve_try_and_increment: the point is `cofactor` times the one which the first hash stands for
that stands for one at all; a hash stands for the point `interpret hash`. -/
def EncodesTo {P : Type} [AddCommGroup P] (sha : Bytes → Bytes) (interpret : Bytes → Option P) (suite : UInt8) (cofactor : Nat)
    (salt alpha : Bytes) (H : P) : Prop :=
  ∃ ctr, ctr < 256 ∧ (∀ j < ctr, interpret (sha (hashString suite 1 (salt ++ alpha ++ putBE 1 j))) = none) ∧
    ∃ p, interpret (sha (hashString suite 1 (salt ++ alpha ++ putBE 1 ctr))) = some p ∧ H = cofactor • p

/-- two different strings whose hashes begin with the same `n` bytes -/
def SameStart (sha : Bytes → Bytes) (n : Nat) (s t : Bytes) : Prop := s ≠ t ∧ (sha s).take n = (sha t).take n

end Katie.VRFSpec

namespace Katie.Props
open Katie Katie.VRF Katie.VRFSpec Katie.Wire

variable {P : Type} [AddCommGroup P]

/-- **C100 (separation)** A hashed string determines the suite, the purpose and the body: two VRFs, or two purposes, never hash the
same string. -/
theorem C100_separate {s s' u u' : UInt8} {b b' : Bytes} (h : hashString s u b = hashString s' u' b') : s = s' ∧ u = u' ∧ b = b' := by
  simp only [hashString, List.cons_append, List.nil_append, List.cons.injEq] at h
  exact ⟨h.1, h.2.1, List.append_cancel_right h.2.2⟩

/-- The hashed string of encode_to_curve determines the key, the input and the counter. -/
theorem C100_encode_binds {s : UInt8} {salt salt' m m' : Bytes} {j j' : Nat} (hl : salt.length = salt'.length) (hj : j < 256)
    (hj' : j' < 256) (h : hashString s 1 (salt ++ m ++ putBE 1 j) = hashString s 1 (salt' ++ m' ++ putBE 1 j')) :
    salt = salt' ∧ m = m' ∧ j = j' := by
  obtain ⟨-, -, h⟩ := C100_separate h
  obtain ⟨h1, h2⟩ := List.append_inj' h (by rw [putBE_length, putBE_length])
  obtain ⟨h3, h4⟩ := List.append_inj h1 hl
  refine ⟨h3, h4, ?_⟩
  have := congrArg getBE h2
  rwa [getBE_putBE, getBE_putBE, Nat.mod_eq_of_lt (by simpa using hj), Nat.mod_eq_of_lt (by simpa using hj')] at this

theorem counter_byte (j : Nat) : putBE 1 j = [UInt8.ofNat j] := by
  unfold putBE
  simp only [putBE, List.nil_append, List.cons.injEq, and_true]
  apply UInt8.toNat_inj.1
  simp

theorem p256_string (salt m : Bytes) (j : Nat) :
    [0x01, 0x01] ++ salt ++ m ++ [UInt8.ofNat j, 0x00] = hashString 1 1 (salt ++ m ++ putBE 1 j) := by
  rw [counter_byte]; simp [hashString]

theorem ed_string (salt m : Bytes) (j : Nat) :
    [0x03, 0x01] ++ salt ++ m ++ [UInt8.ofNat j, 0x00] = hashString 3 1 (salt ++ m ++ putBE 1 j) := by
  rw [counter_byte]; simp [hashString]

theorem p256_loop (E : Curve P) (salt m : Bytes) : ∀ (fuel c : Nat) (H : P), P256.encodeLoop E salt m fuel c = .ok H ↔
    ∃ ctr, c ≤ ctr ∧ ctr < c + fuel ∧
      (∀ j, c ≤ j → j < ctr → E.dec (0x02 :: E.sha (hashString 1 1 (salt ++ m ++ putBE 1 j))) = none) ∧
      E.dec (0x02 :: E.sha (hashString 1 1 (salt ++ m ++ putBE 1 ctr))) = some H := by
  intro fuel
  induction fuel with
  | zero =>
    intro c H
    constructor
    · intro h; cases h
    · rintro ⟨ctr, h1, h2, -⟩; omega
  | succ f ih =>
    intro c H
    unfold P256.encodeLoop
    rw [p256_string]
    cases hd : E.dec (0x02 :: E.sha (hashString 1 1 (salt ++ m ++ putBE 1 c))) with
    | some p =>
      constructor
      · intro h
        obtain rfl := Except.ok.inj h
        exact ⟨c, le_refl _, by omega, fun j h1 h2 => by omega, hd⟩
      · rintro ⟨ctr, h1, h2, h3, h4⟩
        by_cases hc : ctr = c
        · subst hc
          rw [hd] at h4
          obtain rfl := Option.some.inj h4
          rfl
        · have := h3 c (le_refl _) (by omega)
          rw [hd] at this
          cases this
    | none =>
      simp only
      rw [ih]
      constructor
      · rintro ⟨ctr, h1, h2, h3, h4⟩
        refine ⟨ctr, by omega, by omega, fun j k1 k2 => ?_, h4⟩
        by_cases hc : j = c
        · subst hc; exact hd
        · exact h3 j (by omega) k2
      · rintro ⟨ctr, h1, h2, h3, h4⟩
        by_cases hc : ctr = c
        · subst hc
          rw [hd] at h4
          cases h4
        · exact ⟨ctr, by omega, by omega, fun j k1 k2 => h3 j (by omega) k2, h4⟩

/-- **C100 (P-256, encode_to_curve)** The input is hashed to the point that the RFC prescribes; if there is none, the code panics. -/
theorem C100_p256_encode (E : Curve P) (salt m : Bytes) (H : P) :
    P256.encodeToCurve E salt m = .ok H ↔ EncodesTo E.sha (fun h => E.dec (0x02 :: h)) 1 1 salt m H := by
  unfold P256.encodeToCurve EncodesTo
  rw [p256_loop]
  constructor
  · rintro ⟨ctr, -, h2, h3, h4⟩
    exact ⟨ctr, by omega, fun j hj => h3 j (by omega) hj, H, h4, (one_smul _ _).symm⟩
  · rintro ⟨ctr, h2, h3, p, h4, rfl⟩
    exact ⟨ctr, by omega, by omega, fun j _ hj => h3 j hj, by rw [one_smul]; exact h4⟩

theorem ed_loop (E : Curve P) (salt m : Bytes) : ∀ (fuel c : Nat) (H : P), Ed.encodeLoop E salt m fuel c = .ok H ↔
    ∃ ctr, c ≤ ctr ∧ ctr < c + fuel ∧
      (∀ j, c ≤ j → j < ctr → E.dec ((E.sha (hashString 3 1 (salt ++ m ++ putBE 1 j))).take 32) = none) ∧
      ∃ p, E.dec ((E.sha (hashString 3 1 (salt ++ m ++ putBE 1 ctr))).take 32) = some p ∧ H = 8 • p := by
  intro fuel
  induction fuel with
  | zero =>
    intro c H
    constructor
    · intro h; cases h
    · rintro ⟨ctr, h1, h2, -⟩; omega
  | succ f ih =>
    intro c H
    unfold Ed.encodeLoop
    rw [ed_string]
    cases hd : E.dec ((E.sha (hashString 3 1 (salt ++ m ++ putBE 1 c))).take 32) with
    | some p =>
      constructor
      · intro h
        obtain rfl := Except.ok.inj h
        exact ⟨c, le_refl _, by omega, fun j h1 h2 => by omega, p, hd, rfl⟩
      · rintro ⟨ctr, h1, h2, h3, q, h4, rfl⟩
        by_cases hc : ctr = c
        · subst hc
          rw [hd] at h4
          obtain rfl := Option.some.inj h4
          rfl
        · have := h3 c (le_refl _) (by omega)
          rw [hd] at this
          cases this
    | none =>
      simp only
      rw [ih]
      constructor
      · rintro ⟨ctr, h1, h2, h3, h4⟩
        refine ⟨ctr, by omega, by omega, fun j k1 k2 => ?_, h4⟩
        by_cases hc : j = c
        · subst hc; exact hd
        · exact h3 j (by omega) k2
      · rintro ⟨ctr, h1, h2, h3, q, h4, h5⟩
        by_cases hc : ctr = c
        · subst hc
          rw [hd] at h4
          cases h4
        · exact ⟨ctr, by omega, by omega, fun j k1 k2 => h3 j (by omega) k2, q, h4, h5⟩

/-- **C100 (edwards25519, encode_to_curve)** -/
theorem C100_ed25519_encode (E : Curve P) (salt m : Bytes) (H : P) :
    Ed.encodeToCurve E salt m = .ok H ↔ EncodesTo E.sha (fun h => E.dec (h.take 32)) 3 8 salt m H := by
  unfold Ed.encodeToCurve EncodesTo
  rw [ed_loop]
  constructor
  · rintro ⟨ctr, -, h2, h3, h4⟩
    exact ⟨ctr, by omega, fun j hj => h3 j (by omega) hj, h4⟩
  · rintro ⟨ctr, h2, h3, h4⟩
    exact ⟨ctr, by omega, by omega, fun j _ hj => h3 j hj, h4⟩

/-- **C100 (P-256, challenge)** The challenge is the truncated hash of the five points; and two challenges are only equal if they were
made from the same key, hashed input and claimed output (and the same two commitments, in their encoding), unless two different
hashed strings have hashes with the same first 16 bytes. -/
theorem C100_p256_challenge {E : Curve P} (hE : P256Laws E) (Y H Γ U V Y' H' Γ' U' V' : P)
    (hY : Y ≠ 0) (hH : H ≠ 0) (hΓ : Γ ≠ 0) (hY' : Y' ≠ 0) (hH' : H' ≠ 0) (hΓ' : Γ' ≠ 0)
    (h : P256.challenge E Y H Γ U V = P256.challenge E Y' H' Γ' U' V') :
    P256.challenge E Y H Γ U V = (E.sha (hashString 1 2 ([Y, H, Γ, U, V].flatMap E.enc))).take 16 ∧
    ((Y = Y' ∧ H = H' ∧ Γ = Γ' ∧ E.enc U ++ E.enc V = E.enc U' ++ E.enc V') ∨
      SameStart E.sha 16 (hashString 1 2 ([Y, H, Γ, U, V].flatMap E.enc)) (hashString 1 2 ([Y', H', Γ', U', V'].flatMap E.enc))) := by
  have e : ∀ a b c d f : P, P256.challenge E a b c d f = (E.sha (hashString 1 2 ([a, b, c, d, f].flatMap E.enc))).take 16 := by
    intro a b c d f
    simp [P256.challenge, hashString]
  refine ⟨e _ _ _ _ _, ?_⟩
  by_cases hs : hashString 1 2 ([Y, H, Γ, U, V].flatMap E.enc) = hashString 1 2 ([Y', H', Γ', U', V'].flatMap E.enc)
  · left
    obtain ⟨-, -, hs⟩ := C100_separate hs
    simp only [List.flatMap_cons, List.flatMap_nil, List.append_nil] at hs
    have inj : ∀ p p' : P, p ≠ 0 → p' ≠ 0 → E.enc p = E.enc p' → p = p' := by
      intro p p' hp hp' heq
      have := hE.dec_enc p hp
      rw [heq, hE.dec_enc p' hp'] at this
      exact (Option.some.inj this).symm
    obtain ⟨h1, hs⟩ := List.append_inj hs (by rw [hE.enc_length _ hY, hE.enc_length _ hY'])
    obtain ⟨h2, hs⟩ := List.append_inj hs (by rw [hE.enc_length _ hH, hE.enc_length _ hH'])
    obtain ⟨h3, hs⟩ := List.append_inj hs (by rw [hE.enc_length _ hΓ, hE.enc_length _ hΓ'])
    exact ⟨inj _ _ hY hY' h1, inj _ _ hH hH' h2, inj _ _ hΓ hΓ' h3, hs⟩
  · right
    refine ⟨hs, ?_⟩
    rw [← e, ← e]
    exact h

/-- **C100 (edwards25519, challenge)** -/
theorem C100_ed25519_challenge {E : Curve P} (hE : EdLaws E) (Y H Γ U V Y' H' Γ' U' V' : P)
    (h : Ed.challenge E Y H Γ U V = Ed.challenge E Y' H' Γ' U' V') :
    Ed.challenge E Y H Γ U V = (E.sha (hashString 3 2 ([Y, H, Γ, U, V].flatMap E.enc))).take 16 ++ List.replicate 16 0 ∧
    ((Y = Y' ∧ H = H' ∧ Γ = Γ' ∧ U = U' ∧ V = V') ∨
      SameStart E.sha 16 (hashString 3 2 ([Y, H, Γ, U, V].flatMap E.enc)) (hashString 3 2 ([Y', H', Γ', U', V'].flatMap E.enc))) := by
  have e : ∀ a b c d f : P, Ed.challenge E a b c d f =
      (E.sha (hashString 3 2 ([a, b, c, d, f].flatMap E.enc))).take 16 ++ List.replicate 16 0 := by
    intro a b c d f
    simp [Ed.challenge, hashString]
  refine ⟨e _ _ _ _ _, ?_⟩
  by_cases hs : hashString 3 2 ([Y, H, Γ, U, V].flatMap E.enc) = hashString 3 2 ([Y', H', Γ', U', V'].flatMap E.enc)
  · left
    obtain ⟨-, -, hs⟩ := C100_separate hs
    simp only [List.flatMap_cons, List.flatMap_nil, List.append_nil] at hs
    have inj : ∀ p p' : P, E.enc p = E.enc p' → p = p' := by
      intro p p' heq
      have := hE.dec_enc p
      rw [heq, hE.dec_enc p'] at this
      exact (Option.some.inj this).symm
    obtain ⟨h1, hs⟩ := List.append_inj hs (by rw [hE.enc_length, hE.enc_length])
    obtain ⟨h2, hs⟩ := List.append_inj hs (by rw [hE.enc_length, hE.enc_length])
    obtain ⟨h3, hs⟩ := List.append_inj hs (by rw [hE.enc_length, hE.enc_length])
    obtain ⟨h4, hs⟩ := List.append_inj hs (by rw [hE.enc_length, hE.enc_length])
    exact ⟨inj _ _ h1, inj _ _ h2, inj _ _ h3, inj _ _ h4, inj _ _ hs⟩
  · right
    refine ⟨hs, ?_⟩
    rw [e, e] at h
    exact List.append_cancel_right h

/-- **C100 (P-256, output)** The output of an accepted proof is the hash of the point in the proof; two accepted proofs, for whatever
keys and inputs, have the same output only if they contain the same point, unless the two hashed strings collide. -/
theorem C100_p256_output {E : Curve P} {Y Y' : P} {m m' proof proof' out : Bytes}
    (h : P256.verifyOutput E Y m proof = .ok out) (h' : P256.verifyOutput E Y' m' proof' = .ok out) :
    ∃ Γ Γ', E.dec (proof.take 33) = some Γ ∧ E.dec (proof'.take 33) = some Γ' ∧
      out = E.sha (hashString 1 3 (proof.take 33)) ∧
      (Γ = Γ' ∨ SameStart E.sha (E.sha (hashString 1 3 (proof.take 33))).length (hashString 1 3 (proof.take 33))
        (hashString 1 3 (proof'.take 33))) := by
  have key : ∀ (Y : P) (m proof : Bytes), P256.verifyOutput E Y m proof = .ok out →
      ∃ Γ, E.dec (proof.take 33) = some Γ ∧ out = E.sha (hashString 1 3 (proof.take 33)) := by
    intro Y m proof h
    unfold P256.verifyOutput at h
    obtain ⟨_, hv, h⟩ := G.bind_eq_ok.1 h
    unfold P256.verify at hv
    split at hv
    · cases hv
    split at hv
    · cases hv
    next Γ hΓ => exact ⟨Γ, hΓ, (Except.ok.inj h).symm⟩
  obtain ⟨Γ, h1, h2⟩ := key Y m proof h
  obtain ⟨Γ', h1', h2'⟩ := key Y' m' proof' h'
  refine ⟨Γ, Γ', h1, h1', h2, ?_⟩
  by_cases hs : hashString 1 3 (proof.take 33) = hashString 1 3 (proof'.take 33)
  · left
    obtain ⟨-, -, hs⟩ := C100_separate hs
    rw [hs, h1'] at h1
    exact (Option.some.inj h1).symm
  · right
    refine ⟨hs, ?_⟩
    rw [← h2, ← h2']

/-- **C100 (edwards25519, output)** The output is the first half of the hash of eight times the point in the proof. -/
theorem C100_ed25519_output {E : Curve P} (hE : EdLaws E) {Y Y' : P} {m m' proof proof' out : Bytes}
    (h : Ed.verify E Y m proof = .ok out) (h' : Ed.verify E Y' m' proof' = .ok out) :
    ∃ Γ Γ', E.dec (proof.take 32) = some Γ ∧ E.dec (proof'.take 32) = some Γ' ∧
      out = (E.sha (hashString 3 3 (E.enc (8 • Γ)))).take 32 ∧
      (8 • Γ = 8 • Γ' ∨ SameStart E.sha 32 (hashString 3 3 (E.enc (8 • Γ))) (hashString 3 3 (E.enc (8 • Γ')))) := by
  have key : ∀ (Y : P) (m proof : Bytes), Ed.verify E Y m proof = .ok out →
      ∃ Γ, E.dec (proof.take 32) = some Γ ∧ out = (E.sha (hashString 3 3 (E.enc (8 • Γ)))).take 32 := by
    intro Y m proof h
    unfold Ed.verify at h
    split at h
    · cases h
    split at h
    · cases h
    next Γ hΓ =>
    obtain ⟨c, -, h⟩ := G.bind_eq_ok.1 h
    obtain ⟨s, -, h⟩ := G.bind_eq_ok.1 h
    obtain ⟨H, -, h⟩ := G.bind_eq_ok.1 h
    simp only at h
    split at h
    · cases h
    · exact ⟨Γ, hΓ, (Except.ok.inj h).symm⟩
  obtain ⟨Γ, h1, h2⟩ := key Y m proof h
  obtain ⟨Γ', h1', h2'⟩ := key Y' m' proof' h'
  refine ⟨Γ, Γ', h1, h1', h2, ?_⟩
  by_cases hs : hashString 3 3 (E.enc (8 • Γ)) = hashString 3 3 (E.enc (8 • Γ'))
  · left
    obtain ⟨-, -, hs⟩ := C100_separate hs
    have := hE.dec_enc (8 • Γ)
    rw [hs, hE.dec_enc] at this
    exact (Option.some.inj this).symm
  · right
    refine ⟨hs, ?_⟩
    rw [← h2, ← h2']

/-- the hypotheses of the theorems are met: for the curve of the examples of C50 there is a proof that is accepted, and the points
that it is made from are not 0 -/
example : ∃ Y proof out H Γ, P256Laws toyP256 ∧ P256.verifyOutput toyP256 Y [1, 2] proof = .ok out ∧
    P256.encodeToCurve toyP256 (toyP256.enc Y) [1, 2] = .ok H ∧ toyP256.dec (proof.take 33) = some Γ ∧ H ≠ 0 ∧ Γ ≠ 0 := by
  obtain ⟨key, out, proof, h1, h2, h3⟩ := toyP256_proves
  have hv := (C50_p256_complete toyP256_laws _ _ key h1 out proof h2).1 h3
  obtain ⟨Γ, -, hΓ, -⟩ := C100_p256_output hv hv
  have h2' := h2
  unfold P256.prove at h2'
  obtain ⟨H, hH, -⟩ := G.bind_eq_ok.1 h2'
  refine ⟨key.point, proof, out, H, Γ, toyP256_laws, hv, hH, hΓ, p256_encode_nonzero toyP256_laws hH, ?_⟩
  refine (toyP256_laws.dec_nonzero _ _ ?_ hΓ).1
  unfold P256.verifyOutput P256.verify at hv
  split at hv
  · cases hv
  · rw [List.length_take]; omega

example : ∃ Y proof out, EdLaws toyEd ∧ Ed.verify toyEd Y [1, 2] proof = .ok out := by
  obtain ⟨key, out, proof, h1, h2⟩ := toyEd_proves
  exact ⟨key.point, proof, out, toyEd_laws, C50_ed25519_complete toyEd_laws _ _ _ key h1 out proof h2⟩

end Katie.Props
