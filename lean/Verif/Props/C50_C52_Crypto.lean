import Verif.Spec.VRF
import Verif.Spec.Collision
import Verif.Model.Commitment
import Verif.Lemmas.Codec
import Verif.Props.C48_Injective
import Mathlib.Algebra.Module.NatInt
import Mathlib.Data.ZMod.Basic
import Mathlib.Data.Int.GCD
import Mathlib.NumberTheory.LucasPrimality
import Mathlib.Tactic.NormNum.Prime
import Mathlib.Tactic.NormNum.PowMod
import Mathlib.Tactic.Abel
import Mathlib.Tactic.Ring

/-
C50 (VRF completeness), C51 (VRF outputs cannot be equivocated), C52 (commitments).
-/

namespace Katie.Props
open Katie Katie.VRF Katie.VRFSpec Katie.Wire

variable {P : Type} [AddCommGroup P]

/-! ### groups -/

theorem mod_smul {q : Nat} {p : P} (h : q • p = 0) (n : Nat) : (n % q) • p = n • p := by
  conv_rhs => rw [← Nat.div_add_mod n q, add_smul, mul_smul, smul_comm, h, smul_zero, zero_add]

theorem zero_of_coprime {q : Nat} {p : P} (hq : q • p = 0) {k : Int} (hk : k • p = 0) (hc : IsCoprime k (q : Int)) : p = 0 := by
  obtain ⟨a, b, hab⟩ := hc
  have hq' : (q : Int) • p = 0 := by rw [natCast_zsmul]; exact hq
  have : (1 : Int) • p = 0 := by
    rw [← hab, add_smul, mul_smul, mul_smul, hk, hq', smul_zero, smul_zero, add_zero]
  simpa using this

theorem coprime_of_not_dvd {q : Nat} (hq : q.Prime) {k : Int} (h : ¬ (q : Int) ∣ k) : IsCoprime k (q : Int) := by
  rw [Int.isCoprime_iff_gcd_eq_one]
  change Nat.gcd k.natAbs (Int.natAbs q) = 1
  rw [Int.natAbs_natCast]
  exact Nat.Coprime.symm ((Nat.Prime.coprime_iff_not_dvd hq).2 (fun hd => h (Int.natCast_dvd.2 hd)))

theorem coprime_of_lt {q : Nat} (hq : q.Prime) {k : Int} (h0 : k ≠ 0) (hlt : k.natAbs < q) : IsCoprime k (q : Int) :=
  coprime_of_not_dvd hq fun h => by
    have := Nat.le_of_dvd (by omega) (Int.natCast_dvd.1 h)
    omega

theorem sub_of_sub {a b a' b' u : P} (h : a - b = u) (h' : a' - b' = u) : a - a' = b - b' := by
  have h1 : a = u + b := sub_eq_iff_eq_add.1 h
  have h2 : a' = u + b' := sub_eq_iff_eq_add.1 h'
  rw [h1, h2, add_sub_add_left_eq_sub]

/-- The core of C51: `8 = d` for edwards25519, `d = 1` for P-256. -/
theorem special_soundness {q d : Nat} (hq : q.Prime) {B Y H Γ U V : P} {x c c' s s' : Nat}
    (hB : B ≠ 0) (hqB : q • B = 0) (hqH : q • H = 0) (hqΓ : (d * q) • Γ = 0) (hd : d.Coprime q)
    (hY : d • Y = (d * x) • B)
    (hc : c < q) (hc' : c' < q) (hne : c ≠ c')
    (h1 : s • B - c • Y = U) (h2 : s • H - c • Γ = V) (h1' : s' • B - c' • Y = U) (h2' : s' • H - c' • Γ = V) :
    d • Γ = (d * x) • H := by
  have e1 : ((s : Int) - s') • B = ((c : Int) - c') • Y := by
    have := sub_of_sub h1 h1'
    simpa [sub_smul] using this
  have e2 : ((s : Int) - s') • H = ((c : Int) - c') • Γ := by
    have := sub_of_sub h2 h2'
    simpa [sub_smul] using this
  have hY' : (d : Int) • Y = ((d : Int) * x) • B := by
    rw [natCast_zsmul, hY, ← Nat.cast_mul, natCast_zsmul]
  -- the scalars agree modulo the group order
  have hk : ((d : Int) * (((s : Int) - s') - ((c : Int) - c') * x)) • B = 0 := by
    have : (d : Int) • (((s : Int) - s') • B) = ((c : Int) - c') • ((d : Int) * x) • B := by
      rw [e1, smul_comm, hY']
    rw [smul_smul, smul_smul] at this
    rw [show (d : Int) * (((s : Int) - s') - ((c : Int) - c') * x) = d * ((s : Int) - s') - ((c : Int) - c') * (d * x) by ring,
      sub_smul, this, sub_self]
  have hdvd : (q : Int) ∣ ((s : Int) - s') - ((c : Int) - c') * x := by
    have h : (q : Int) ∣ (d : Int) * (((s : Int) - s') - ((c : Int) - c') * x) := by
      by_contra hn
      refine hB (zero_of_coprime hqB hk ?_)
      exact coprime_of_not_dvd hq hn
    exact (Nat.isCoprime_iff_coprime.2 hd).symm.dvd_of_dvd_mul_left h
  have hH : (((s : Int) - s') - ((c : Int) - c') * x) • H = 0 := by
    obtain ⟨t, ht⟩ := hdvd
    rw [ht, mul_comm, mul_smul, natCast_zsmul, hqH, smul_zero]
  have hΓ : ((c : Int) - c') • (d • Γ - (d * x) • H) = 0 := by
    rw [sub_smul, e2] at hH
    have h3 : ((c : Int) - c') • Γ = (((c : Int) - c') * x) • H := sub_eq_zero.1 hH
    rw [smul_sub, sub_eq_zero, smul_comm, h3, ← natCast_zsmul, ← natCast_zsmul, smul_smul, smul_smul]
    congr 1
    push_cast
    ring
  have hqz : q • (d • Γ - (d * x) • H) = 0 := by
    rw [smul_sub, smul_smul, mul_comm q d, hqΓ, smul_comm, hqH, smul_zero, sub_zero]
  exact sub_eq_zero.1 (zero_of_coprime hqz hΓ (coprime_of_lt hq (by omega) (by omega)))

/-! ### C50, C51 for P-256 -/

theorem getBE_zero_or {b : Bytes} : getBE b = 0 ∨ 0 < getBE b := by omega

section P256
variable {E : Curve P} (hE : P256Laws E)
include hE

theorem p256_encode_nonzero {salt m : Bytes} : ∀ {fuel counter : Nat} {H : P},
    P256.encodeLoop E salt m fuel counter = .ok H → H ≠ 0
  | 0, _, _, h => by cases h
  | fuel + 1, counter, H, h => by
    unfold P256.encodeLoop at h
    split at h
    · next p hp =>
      cases h
      exact (hE.dec_nonzero _ _ (by simp [hE.sha_length]) hp).1
    · exact p256_encode_nonzero h

theorem p256_smul_nonzero {x : Nat} {p : P} (hx : 0 < x) (hxq : x < E.q) (hp : p ≠ 0) : x • p ≠ 0 := by
  intro h
  exact hp (zero_of_coprime (hE.order p) (k := x) (by rw [natCast_zsmul]; exact h)
    (coprime_of_lt hE.prime (by omega) (by omega)))

omit hE in
theorem fit_eq {n : Nat} {b : Bytes} (h : b.length = n) : P256.fit n b = b := by
  unfold P256.fit
  rw [← h, List.take_length, Nat.sub_self]
  simp

/-- **C50 (P-256)** A proof made with a private key verifies under the corresponding public key, for the same input,
and yields the same output - except if its last scalar is zero, in which case it is rejected. -/
theorem C50_p256_complete (raw m : Bytes) (key : P256.PrivateKey P) (hk : P256.newPrivateKey E raw = .ok key)
    (output proof : Bytes) (hp : P256.prove E key m = .ok (output, proof)) :
    (getBE (proof.drop 49) ≠ 0 → P256.verifyOutput E key.point m proof = .ok output) ∧
    (getBE (proof.drop 49) = 0 → Errs (P256.verifyOutput E key.point m proof)) := by
  unfold P256.newPrivateKey at hk
  split at hk
  · cases hk
  split at hk
  · cases hk
  next hlen hrange =>
  obtain rfl := (Except.ok.inj hk).symm
  simp only [not_or, not_le] at hrange
  obtain ⟨hx0, hxq⟩ := hrange
  have hxq : getBE raw < E.q := by omega
  unfold P256.prove at hp
  obtain ⟨H, hH, hp⟩ := G.bind_eq_ok.1 hp
  have hH0 := p256_encode_nonzero hE hH
  have hG0 := p256_smul_nonzero hE (by omega : 0 < getBE raw) hxq hH0
  simp only at hp hH
  have hfit : P256.fit 33 (E.enc (getBE raw • H)) = E.enc (getBE raw • H) := fit_eq (hE.enc_length _ hG0)
  rw [hfit] at hp
  obtain ⟨hout, hproof⟩ := Prod.mk.inj (Except.ok.inj hp)
  revert hout hproof
  generalize hk : E.nonce raw (E.enc H) = k
  generalize hc : P256.challenge E (getBE raw • E.B) H (getBE raw • H) (k • E.B) (k • H) = c
  intro hout hproof
  have hclen : c.length = 16 := by
    rw [← hc]; simp [P256.challenge, hE.sha_length]
  rw [fit_eq hclen] at hproof
  have hqpos : 0 < E.q := hE.prime.pos
  have hs : (getBE c * getBE raw + k) % E.q < E.q := Nat.mod_lt _ hqpos
  have hsm := hE.small
  generalize hsv : (getBE c * getBE raw + k) % E.q = sv at hproof hs
  have hlen33 := hE.enc_length _ hG0
  have t1 : proof.take 33 = E.enc (getBE raw • H) := by
    rw [← hproof, List.append_assoc, List.take_append_of_le_length (by omega), ← hlen33, List.take_length]
  have t2 : (proof.drop 33).take 16 = c := by
    rw [← hproof, List.append_assoc, List.drop_append_of_le_length (by omega), ← hlen33, List.drop_length,
      List.nil_append, List.take_append_of_le_length (by omega), ← hclen, List.take_length]
  have t3 : proof.drop 49 = putBE 32 sv := by
    rw [← hproof]
    have : (E.enc (getBE raw • H) ++ c).length = 49 := by rw [List.length_append, hlen33, hclen]
    rw [← this, List.drop_append_of_le_length (Nat.le_refl _), List.drop_length, List.nil_append]
  have t4 : getBE (proof.drop 49) = sv := by
    rw [t3, getBE_putBE]
    exact Nat.mod_eq_of_lt (by omega)
  have t5 : proof.length = 33 + 16 + 32 := by
    rw [← hproof, List.length_append, List.length_append, hlen33, hclen, putBE_length]
  have hU : sv • E.B - getBE c • (getBE raw • E.B) = k • E.B := by
    rw [← hsv, mod_smul (hE.order _), add_smul, mul_smul, add_sub_cancel_left]
  have hV : sv • H - getBE c • (getBE raw • H) = k • H := by
    rw [← hsv, mod_smul (hE.order _), add_smul, mul_smul, add_sub_cancel_left]
  unfold P256.verifyOutput P256.verify
  rw [if_neg (by rw [t5]; simp), t1, hE.dec_enc _ hG0]
  simp only [t2, t4]
  constructor
  · intro h0
    rw [if_neg (by omega)]
    rw [show P256.encodeToCurve E (E.enc (getBE raw • E.B)) m = .ok H from hH]
    simp only [G.ok_bind, hU, hV, hc]
    rw [if_neg (by simp)]
    simp only [G.pure_eq, G.ok_bind]
    rw [← hout]
  · intro h0
    rw [if_pos (Or.inl h0)]
    exact ⟨_, rfl⟩

/-- **C51 (P-256)** If a proof verifies under the public key `x·B`, the output is the hash of the point `x·H` that is
determined by the key and the input; or the point in the proof is another one, and the challenge hash came out as the
only 128-bit value for which the hashed `(U, V)` can be completed to a proof. -/
theorem C51_p256_output_determined (x : Nat) (m proof output : Bytes)
    (hv : P256.verifyOutput E (x • E.B) m proof = .ok output) :
    ∃ H, P256.encodeToCurve E (E.enc (x • E.B)) m = .ok H ∧
      (output = P256.proofToHash E (E.enc (x • H)) ∨
       ∃ Γ U V, E.dec (proof.take 33) = some Γ ∧ Γ ≠ x • H ∧
         Guessed E (x • E.B) H Γ U V (getBE (P256.challenge E (x • E.B) H Γ U V))) := by
  unfold P256.verifyOutput at hv
  obtain ⟨_, hv, hout⟩ := G.bind_eq_ok.1 hv
  unfold P256.verify at hv
  split at hv
  · cases hv
  next hlen =>
  split at hv
  · cases hv
  next Γ hΓ =>
  simp only at hv
  split at hv
  · cases hv
  next hs =>
  obtain ⟨H, hH, hv⟩ := G.bind_eq_ok.1 hv
  split at hv
  · cases hv
  next hc =>
  simp only [ne_eq, not_not] at hc hlen
  have hplen : (proof.take 33).length = 33 := by rw [List.length_take]; omega
  obtain ⟨hΓ0, hΓe⟩ := hE.dec_nonzero _ _ hplen hΓ
  refine ⟨H, hH, ?_⟩
  by_cases hg : Γ = x • H
  · left
    rw [← hg, hΓe]
    exact (Except.ok.inj hout).symm
  · right
    refine ⟨Γ, getBE (proof.drop 49) • E.B - getBE ((proof.drop 33).take 16) • (x • E.B),
      getBE (proof.drop 49) • H - getBE ((proof.drop 33).take 16) • Γ, hΓ, hg, ?_⟩
    rw [← hc]
    refine ⟨⟨_, rfl, rfl⟩, ?_⟩
    rintro c' hc' ⟨s', h1, h2⟩
    by_contra hne
    have hcl : getBE ((proof.drop 33).take 16) < 2 ^ 128 := by
      have h1 := getBE_lt ((proof.drop 33).take 16)
      have h2 : ((proof.drop 33).take 16).length ≤ 16 := by rw [List.length_take]; omega
      calc getBE ((proof.drop 33).take 16) < 256 ^ ((proof.drop 33).take 16).length := h1
        _ ≤ 256 ^ 16 := Nat.pow_le_pow_right (by omega) h2
        _ = 2 ^ 128 := by decide
    have hbig := hE.big
    have := special_soundness (d := 1) (x := x) hE.prime hE.base (hE.order _) (hE.order _) (by rw [one_mul]; exact hE.order _)
      (Nat.coprime_one_left _) (by rw [one_smul, one_mul]) (by omega : getBE ((proof.drop 33).take 16) < E.q)
      (by omega : c' < E.q) (fun h => hne h.symm) rfl rfl h1 h2
    rw [one_smul, one_mul] at this
    exact hg this

end P256

/-! ### C50, C51 for edwards25519 -/

section Ed
variable {E : Curve P} (hE : EdLaws E)
include hE

theorem ed_encode_order {salt m : Bytes} : ∀ {fuel counter : Nat} {H : P},
    Ed.encodeLoop E salt m fuel counter = .ok H → E.q • H = 0
  | 0, _, _, h => by cases h
  | fuel + 1, counter, H, h => by
    unfold Ed.encodeLoop at h
    split at h
    · next p hp =>
      cases h
      rw [smul_smul, mul_comm]
      exact hE.order p
    · exact ed_encode_order h

omit hE in
theorem getLE_putLE (k n : Nat) : getLE (putLE k n) = n % 256 ^ k := by
  unfold getLE putLE
  rw [List.reverse_reverse, getBE_putBE]

omit hE in
/-- 16 bytes and 16 zeroes, little endian -/
theorem getLE_pad_lt (b : Bytes) (h : b.length ≤ 16) : getLE (b ++ List.replicate 16 0) < 2 ^ 128 := by
  unfold getLE
  have key : ∀ (n : Nat) (l : Bytes), getBE (List.replicate n 0 ++ l) = getBE l := by
    intro n
    induction n with
    | zero => intro l; rfl
    | succ n ih =>
      intro l
      rw [List.replicate_succ, List.cons_append, getBE_cons, ih]
      simp
  rw [List.reverse_append, List.reverse_replicate, key]
  calc getBE b.reverse < 256 ^ b.reverse.length := getBE_lt _
    _ ≤ 256 ^ 16 := Nat.pow_le_pow_right (by omega) (by rw [List.length_reverse]; exact h)
    _ = 2 ^ 128 := by decide

/-- **C50 (edwards25519)** A proof made with a private key verifies under the corresponding public key, for the same
input, and yields the same output. -/
theorem C50_ed25519_complete (clamp : Bytes → Nat) (raw m : Bytes) (key : Ed.PrivateKey P)
    (hk : Ed.newPrivateKey E clamp raw = .ok key) (output proof : Bytes)
    (hp : Ed.prove E key m = .ok (output, proof)) : Ed.verify E key.point m proof = .ok output := by
  unfold Ed.newPrivateKey at hk
  split at hk
  · cases hk
  obtain rfl := (Except.ok.inj hk).symm
  revert hp
  simp only
  generalize clamp ((E.sha raw).take 32) % E.q = x
  generalize (E.sha raw).drop 32 = upper
  intro hp
  unfold Ed.prove at hp
  obtain ⟨H, hH, hp⟩ := G.bind_eq_ok.1 hp
  have hHq := ed_encode_order hE hH
  simp only at hp hH
  generalize hk : E.nonce upper (E.enc H) = k at hp
  generalize hc : Ed.challenge E (x • E.B) H (x • H) (k • E.B) (k • H) = c at hp
  rw [fit_eq (hE.enc_length _)] at hp
  split at hp
  swap
  · cases hp
  next hcq =>
  obtain ⟨hout, hproof⟩ := Prod.mk.inj (Except.ok.inj hp)
  have hqpos : 0 < E.q := hE.prime.pos
  have hs : (getLE c * x + k) % E.q < E.q := Nat.mod_lt _ hqpos
  have hsm := hE.small
  generalize hsv : (getLE c * x + k) % E.q = sv at hproof hs
  have hlen32 := hE.enc_length (x • H)
  have hc16 : (c.take 16).length = 16 ∧ c.take 16 ++ List.replicate 16 0 = c := by
    rw [← hc]
    unfold Ed.challenge
    have : ((E.sha ([0x03, 0x02] ++ E.enc (x • E.B) ++ E.enc H ++ E.enc (x • H) ++ E.enc (k • E.B) ++ E.enc (k • H) ++
        [0x00])).take 16).length = 16 := by rw [List.length_take, hE.sha_length]; rfl
    constructor
    · rw [List.take_append_of_le_length (by omega), List.take_take]; simpa using this
    · rw [List.take_append_of_le_length (by omega), List.take_take, Nat.min_self]
  obtain ⟨hclen, hcpad⟩ := hc16
  have t1 : proof.take 32 = E.enc (x • H) := by
    rw [← hproof, List.append_assoc, List.take_append_of_le_length (by omega), ← hlen32, List.take_length]
  have t2 : (proof.drop 32).take 16 = c.take 16 := by
    rw [← hproof, List.append_assoc, List.drop_append_of_le_length (by omega)]
    rw [show List.drop 32 (E.enc (x • H)) = [] by rw [← hlen32]; exact List.drop_length, List.nil_append,
      List.take_append_of_le_length (by omega), List.take_of_length_le (by omega)]
  have t3 : proof.drop 48 = putLE 32 sv := by
    rw [← hproof]
    have : (E.enc (x • H) ++ c.take 16).length = 48 := by rw [List.length_append, hlen32, hclen]
    rw [← this, List.drop_append_of_le_length (Nat.le_refl _), List.drop_length, List.nil_append]
  have t4 : getLE (proof.drop 48) = sv := by
    rw [t3, getLE_putLE]
    exact Nat.mod_eq_of_lt (by omega)
  have t5 : proof.length = 32 + 16 + 32 := by
    rw [← hproof, List.length_append, List.length_append, hlen32, hclen]
    simp [putLE, putBE_length]
  have hU : sv • E.B - getLE c • (x • E.B) = k • E.B := by
    rw [← hsv, mod_smul hE.base_order, add_smul, mul_smul, add_sub_cancel_left]
  have hV : sv • H - getLE c • (x • H) = k • H := by
    rw [← hsv, mod_smul hHq, add_smul, mul_smul, add_sub_cancel_left]
  unfold Ed.verify
  rw [if_neg (by rw [t5]; simp), t1, hE.dec_enc]
  simp only [t2, hcpad, Ed.canonical, t4, if_pos hcq, if_pos hs, G.pure_eq, G.ok_bind]
  rw [show Ed.encodeToCurve E (E.enc (x • E.B)) m = .ok H from hH]
  simp only [G.ok_bind, hU, hV, hc]
  rw [if_neg (by simp), ← hout]

/-- **C51 (edwards25519)** If a proof verifies under a public key `Y` with `8·Y = 8x·B`, the output is the hash of the
point `8x·H` that is determined by the key and the input; or the point in the proof is another one (up to the
cofactor), and the challenge hash came out as the only 128-bit value for which the hashed `(U, V)` can be completed
to a proof. -/
theorem C51_ed25519_output_determined (Y : P) (x : Nat) (hY : 8 • Y = (8 * x) • E.B) (m proof output : Bytes)
    (hv : Ed.verify E Y m proof = .ok output) :
    ∃ H, Ed.encodeToCurve E (E.enc Y) m = .ok H ∧
      (output = Ed.proofToHash E (x • H) ∨
       ∃ Γ U V, E.dec (proof.take 32) = some Γ ∧ 8 • Γ ≠ 8 • (x • H) ∧
         Guessed E Y H Γ U V (getLE (Ed.challenge E Y H Γ U V))) := by
  unfold Ed.verify at hv
  split at hv
  · cases hv
  next hlen =>
  split at hv
  · cases hv
  next Γ hΓ =>
  simp only at hv
  obtain ⟨c, hc, hv⟩ := G.bind_eq_ok.1 hv
  obtain ⟨s, hs, hv⟩ := G.bind_eq_ok.1 hv
  obtain ⟨H, hH, hv⟩ := G.bind_eq_ok.1 hv
  split at hv
  · cases hv
  next hch =>
  simp only [ne_eq, not_not] at hch
  have hcv : getLE ((proof.drop 32).take 16 ++ List.replicate 16 0) = c := by
    unfold Ed.canonical at hc
    split at hc
    · exact Except.ok.inj hc
    · cases hc
  refine ⟨H, hH, ?_⟩
  by_cases hg : 8 • Γ = 8 • (x • H)
  · left
    have := (Except.ok.inj hv).symm
    rw [this]
    unfold Ed.proofToHash
    rw [hg]
  · right
    refine ⟨Γ, s • E.B - c • Y, s • H - c • Γ, hΓ, hg, ?_⟩
    rw [← hch, hcv]
    refine ⟨⟨_, rfl, rfl⟩, ?_⟩
    rintro c' hc' ⟨s', h1, h2⟩
    by_contra hne
    have hcl : c < 2 ^ 128 := by
      rw [← hcv]
      exact getLE_pad_lt _ (by rw [List.length_take]; omega)
    have hbig := hE.big
    have hd : Nat.Coprime 8 E.q := by
      refine Nat.Coprime.symm ((Nat.Prime.coprime_iff_not_dvd hE.prime).2 fun h => ?_)
      have := Nat.le_of_dvd (by omega) h
      omega
    have := special_soundness (d := 8) (x := x) hE.prime hE.base hE.base_order (ed_encode_order hE hH) (hE.order _)
      hd hY (by omega : c < E.q) (by omega : c' < E.q) (fun h => hne h.symm) rfl rfl h1 h2
    rw [mul_smul] at this
    exact hg this

end Ed

/-! ### C52 -/

open Katie.Commit Katie.LogSpec

/-- the two strings hashed by an HMAC computation -/
def hmacInputs (H : Bytes → Bytes) (key message : Bytes) : List Bytes :=
  [padKey key 0x36 ++ message, padKey key 0x5c ++ H (padKey key 0x36 ++ message)]

/-- **C52** A commitment verifies with its opening and value. -/
theorem C52_opens (cs : Log.Suite) (opening body : Bytes) :
    Commit.verify cs opening body (commit cs opening body) = true := by
  simp [Commit.verify]

/-- **C52** Two different pairs of opening (of the fixed length) and value that verify against the same commitment
exhibit a collision of the hash function among the four strings hashed by the two verifications. -/
theorem C52_binding (cs : Log.Suite) (op op' body body' com : Bytes) (hlen : op.length = op'.length)
    (h : Commit.verify cs op body com = true) (h' : Commit.verify cs op' body' com = true)
    (hne : (op, body) ≠ (op', body')) :
    Collides cs.H (hmacInputs cs.H fixedBytes (op ++ body)) (hmacInputs cs.H fixedBytes (op' ++ body')) := by
  have e : commit cs op body = commit cs op' body' := by
    simp only [Commit.verify, beq_iff_eq] at h h'
    rw [← h, h']
  have hm : op ++ body ≠ op' ++ body' := by
    intro he
    obtain ⟨rfl, rfl⟩ := List.append_inj he hlen
    exact hne rfl
  unfold commit hmac at e
  by_cases hi : cs.H (padKey fixedBytes 0x36 ++ (op ++ body)) = cs.H (padKey fixedBytes 0x36 ++ (op' ++ body'))
  · exact ⟨_, List.mem_cons_self, _, List.mem_cons_self, fun he => hm (List.append_cancel_left he), hi⟩
  · exact ⟨_, List.mem_cons_of_mem _ List.mem_cons_self, _, List.mem_cons_of_mem _ List.mem_cons_self,
      fun he => hi (List.append_cancel_left he), e⟩

/-- **C52** Commitments of the log: if the same commitment verifies for two label-version-value triples, they are the
same triple, or the verifications exhibit a collision. -/
theorem C52_binds_label_version_value (cs : Log.Suite) (c : Config) (op op' com b b' : Bytes)
    (hlen : op.length = op'.length) (label label' : Bytes) (ver ver' : Nat) (hv : ver < 2 ^ 32) (hv' : ver' < 2 ^ 32)
    (u u' : Wire.UpdateValue) (hu : u.Typed c) (hu' : u'.Typed c)
    (hb : Wire.commitmentValue label ver u = .ok b) (hb' : Wire.commitmentValue label' ver' u' = .ok b')
    (h : Commit.verify cs op b com = true) (h' : Commit.verify cs op' b' com = true) :
    (label = label' ∧ ver = ver' ∧ u = u') ∨
    Collides cs.H (hmacInputs cs.H fixedBytes (op ++ b)) (hmacInputs cs.H fixedBytes (op' ++ b')) := by
  by_cases hbb : b = b'
  · subst hbb
    exact Or.inl (C48_commitment c label label' ver ver' hv hv' u u' hu hu' b hb hb')
  · exact Or.inr (C52_binding cs op op' b b' com hlen h h' (fun he => hbb (Prod.mk.inj he).2))

/-- Openings of different lengths are not bound: the code relies on the fixed opening size of the wire format. -/
theorem C52_length_matters (cs : Log.Suite) : ∃ op op' body body' : Bytes, (op, body) ≠ (op', body') ∧
    commit cs op body = commit cs op' body' :=
  ⟨[1], [1, 2], [2, 3], [3], by decide, rfl⟩

/-! ### the assumptions are met -/

/-- a prime between 2^128 and 2^256 -/
def toyQ : Nat := 3 * 2 ^ 189 + 1

/-- repeated squaring -/
def sqn (q : Nat) : Nat → Nat → Nat
  | 0, x => x
  | n + 1, x => sqn q n (x * x % q)

theorem sqn_eq (q : Nat) : ∀ n x : Nat, ((sqn q n x : Nat) : ZMod q) = (x : ZMod q) ^ (2 ^ n)
  | 0, x => by simp [sqn]
  | n + 1, x => by
    rw [sqn, sqn_eq q n, ZMod.natCast_mod, Nat.cast_mul, ← pow_two, ← pow_mul, pow_succ, mul_comm]

theorem toyQ_sub_one : toyQ - 1 = 2 ^ 189 * 3 := by
  unfold toyQ
  rw [Nat.add_sub_cancel, mul_comm]

theorem toyQ_prime : toyQ.Prime := by
  have hp : ∀ k, (10 : ZMod toyQ) ^ (2 ^ k) = (sqn toyQ k 10 : Nat) := fun k => by
    rw [sqn_eq]; rfl
  have h1 : sqn toyQ 188 (10 ^ 3) = toyQ - 1 := by decide +kernel
  have h3 : sqn toyQ 189 10 = 1050769674290637727069835596912470316057652454543996332259 := by decide +kernel
  have hq : (1 : Nat) < toyQ := by decide +kernel
  have e2 : (10 : ZMod toyQ) ^ (2 ^ 188 * 3) = -1 := by
    rw [mul_comm, pow_mul]
    have := sqn_eq toyQ 188 (10 ^ 3)
    rw [h1, Nat.cast_sub (by omega), ZMod.natCast_self, Nat.cast_one, zero_sub, Nat.cast_pow] at this
    exact this.symm
  have hlt : ∀ a : Nat, a < toyQ → (a : ZMod toyQ) = 1 → a = 1 := fun a ha h => by
    have : ((a : Nat) : ZMod toyQ) = ((1 : Nat) : ZMod toyQ) := by rw [h, Nat.cast_one]
    rw [ZMod.natCast_eq_natCast_iff'] at this
    rwa [Nat.mod_eq_of_lt ha, Nat.mod_eq_of_lt hq] at this
  refine lucas_primality toyQ (10 : ZMod toyQ) ?_ ?_
  · rw [toyQ_sub_one, show 2 ^ 189 * 3 = 2 ^ 188 * 3 * 2 by rw [pow_succ]; ring, pow_mul, e2]
    ring
  · intro r hr hd
    rw [toyQ_sub_one] at hd ⊢
    have hr' : r = 2 ∨ r = 3 := by
      rcases (Nat.Prime.dvd_mul hr).1 hd with h | h
      · exact Or.inl ((Nat.prime_dvd_prime_iff_eq hr Nat.prime_two).1 (hr.dvd_of_dvd_pow h))
      · exact Or.inr ((Nat.prime_dvd_prime_iff_eq hr Nat.prime_three).1 h)
    rcases hr' with rfl | rfl
    · rw [show 2 ^ 189 * 3 / 2 = 2 ^ 188 * 3 by rw [pow_succ]; omega, e2]
      intro h
      have h' : ((toyQ - 1 : Nat) : ZMod toyQ) = 1 := by
        rw [Nat.cast_sub (by omega), ZMod.natCast_self, Nat.cast_one, zero_sub, h]
      have := hlt _ (by omega) h'
      revert this
      decide +kernel
    · rw [Nat.mul_div_cancel _ (by omega), hp, h3]
      intro h
      have := hlt _ (by decide +kernel) h
      revert this
      decide

instance : Fact toyQ.Prime := ⟨toyQ_prime⟩

/-- A group of order `toyQ` with an encoding that has the assumed properties (the discrete logarithm is easy in it). -/
def toyP256 : Curve (ZMod toyQ) where
  q := toyQ
  B := 1
  enc x := if x.val = 0 then [0] else 0x02 :: putBE 32 x.val
  dec b := match b with
    | 0x02 :: t => if t.length = 32 ∧ 0 < getBE t ∧ getBE t < toyQ then some (getBE t : ZMod toyQ) else none
    | _ => none
  sha b := putBE 32 (b.foldl (fun a x => a * 7 + x.toNat) 7)
  nonce a b := 5 + a.length + b.length

theorem toyP256_laws : P256Laws toyP256 where
  prime := toyQ_prime
  big := by decide +kernel
  small := by decide +kernel
  base := by exact one_ne_zero
  order p := by
    change toyQ • p = 0
    rw [nsmul_eq_mul, ZMod.natCast_self, zero_mul]
  generated p := ⟨p.val, by
    change p = p.val • (1 : ZMod toyQ)
    rw [nsmul_eq_mul, mul_one, ZMod.natCast_zmod_val]⟩
  dec_enc p hp := by
    have h0 : p.val ≠ 0 := fun h => hp ((ZMod.val_eq_zero p).1 h)
    have h1 : p.val < toyQ := ZMod.val_lt p
    have h2 : getBE (putBE 32 p.val) = p.val := by
      rw [getBE_putBE]
      exact Nat.mod_eq_of_lt (Nat.lt_trans h1 (by decide +kernel))
    simp only [toyP256, if_neg h0, putBE_length, h2]
    rw [if_pos ⟨trivial, by omega, h1⟩, ZMod.natCast_zmod_val]
  enc_length p hp := by
    have h0 : p.val ≠ 0 := fun h => hp ((ZMod.val_eq_zero p).1 h)
    simp only [toyP256, if_neg h0, List.length_cons, putBE_length]
  dec_nonzero b p hb hd := by
    simp only [toyP256] at hd ⊢
    split at hd
    swap
    · cases hd
    next t =>
    split at hd
    swap
    · cases hd
    next ht =>
    obtain ⟨h32, hpos, hlt⟩ := ht
    obtain rfl := Option.some.inj hd
    have hv : ((getBE t : Nat) : ZMod toyQ).val = getBE t := ZMod.val_cast_of_lt hlt
    rw [hv, if_neg (by omega)]
    constructor
    · intro h
      have := (ZMod.val_eq_zero _).2 h
      omega
    · rw [← h32, putBE_getBE]
  sha_length b := by simp [toyP256, putBE_length]

/-- edwards25519 has a cofactor; so has this group. -/
def toyEd : Curve (ZMod toyQ × ZMod 8) where
  q := toyQ
  B := (1, 0)
  enc x := putBE 32 (x.1.val + toyQ * x.2.val)
  dec b := if b.length = 32 ∧ getBE b < toyQ * 8 then some ((getBE b : ZMod toyQ), ((getBE b / toyQ : Nat) : ZMod 8)) else none
  sha b := putBE 32 (b.foldl (fun a x => a * 7 + x.toNat) 7) ++ putBE 32 (b.foldl (fun a x => a * 11 + x.toNat) 7)
  nonce a b := 5 + a.length + b.length

theorem toyEd_laws : EdLaws toyEd where
  prime := toyQ_prime
  big := by decide +kernel
  small := by decide +kernel
  base := by
    intro h
    exact one_ne_zero (Prod.mk.inj h).1
  base_order := by
    change toyQ • ((1, 0) : ZMod toyQ × ZMod 8) = 0
    rw [Prod.smul_mk, nsmul_eq_mul, ZMod.natCast_self, zero_mul, smul_zero]
    rfl
  order p := by
    change (8 * toyQ) • p = 0
    obtain ⟨a, b⟩ := p
    rw [Prod.smul_mk, nsmul_eq_mul, nsmul_eq_mul, Nat.cast_mul, Nat.cast_mul, ZMod.natCast_self, mul_zero, zero_mul,
      show ((8 : Nat) : ZMod 8) = 0 from ZMod.natCast_self 8, zero_mul, zero_mul]
    rfl
  generated p := ⟨p.1.val, by
    obtain ⟨a, b⟩ := p
    change 8 • (a, b) = (8 * a.val) • ((1, 0) : ZMod toyQ × ZMod 8)
    rw [Prod.smul_mk, Prod.smul_mk, smul_zero, nsmul_eq_mul, nsmul_eq_mul, nsmul_eq_mul, mul_one, Nat.cast_mul,
      ZMod.natCast_zmod_val, show ((8 : Nat) : ZMod 8) = 0 from ZMod.natCast_self 8, zero_mul]⟩
  dec_enc p := by
    obtain ⟨a, b⟩ := p
    have ha : a.val < toyQ := ZMod.val_lt a
    have hb : b.val < 8 := ZMod.val_lt b
    have hlt : a.val + toyQ * b.val < toyQ * 8 := by
      have : toyQ * b.val ≤ toyQ * 7 := Nat.mul_le_mul_left _ (by omega)
      omega
    have h2 : getBE (putBE 32 (a.val + toyQ * b.val)) = a.val + toyQ * b.val := by
      rw [getBE_putBE]
      exact Nat.mod_eq_of_lt (Nat.lt_trans hlt (by decide +kernel))
    simp only [toyEd, putBE_length, h2]
    rw [if_pos ⟨trivial, hlt⟩, Nat.cast_add, Nat.cast_mul, ZMod.natCast_self, zero_mul, add_zero, ZMod.natCast_zmod_val,
      Nat.add_mul_div_left _ _ (by omega), Nat.div_eq_of_lt ha, zero_add, ZMod.natCast_zmod_val]
  enc_length p := by simp [toyEd, putBE_length]
  sha_length b := by simp [toyEd, putBE_length]

/-- the hypotheses of `C50_p256_complete` are met (and, by it, those of `C51_p256_output_determined`) -/
theorem toyP256_proves : ∃ key output proof, P256.newPrivateKey toyP256 (putBE 32 1) = .ok key ∧
    P256.prove toyP256 key [1, 2] = .ok (output, proof) ∧ getBE (proof.drop 49) ≠ 0 := by
  have hv : (1 : ZMod toyQ).val = 1 := ZMod.val_one _
  have hraw : getBE (putBE 32 1) = 1 := by decide +kernel
  have henc : toyP256.enc (getBE (putBE 32 1) • toyP256.B) = 0x02 :: putBE 32 1 := by
    rw [hraw, one_smul]
    simp only [toyP256, hv]
    rfl
  have hH : ∃ H, P256.encodeToCurve toyP256 (0x02 :: putBE 32 1) [1, 2] = .ok H := by
    unfold P256.encodeToCurve P256.encodeLoop
    have : ∃ p, toyP256.dec (0x02 :: toyP256.sha ([0x01, 0x01] ++ (0x02 :: putBE 32 1) ++ [1, 2] ++ [UInt8.ofNat 0, 0x00])) = some p := by
      simp only [toyP256]
      rw [if_pos (by decide +kernel)]
      exact ⟨_, rfl⟩
    obtain ⟨p, hp⟩ := this
    rw [hp]
    exact ⟨p, rfl⟩
  obtain ⟨H, hH⟩ := hH
  have hk : P256.newPrivateKey toyP256 (putBE 32 1) = .ok ⟨putBE 32 1, getBE (putBE 32 1) • toyP256.B⟩ := by
    unfold P256.newPrivateKey
    rw [if_neg (by decide +kernel), if_neg (by decide +kernel)]
    rfl
  have hp : ∃ output gamma c, gamma.length = 33 ∧ c.length = 16 ∧
      P256.prove toyP256 ⟨putBE 32 1, getBE (putBE 32 1) • toyP256.B⟩ [1, 2] =
        .ok (output, gamma ++ c ++ putBE 32 ((getBE c * 1 + (5 + 32 + (toyP256.enc H).length)) % toyQ)) := by
    have hl := toyP256_laws.sha_length
    have hg := toyP256_laws.enc_length (1 • H) (p256_smul_nonzero toyP256_laws (by omega) (by decide +kernel)
      (p256_encode_nonzero toyP256_laws hH))
    have hcl : (P256.challenge toyP256 (1 • toyP256.B) H (1 • H) ((5 + 32 + (toyP256.enc H).length) • toyP256.B)
        ((5 + 32 + (toyP256.enc H).length) • H)).length = 16 := by simp [P256.challenge, hl]
    refine ⟨P256.proofToHash toyP256 (toyP256.enc (1 • H)), toyP256.enc (1 • H), _, hg, hcl, ?_⟩
    unfold P256.prove
    simp only [henc, hH, G.ok_bind]
    simp only [hraw, fit_eq hg]
    have hn : toyP256.nonce (putBE 32 1) (toyP256.enc H) = 5 + 32 + (toyP256.enc H).length := by
      simp only [toyP256, putBE_length]
    simp only [hn, fit_eq hcl]
    rfl
  obtain ⟨output, gamma, c, hgl, hcl, hp⟩ := hp
  refine ⟨_, _, _, hk, hp, ?_⟩
  have hHl := toyP256_laws.enc_length H (p256_encode_nonzero toyP256_laws hH)
  have hlen : (gamma ++ c).length = 49 := by rw [List.length_append, hgl, hcl]
  rw [← hlen, List.drop_append_of_le_length (Nat.le_refl _), List.drop_length, List.nil_append, getBE_putBE, hHl]
  have hc := getBE_lt c
  rw [hcl] at hc
  have hq : 256 ^ 16 * 2 < toyQ := by decide +kernel
  have hq2 : toyQ < 256 ^ 32 := by decide +kernel
  rw [Nat.mod_eq_of_lt (a := getBE c * 1 + _) (by omega), Nat.mod_eq_of_lt (by omega)]
  omega

/-- the hypotheses of `C50_ed25519_complete` are met (and, by it, those of `C51_ed25519_output_determined`) -/
theorem toyEd_proves : ∃ key output proof, Ed.newPrivateKey toyEd (fun _ => 1) (putBE 32 1) = .ok key ∧
    Ed.prove toyEd key [1, 2] = .ok (output, proof) := by
  have hv : (1 : ZMod toyQ).val = 1 := ZMod.val_one _
  have hone : 1 % toyEd.q = 1 := by decide +kernel
  have henc : toyEd.enc (1 • toyEd.B) = putBE 32 1 := by
    rw [one_smul]
    simp only [toyEd, hv]
    rfl
  have hH : ∃ H, Ed.encodeToCurve toyEd (putBE 32 1) [1, 2] = .ok H := by
    unfold Ed.encodeToCurve Ed.encodeLoop
    have : ∃ p, toyEd.dec ((toyEd.sha ([0x03, 0x01] ++ putBE 32 1 ++ [1, 2] ++ [UInt8.ofNat 0, 0x00])).take 32) = some p := by
      simp only [toyEd]
      rw [if_pos (by decide +kernel)]
      exact ⟨_, rfl⟩
    obtain ⟨p, hp⟩ := this
    rw [hp]
    exact ⟨8 • p, rfl⟩
  obtain ⟨H, hH⟩ := hH
  have hk : Ed.newPrivateKey toyEd (fun _ => 1) (putBE 32 1) =
      .ok ⟨1, 1 • toyEd.B, (toyEd.sha (putBE 32 1)).drop 32⟩ := by
    unfold Ed.newPrivateKey
    rw [if_neg (by decide +kernel)]
    simp only [hone]
    rfl
  have hc : ∀ p1 p2 p3 p4 p5, getLE (Ed.challenge toyEd p1 p2 p3 p4 p5) < toyEd.q := fun p1 p2 p3 p4 p5 =>
    Nat.lt_trans (getLE_pad_lt _ (by rw [List.length_take]; omega)) toyEd_laws.big
  have hp : ∃ output proof, Ed.prove toyEd ⟨1, 1 • toyEd.B, (toyEd.sha (putBE 32 1)).drop 32⟩ [1, 2] = .ok (output, proof) := by
    unfold Ed.prove
    simp only [henc, hH, G.ok_bind, if_pos (hc _ _ _ _ _)]
    exact ⟨_, _, rfl⟩
  obtain ⟨output, proof, hp⟩ := hp
  exact ⟨_, output, proof, hk, hp⟩

/-- a commitment of the log -/
example : ∃ b, Wire.commitmentValue [1] 3 (Wire.UpdateValue.mk [7] none) = .ok b ∧
    Commit.verify ⟨fun x => x.take 32, 32⟩ [9] b (commit ⟨fun x => x.take 32, 32⟩ [9] b) = true :=
  ⟨_, rfl, by decide +kernel⟩

end Katie.Props
