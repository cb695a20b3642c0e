import Verif.Model.Suites
import Verif.Props.C50_C52_Crypto

/-
C77 (signatures of the P-256 suite survive their encoding), C78 (every key pair is accepted).
-/

namespace Katie.Props
open Katie Katie.VRF Katie.VRFSpec Katie.Wire Katie.Suites

/-! ### big-endian numbers -/

theorem byteLen_le {n k : Nat} (h : n < 256 ^ k) : byteLen n ≤ k := by
  unfold byteLen
  split
  · omega
  next h0 =>
  have h2 : 256 ^ k = 2 ^ (8 * k) := by rw [Nat.pow_mul]
  rw [h2] at h
  have := (Nat.log2_lt h0).2 h
  omega

theorem lt_byteLen (n : Nat) : n < 256 ^ byteLen n := by
  unfold byteLen
  split
  · simp_all
  next h0 =>
  have h2 : ∀ k, 256 ^ k = 2 ^ (8 * k) := fun k => by rw [Nat.pow_mul]
  rw [h2]
  exact (Nat.log2_lt h0).1 (by omega)

theorem getBE_zeroes : ∀ (k : Nat) (b : Bytes), getBE (List.replicate k 0 ++ b) = getBE b
  | 0, b => rfl
  | k + 1, b => by
    rw [List.replicate_succ, List.cons_append, getBE_cons, getBE_zeroes k b]
    simp

theorem zeroes_bigBytes {n k : Nat} (h : n < 256 ^ k) : List.replicate (k - (bigBytes n).length) 0 ++ bigBytes n = putBE k n := by
  have hl : (bigBytes n).length = byteLen n := putBE_length _ _
  have hle := byteLen_le h
  have hlen : (List.replicate (k - (bigBytes n).length) (0 : UInt8) ++ bigBytes n).length = k := by
    rw [List.length_append, List.length_replicate, hl]; omega
  rw [← putBE_getBE (List.replicate (k - (bigBytes n).length) 0 ++ bigBytes n), hlen, getBE_zeroes]
  congr 1
  rw [bigBytes, getBE_putBE, Nat.mod_eq_of_lt (lt_byteLen n)]

/-! ### C77 -/

section
variable {K Y : Type} (E : Ecdsa K Y)

/-- the encoding of a signature: both numbers big-endian in 32 bytes -/
def rawSignature (r s : Nat) : Bytes := putBE 32 r ++ putBE 32 s

/-- **C77** If ECDSA's numbers fit in 32 bytes (they are smaller than the order of the group), signing never panics, fails
exactly if ECDSA does, and returns the two numbers in 64 bytes. -/
theorem C77_sign (rand : Nat) (key : K) (message : Bytes)
    (hE : ∀ r s, E.sign rand key (E.sha message) = some (r, s) → r < 2 ^ 256 ∧ s < 2 ^ 256) :
    (∀ r s, E.sign rand key (E.sha message) = some (r, s) → p256Sign E rand key message = .ok (rawSignature r s)) ∧
    (E.sign rand key (E.sha message) = none → ∃ e, p256Sign E rand key message = .error (.err e)) := by
  constructor
  · intro r s h
    obtain ⟨hr, hs⟩ := hE r s h
    have e : (2 : Nat) ^ 256 = 256 ^ 32 := by decide +kernel
    rw [e] at hr hs
    have lr : (bigBytes r).length ≤ 32 := by rw [bigBytes, putBE_length]; exact byteLen_le hr
    have ls : (bigBytes s).length ≤ 32 := by rw [bigBytes, putBE_length]; exact byteLen_le hs
    unfold p256Sign copyBefore
    rw [h]
    simp only
    rw [if_neg (by omega)]
    simp only [G.pure_eq, G.ok_bind]
    rw [if_neg (by omega)]
    congr 1
    rw [List.take_replicate, List.drop_replicate, Nat.min_eq_left (by omega), zeroes_bigBytes hr, rawSignature,
      ← zeroes_bigBytes hs]
    have hl : (putBE 32 r).length = 32 := putBE_length _ _
    rw [List.take_append, List.take_of_length_le (by omega), List.drop_of_length_le (by simp [hl]), hl, List.take_replicate,
      Nat.min_eq_left (by omega), List.append_nil, List.append_assoc]
    congr 3
    omega
  · intro h
    unfold p256Sign
    rw [h]
    exact ⟨_, rfl⟩

/-- **C77** Verifying the bytes of a signature is verifying the two numbers that were signed; a string of another length
is refused. -/
theorem C77_verify (key : Y) (message : Bytes) :
    (∀ r s, r < 2 ^ 256 → s < 2 ^ 256 →
      p256Verify E key message (rawSignature r s) = E.verify key (E.sha message) r s) ∧
    (∀ sig, sig.length ≠ 64 → p256Verify E key message sig = false) := by
  constructor
  · intro r s hr hs
    have e : (2 : Nat) ^ 256 = 256 ^ 32 := by decide +kernel
    rw [e] at hr hs
    have hl : (putBE 32 r).length = 32 := putBE_length _ _
    unfold p256Verify rawSignature
    rw [if_neg (by simp [putBE_length]), List.take_left' hl, List.drop_left' hl, getBE_putBE, getBE_putBE,
      Nat.mod_eq_of_lt hr, Nat.mod_eq_of_lt hs]
  · intro sig h
    unfold p256Verify
    rw [if_pos h]

/-- **C77** So a signature is accepted for the message it was made for, if ECDSA is correct. -/
theorem C77_correct (rand : Nat) (key : K) (pub : Y) (message sig : Bytes)
    (hE : ∀ r s, E.sign rand key (E.sha message) = some (r, s) →
      r < 2 ^ 256 ∧ s < 2 ^ 256 ∧ E.verify pub (E.sha message) r s = true)
    (h : p256Sign E rand key message = .ok sig) : sig.length = 64 ∧ p256Verify E pub message sig = true := by
  cases hs : E.sign rand key (E.sha message) with
  | none =>
    obtain ⟨e, he⟩ := (C77_sign E rand key message (fun r s h => ⟨(hE r s h).1, (hE r s h).2.1⟩)).2 hs
    rw [he] at h
    cases h
  | some p =>
    obtain ⟨r, s⟩ := p
    obtain ⟨hr, hs', hv⟩ := hE r s hs
    have := (C77_sign E rand key message (fun r s h => ⟨(hE r s h).1, (hE r s h).2.1⟩)).1 r s hs
    rw [this] at h
    cases h
    exact ⟨by simp [rawSignature, putBE_length], by rw [(C77_verify E pub message).1 r s hr hs', hv]⟩

/-- **C77** Every 64-byte string is the encoding of exactly one pair of numbers, so no other string stands for the same
signature. -/
theorem C77_unique (sig : Bytes) (h : sig.length = 64) :
    ∃ r s, r < 2 ^ 256 ∧ s < 2 ^ 256 ∧ sig = rawSignature r s ∧
      ∀ r' s', r' < 2 ^ 256 → s' < 2 ^ 256 → sig = rawSignature r' s' → r' = r ∧ s' = s := by
  have e : (2 : Nat) ^ 256 = 256 ^ 32 := by decide +kernel
  have l1 : (sig.take 32).length = 32 := by simp [h]
  have l2 : (sig.drop 32).length = 32 := by simp [h]
  refine ⟨getBE (sig.take 32), getBE (sig.drop 32), ?_, ?_, ?_, ?_⟩
  · have := getBE_lt (sig.take 32); rwa [l1, ← e] at this
  · have := getBE_lt (sig.drop 32); rwa [l2, ← e] at this
  · unfold rawSignature
    have h1 := putBE_getBE (sig.take 32)
    have h2 := putBE_getBE (sig.drop 32)
    rw [l1] at h1
    rw [l2] at h2
    rw [h1, h2, List.take_append_drop]
  · intro r' s' hr hs hq
    rw [e] at hr hs
    have hl : (putBE 32 r').length = 32 := putBE_length _ _
    rw [hq]
    unfold rawSignature
    rw [List.take_left' hl, List.drop_left' hl, getBE_putBE, getBE_putBE, Nat.mod_eq_of_lt hr, Nat.mod_eq_of_lt hs]
    exact ⟨rfl, rfl⟩

/-- **C77** An Ed25519 key that was parsed has the length on which `ed25519.Verify` does not panic. -/
theorem C77_ed25519 (E : Ed25519) (raw key message sig : Bytes) (h : ed25519ParsePublic raw = .ok key) :
    ed25519Verify E key message sig = .ok (E.verify raw message sig) := by
  unfold ed25519ParsePublic at h
  split at h
  · cases h
  next hl =>
  cases h
  unfold ed25519Verify
  rw [if_neg hl]
  rfl

end

/-- a scheme in which the first number is short, so that it has to be padded -/
def shortEcdsa : Ecdsa Unit Unit where
  sha b := b
  sign rand _ d := some (d.length + rand, 2 ^ 255 + 7)
  verify _ d r s := r == d.length + 3 && s == 2 ^ 255 + 7

/-- the hypotheses of `C77_correct` are met -/
example : ∃ sig, p256Sign shortEcdsa 3 () [1, 2] = .ok sig ∧ sig.take 33 = List.replicate 31 0 ++ [5, 128] ∧
    shortEcdsa.verify () (shortEcdsa.sha [1, 2]) 5 (2 ^ 255 + 7) = true :=
  ⟨rawSignature 5 (2 ^ 255 + 7), (C77_sign shortEcdsa 3 () [1, 2] (by
    intro r s h
    obtain ⟨rfl, rfl⟩ := Prod.mk.inj (Option.some.inj h)
    exact ⟨by decide +kernel, by decide +kernel⟩)).1 5 (2 ^ 255 + 7) rfl, by decide +kernel, by decide +kernel⟩

/-- the numbers have to fit: a longer first number makes `Sign` panic, a longer second one overwrites the first -/
example : p256Sign shortEcdsa (2 ^ 256) () [1, 2] = .error (.panic "slice bounds out of range") := by decide +kernel

/-! ### C78 -/

section
variable {P : Type} [AddCommGroup P]

/-- **C78 (P-256)** Every 32-byte string that `GeneratePrivateKey` returns is accepted as a private key, and the encoding
of the public key of every accepted private key is accepted, as the same point, which is not the point at infinity. -/
theorem C78_p256 {E : Curve P} (hE : P256Laws E) :
    (∀ draws raw, (∀ d ∈ draws, d.length = 32) → p256Generate E draws = some raw →
      ∃ key, P256.newPrivateKey E raw = .ok key) ∧
    (∀ raw key, P256.newPrivateKey E raw = .ok key →
      key.point ≠ 0 ∧ p256NewPublicKey E (E.enc key.point) = .ok key.point) := by
  constructor
  · intro draws raw hd h
    have hm := List.mem_of_find?_eq_some h
    have hp := List.find?_some h
    simp only [ne_eq, decide_eq_true_eq] at hp
    unfold P256.newPrivateKey
    rw [if_neg (by simp [hd raw hm]), if_neg (by omega)]
    exact ⟨_, rfl⟩
  · intro raw key h
    unfold P256.newPrivateKey at h
    split at h
    · cases h
    split at h
    · cases h
    next hr =>
    cases h
    have h0 : getBE raw • E.B ≠ 0 := p256_smul_nonzero hE (by omega) (by omega) hE.base
    refine ⟨h0, ?_⟩
    unfold p256NewPublicKey
    simp only
    rw [if_neg (by rw [hE.enc_length _ h0]; omega), hE.dec_enc _ h0]
    rfl

/-- **C78 (P-256)** Zero, numbers from the order of the group on, and strings of another length are no private keys. -/
theorem C78_p256_refused (E : Curve P) (raw : Bytes) :
    (∃ key, P256.newPrivateKey E raw = .ok key) ↔ raw.length = 32 ∧ 0 < getBE raw ∧ getBE raw < E.q := by
  unfold P256.newPrivateKey
  split
  · simp_all [goErr]
  split
  · simp only [goErr, reduceCtorEq, exists_false, false_iff]; omega
  · constructor
    · intro _; omega
    · intro _; exact ⟨_, rfl⟩

theorem clamp_lt (b : Bytes) : clamp b < 2 ^ 255 ∧ 8 ∣ clamp b ∧ 0 < clamp b := by
  unfold clamp
  have h := Nat.mod_lt (getLE b) (show 0 < 2 ^ 254 by decide +kernel)
  have h2 : (2 : Nat) ^ 254 = 8 * 2 ^ 251 := by rw [show (8 : Nat) = 2 ^ 3 from rfl, ← Nat.pow_add]
  have h3 : (2 : Nat) ^ 255 = 8 * 2 ^ 251 + 8 * 2 ^ 251 := by rw [← h2, ← Nat.two_mul, Nat.pow_succ, Nat.mul_comm]
  generalize getLE b % 2 ^ 254 = x at *
  rw [h2] at *
  rw [h3]
  generalize (2 : Nat) ^ 251 = y at *
  refine ⟨by omega, ⟨x / 8 + y, by omega⟩, by omega⟩

/-- **C78 (edwards25519)** Every 32-byte string is a private key, and the encoding of its public key is accepted, as the
same point: it is never in the small subgroup that `NewPublicKey` refuses.  (The order of the base point of
edwards25519 is 2^252 + 27742317777372353535851937790883648493.) -/
theorem C78_ed25519 [DecidableEq P] {E : Curve P} (hE : EdLaws E) (hq : 2 ^ 255 ≤ 8 * E.q) (raw : Bytes) (hr : raw.length = 32) :
    ∃ key, Ed.newPrivateKey E clamp raw = .ok key ∧ Ed.newPublicKey E (E.enc key.point) = .ok key.point := by
  refine ⟨_, by unfold Ed.newPrivateKey; rw [if_neg (by omega)]; rfl, ?_⟩
  unfold Ed.newPublicKey
  rw [hE.dec_enc]
  simp only
  rw [if_neg]
  · rfl
  intro h
  obtain ⟨hlt, hd, hpos⟩ := clamp_lt ((E.sha raw).take 32)
  generalize clamp ((E.sha raw).take 32) = x at *
  rw [mod_smul hE.base_order, smul_smul] at h
  have h2 : E.q ∣ 8 * x := by
    by_contra hn
    exact hE.base (zero_of_coprime hE.base_order (k := ((8 * x : Nat) : Int)) (by rw [natCast_zsmul]; exact h)
      (coprime_of_not_dvd hE.prime (fun hdv => hn (Int.natCast_dvd_natCast.1 hdv))))
  have hodd : Nat.Coprime E.q 8 := by
    rw [Nat.Prime.coprime_iff_not_dvd hE.prime]
    intro h8
    have := Nat.le_of_dvd (by omega) h8
    have := hE.big
    have h16 : (2 : Nat) ^ 128 > 8 := by decide +kernel
    omega
  have h3 : E.q ∣ x := hodd.dvd_of_dvd_mul_left h2
  have h4 : 8 * E.q ∣ x := hodd.symm.mul_dvd_of_dvd_of_dvd hd h3
  have := Nat.le_of_dvd hpos h4
  omega

/-- **C78 (edwards25519)** Exactly the points of the small subgroup are refused as public keys. -/
theorem C78_ed25519_refused [DecidableEq P] {E : Curve P} (hE : EdLaws E) (p : P) :
    Ed.newPublicKey E (E.enc p) = if 8 • p = 0 then .error (.err "public key is malformed") else .ok p := by
  unfold Ed.newPublicKey
  rw [hE.dec_enc]
  rfl

end

/-! ### the assumptions are met -/

/-- a prime between 2^252 and 2^253 -/
def wideQ : Nat := 2063 * 2 ^ 241 + 1

theorem wideQ_sub_one : wideQ - 1 = 2 ^ 241 * 2063 := by
  unfold wideQ
  rw [Nat.add_sub_cancel, mul_comm]

theorem wideQ_prime : wideQ.Prime := by
  have hp : ∀ k, (3 : ZMod wideQ) ^ (2 ^ k) = (sqn wideQ k 3 : Nat) := fun k => by
    rw [sqn_eq]; rfl
  have h1 : sqn wideQ 240 (3 ^ 2063) = wideQ - 1 := by decide +kernel
  have h3 : sqn wideQ 241 3 = 161453690973918722222498993726730382411829521243661986137832696372291327092 := by decide +kernel
  have hq : (1 : Nat) < wideQ := by decide +kernel
  have e2 : (3 : ZMod wideQ) ^ (2 ^ 240 * 2063) = -1 := by
    rw [mul_comm, pow_mul]
    have := sqn_eq wideQ 240 (3 ^ 2063)
    rw [h1, Nat.cast_sub (by omega), ZMod.natCast_self, Nat.cast_one, zero_sub, Nat.cast_pow] at this
    exact this.symm
  have hlt : ∀ a : Nat, a < wideQ → (a : ZMod wideQ) = 1 → a = 1 := fun a ha h => by
    have : ((a : Nat) : ZMod wideQ) = ((1 : Nat) : ZMod wideQ) := by rw [h, Nat.cast_one]
    rw [ZMod.natCast_eq_natCast_iff'] at this
    rwa [Nat.mod_eq_of_lt ha, Nat.mod_eq_of_lt hq] at this
  have h2063 : Nat.Prime 2063 := by norm_num
  refine lucas_primality wideQ (3 : ZMod wideQ) ?_ ?_
  · rw [wideQ_sub_one, show 2 ^ 241 * 2063 = 2 ^ 240 * 2063 * 2 by rw [pow_succ]; ring, pow_mul, e2]
    ring
  · intro r hr hd
    rw [wideQ_sub_one] at hd ⊢
    have hr' : r = 2 ∨ r = 2063 := by
      rcases (Nat.Prime.dvd_mul hr).1 hd with h | h
      · exact Or.inl ((Nat.prime_dvd_prime_iff_eq hr Nat.prime_two).1 (hr.dvd_of_dvd_pow h))
      · exact Or.inr ((Nat.prime_dvd_prime_iff_eq hr h2063).1 h)
    rcases hr' with rfl | rfl
    · rw [show 2 ^ 241 * 2063 / 2 = 2 ^ 240 * 2063 by rw [pow_succ]; omega, e2]
      intro h
      have h' : ((wideQ - 1 : Nat) : ZMod wideQ) = 1 := by
        rw [Nat.cast_sub (by omega), ZMod.natCast_self, Nat.cast_one, zero_sub, h]
      have := hlt _ (by omega) h'
      revert this
      decide +kernel
    · rw [Nat.mul_div_cancel _ (by omega), hp, h3]
      intro h
      have := hlt _ (by decide +kernel) h
      revert this
      decide

instance : Fact wideQ.Prime := ⟨wideQ_prime⟩

/-- a group with cofactor 8 whose base point has an order as large as that of edwards25519 -/
def wideEd : Curve (ZMod wideQ × ZMod 8) where
  q := wideQ
  B := (1, 0)
  enc x := putBE 32 (x.1.val + wideQ * x.2.val)
  dec b := if b.length = 32 ∧ getBE b < wideQ * 8 then some ((getBE b : ZMod wideQ), ((getBE b / wideQ : Nat) : ZMod 8)) else none
  sha b := putBE 32 (b.foldl (fun a x => a * 7 + x.toNat) 7) ++ putBE 32 (b.foldl (fun a x => a * 11 + x.toNat) 7)
  nonce a b := 5 + a.length + b.length

theorem wideEd_laws : EdLaws wideEd where
  prime := wideQ_prime
  big := by decide +kernel
  small := by decide +kernel
  base := by
    intro h
    exact one_ne_zero (Prod.mk.inj h).1
  base_order := by
    change wideQ • ((1, 0) : ZMod wideQ × ZMod 8) = 0
    rw [Prod.smul_mk, nsmul_eq_mul, ZMod.natCast_self, zero_mul, smul_zero]
    rfl
  order p := by
    change (8 * wideQ) • p = 0
    obtain ⟨a, b⟩ := p
    rw [Prod.smul_mk, nsmul_eq_mul, nsmul_eq_mul, Nat.cast_mul, Nat.cast_mul, ZMod.natCast_self, mul_zero, zero_mul,
      show ((8 : Nat) : ZMod 8) = 0 from ZMod.natCast_self 8, zero_mul, zero_mul]
    rfl
  generated p := ⟨p.1.val, by
    obtain ⟨a, b⟩ := p
    change 8 • (a, b) = (8 * a.val) • ((1, 0) : ZMod wideQ × ZMod 8)
    rw [Prod.smul_mk, Prod.smul_mk, smul_zero, nsmul_eq_mul, nsmul_eq_mul, nsmul_eq_mul, mul_one, Nat.cast_mul,
      ZMod.natCast_zmod_val, show ((8 : Nat) : ZMod 8) = 0 from ZMod.natCast_self 8, zero_mul]⟩
  dec_enc p := by
    obtain ⟨a, b⟩ := p
    have ha : a.val < wideQ := ZMod.val_lt a
    have hb : b.val < 8 := ZMod.val_lt b
    have hlt : a.val + wideQ * b.val < wideQ * 8 := by
      have : wideQ * b.val ≤ wideQ * 7 := Nat.mul_le_mul_left _ (by omega)
      omega
    have h2 : getBE (putBE 32 (a.val + wideQ * b.val)) = a.val + wideQ * b.val := by
      rw [getBE_putBE]
      exact Nat.mod_eq_of_lt (Nat.lt_trans hlt (by decide +kernel))
    simp only [wideEd, putBE_length, h2]
    rw [if_pos ⟨trivial, hlt⟩, Nat.cast_add, Nat.cast_mul, ZMod.natCast_self, zero_mul, add_zero, ZMod.natCast_zmod_val,
      Nat.add_mul_div_left _ _ (by omega), Nat.div_eq_of_lt ha, zero_add, ZMod.natCast_zmod_val]
  enc_length p := by simp [wideEd, putBE_length]
  sha_length b := by simp [wideEd, putBE_length]

/-- the hypotheses of `C78_ed25519` are met -/
example : EdLaws wideEd ∧ 2 ^ 255 ≤ 8 * wideEd.q ∧ (putBE 32 5).length = 32 :=
  ⟨wideEd_laws, by decide +kernel, by decide +kernel⟩

/-- so are those of `C78_p256` -/
example : P256Laws toyP256 ∧ p256Generate toyP256 [putBE 32 0, putBE 32 (2 ^ 255), putBE 32 5, putBE 32 6] = some (putBE 32 5) :=
  ⟨toyP256_laws, by decide +kernel⟩

end Katie.Props
