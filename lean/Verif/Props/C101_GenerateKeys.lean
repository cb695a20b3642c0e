import Verif.Model.GenerateKeys
import Verif.Props.C77_Keys

/-
C101: what `generate-keys` prints is a working set of keys.
-/

namespace Katie.Props
open Katie Katie.VRF Katie.VRFSpec Katie.Suites Katie.GenerateKeys Katie.Wire

/-! ### spec -/

/-- the labels of the four lines, in the order in which they are printed -/
def keyLabels : List String :=
  ["Signing Private Key: ", "Signing Public Key:  ", "VRF Private Key:     ", "VRF Public Key:      "]

/-- the run was successful and printed the four keys, each in a form that `hex.DecodeString` reads -/
def Prints (run : Run) (sigPriv sigPub vrfPriv vrfPub : Bytes) : Prop :=
  run.outcome = .done ∧ run.lines.map Prod.fst = keyLabels ∧
    run.lines.map (fun l => hexDecode l.2) = [some sigPriv, some sigPub, some vrfPriv, some vrfPub]

/-- RFC 8032, 5.1.5: the public key of a seed -/
def Rfc8032 {P : Type} [AddCommGroup P] (E : Curve P) (S : Ed25519) : Prop :=
  ∀ seed, seed.length = 32 → S.pub seed = E.enc (clamp ((E.sha seed).take 32) • E.B)

/-- `crypto/ecdsa` reads the keys that it writes -/
structure EcdsaKeysLaws {K Y : Type} (S : EcdsaKeys K Y) : Prop where
  priv : ∀ k b, S.privBytes k = some b → S.parsePriv b = some k
  pub : ∀ k b, S.pubBytes k = some b → S.parsePub b = some k

/-! ### hexadecimal -/

theorem fromHexChar_digitChar : ∀ n, n < 16 → fromHexChar (Nat.digitChar n) = some n := by decide +kernel

theorem hexDecode_hexBytes : ∀ b : Bytes, hexDecode (DB.hexBytes b) = some b
  | [] => rfl
  | x :: l => by
    have hx : x.toNat < 256 := x.toNat_lt
    rw [DB.hexBytes, hexDecode, fromHexChar_digitChar _ (by omega), fromHexChar_digitChar _ (by omega), hexDecode_hexBytes l]
    simp only
    rw [Nat.div_add_mod, UInt8.ofNat_toNat]

theorem prints_iff {a b c d a' b' c' d' : Bytes} :
    Prints ⟨[line "Signing Private Key: " a, line "Signing Public Key:  " b, line "VRF Private Key:     " c,
      line "VRF Public Key:      " d], .done⟩ a' b' c' d' ↔ a = a' ∧ b = b' ∧ c = c' ∧ d = d' := by
  simp [Prints, keyLabels, line, hexDecode_hexBytes]

/-! ### C101 -/

variable {P : Type} [AddCommGroup P]

/-- **C101 (Ed25519)** If the random strings can be drawn, `generate-keys ed25519` prints four keys that belong together: the
signing keys are accepted by the parsers of the cipher suite, and whatever is signed with the first verifies with the second; the
VRF private key is accepted, the VRF public key is accepted as the public key of this private key, and every output and proof
made with the private key verifies with the public key.  (The public key comes from `crypto/ed25519`, the VRF is another package.) -/
theorem C101_ed25519 [DecidableEq P] {E : Curve P} (hE : EdLaws E) (hq : 2 ^ 255 ≤ 8 * E.q) {S : Ed25519} (hS : Rfc8032 E S)
    (hsign : ∀ seed m, seed.length = 32 → S.verify (S.pub seed) m (S.sign seed m) = true)
    {K Y Q : Type} [AddCommGroup Q] (S' : EcdsaKeys K Y) (E' : Curve Q) (rand : Nat) (draws : List Bytes)
    (seed1 seed2 : Bytes) (h1 : seed1.length = 32) (h2 : seed2.length = 32) :
    ∃ sigPriv sigPub vrfPriv vrfPub,
      Prints (GenerateKeys.main S' E' S "ed25519" rand draws (some seed1) (some seed2)) sigPriv sigPub vrfPriv vrfPub ∧
      (∃ key pub, ed25519ParsePrivate sigPriv = .ok key ∧ ed25519ParsePublic sigPub = .ok pub ∧
        ∀ m, ed25519Verify S pub m (S.sign key m) = .ok true) ∧
      (∃ key, Ed.newPrivateKey E clamp vrfPriv = .ok key ∧ Ed.newPublicKey E vrfPub = .ok key.point ∧
        ∀ m output proof, Ed.prove E key m = .ok (output, proof) → Ed.verify E key.point m proof = .ok output) ∧
      sigPriv = seed1 ∧ vrfPriv = seed2 := by
  refine ⟨seed1, S.pub seed1, seed2, S.pub seed2, ?_, ?_, ?_, rfl, rfl⟩
  · rw [GenerateKeys.main, if_neg (by decide), if_pos rfl]
    exact prints_iff.2 ⟨rfl, rfl, rfl, rfl⟩
  · have hl : (S.pub seed1).length = 32 := by rw [hS _ h1, hE.enc_length]
    refine ⟨seed1, S.pub seed1, ?_, ?_, ?_⟩
    · rw [ed25519ParsePrivate, if_neg (by omega)]; rfl
    · rw [ed25519ParsePublic, if_neg (by omega)]; rfl
    · intro m
      rw [ed25519Verify, if_neg (by omega), hsign _ _ h1]; rfl
  · obtain ⟨key, hk, hp⟩ := C78_ed25519 hE hq seed2 h2
    have hpub : S.pub seed2 = E.enc key.point := by
      rw [hS _ h2]
      unfold Ed.newPrivateKey at hk
      rw [if_neg (by omega)] at hk
      obtain rfl := (Except.ok.inj hk).symm
      simp only
      rw [mod_smul hE.base_order]
    exact ⟨key, hk, by rw [hpub]; exact hp, fun m output proof h => C50_ed25519_complete hE clamp _ m key hk output proof h⟩

/-- **C101 (P-256)** A successful run of `generate-keys p256` prints four keys that belong together: the signing keys are read back
as the private key that was generated and its public key; the VRF private key is accepted, the VRF public key is accepted as its
public key, and outputs and proofs made with the private key verify with the public key (but for proofs with scalar zero, see
C50). -/
theorem C101_p256 {E : Curve P} (hE : P256Laws E) {K Y : Type} {S : EcdsaKeys K Y} (hS : EcdsaKeysLaws S) (D : Ed25519)
    (rand : Nat) (draws : List Bytes) (draw1 draw2 : Option Bytes)
    (h : (GenerateKeys.main S E D "p256" rand draws draw1 draw2).outcome = .done) :
    ∃ sigPriv sigPub vrfPriv vrfPub,
      Prints (GenerateKeys.main S E D "p256" rand draws draw1 draw2) sigPriv sigPub vrfPriv vrfPub ∧
      (∃ key, S.gen rand = some key ∧ S.parsePriv sigPriv = some key ∧ S.parsePub sigPub = some (S.pub key)) ∧
      (∃ key, P256.newPrivateKey E vrfPriv = .ok key ∧ p256NewPublicKey E vrfPub = .ok key.point ∧
        ∀ m output proof, P256.prove E key m = .ok (output, proof) → getBE (proof.drop 49) ≠ 0 →
          P256.verifyOutput E key.point m proof = .ok output) ∧
      vrfPriv ∈ draws := by
  rw [GenerateKeys.main, if_pos rfl] at h ⊢
  unfold generateP256 at h ⊢
  split at h
  · cases h
  next sigKey hk =>
  split at h
  · cases h
  next raw hraw =>
  simp only at h
  split at h
  · cases h
  next pub hpub =>
  split at h
  · cases h
  next vrfKey hv =>
  split at h
  · cases h
  next key hkey =>
  simp only [hk, hraw, hpub, hv, hkey]
  refine ⟨raw, pub, vrfKey, E.enc key.point, prints_iff.2 ⟨rfl, rfl, rfl, rfl⟩, ⟨sigKey, rfl, hS.priv _ _ hraw, hS.pub _ _ hpub⟩,
    ⟨key, hkey, ((C78_p256 hE).2 _ _ hkey).2, ?_⟩, List.mem_of_find?_eq_some hv⟩
  intro m output proof hp hs
  exact (C50_p256_complete hE vrfKey m key hkey output proof hp).1 hs

/-- **C101 (P-256, success)** `generate-keys p256` does not succeed only if `crypto/ecdsa` fails, or as long as no acceptable
string has been drawn for the VRF: a generated VRF key is never refused. -/
theorem C101_p256_succeeds {E : Curve P} (hE : P256Laws E) {K Y : Type} (S : EcdsaKeys K Y) (D : Ed25519)
    (rand : Nat) (draws : List Bytes) (draw1 draw2 : Option Bytes) (hd : ∀ d ∈ draws, d.length = 32) :
    (GenerateKeys.main S E D "p256" rand draws draw1 draw2).outcome = .done ↔
      (∃ key, S.gen rand = some key ∧ (S.privBytes key).isSome ∧ (S.pubBytes (S.pub key)).isSome) ∧
      ∃ d ∈ draws, 0 < getBE d ∧ getBE d < E.q := by
  rw [GenerateKeys.main, if_pos rfl]
  unfold generateP256
  cases hk : S.gen rand with
  | none => simp
  | some key =>
  cases hraw : S.privBytes key with
  | none => simp [hraw]
  | some raw =>
  cases hpub : S.pubBytes (S.pub key) with
  | none => simp [hpub, hraw]
  | some pub =>
  cases hv : p256Generate E draws with
  | none =>
    simp only [hraw, hpub, reduceCtorEq, false_iff, not_and]
    intro _ ⟨d, hdm, h0, hlt⟩
    have := List.find?_eq_none.1 hv d hdm
    simp only [decide_eq_true_eq] at this
    omega
  | some vrfKey =>
    obtain ⟨key', hkey⟩ := (C78_p256 hE).1 draws vrfKey hd hv
    have hp := List.find?_some hv
    simp only [decide_eq_true_eq] at hp
    simp only [hraw, hpub, hkey, true_iff]
    exact ⟨⟨key, rfl, by simp [hraw], by simp [hpub]⟩, vrfKey, List.mem_of_find?_eq_some hv, by omega, hp.2⟩

/-- **C101 (failures)** Any other argument, and a run that does not succeed, prints fewer than four lines, whose labels are the first
of the four. -/
theorem C101_failed {K Y : Type} (S : EcdsaKeys K Y) (E : Curve P) (D : Ed25519) (arg : String) (rand : Nat)
    (draws : List Bytes) (draw1 draw2 : Option Bytes)
    (h : (GenerateKeys.main S E D arg rand draws draw1 draw2).outcome ≠ .done) :
    (GenerateKeys.main S E D arg rand draws draw1 draw2).lines.map Prod.fst <+: keyLabels ∧
    ((GenerateKeys.main S E D arg rand draws draw1 draw2).lines = [] ∨
      (arg = "p256" ∨ arg = "ed25519") ∧ (GenerateKeys.main S E D arg rand draws draw1 draw2).lines.length < 4) := by
  have e : ∀ n, keyLabels.take n <+: keyLabels := fun n => List.take_prefix n _
  unfold GenerateKeys.main at h ⊢
  split at h
  next ha =>
    rw [if_pos ha]
    unfold generateP256 at h ⊢
    cases hk : S.gen rand with
    | none => exact ⟨e 0, .inl rfl⟩
    | some key =>
    simp only [hk] at h
    cases hraw : S.privBytes key with
    | none => exact ⟨by simp only [hraw]; exact e 0, .inl (by simp only [hraw])⟩
    | some raw =>
    simp only [hraw] at h
    cases hpub : S.pubBytes (S.pub key) with
    | none => simp only [hraw, hpub]; exact ⟨e 1, .inr ⟨.inl ha, by simp⟩⟩
    | some pub =>
    simp only [hpub] at h
    cases hv : p256Generate E draws with
    | none => simp only [hraw, hpub]; exact ⟨e 2, .inr ⟨.inl ha, by simp⟩⟩
    | some vrfKey =>
    simp only [hv] at h
    cases hkey : P256.newPrivateKey E vrfKey with
    | error f => simp only [hraw, hpub, hkey]; exact ⟨e 3, .inr ⟨.inl ha, by simp⟩⟩
    | ok key' => simp only [hkey, ne_eq, not_true_eq_false] at h
  next ha =>
    rw [if_neg ha]
    split at h
    next hb =>
      rw [if_pos hb]
      unfold generateEd25519 at h ⊢
      cases draw1 with
      | none => exact ⟨e 0, .inl rfl⟩
      | some s1 =>
      cases draw2 with
      | none => exact ⟨e 2, .inr ⟨.inr hb, by simp⟩⟩
      | some s2 => exact absurd rfl h
    next hb =>
      rw [if_neg hb]
      exact ⟨e 0, .inl rfl⟩

/-! ### the assumptions are met -/

/-- a signature scheme with the public keys of RFC 8032: the signature is the public key -/
def wideSigs : Ed25519 where
  pub seed := wideEd.enc (clamp ((wideEd.sha seed).take 32) • wideEd.B)
  sign seed _ := wideEd.enc (clamp ((wideEd.sha seed).take 32) • wideEd.B)
  verify key _ sig := decide (key = sig)

example : EdLaws wideEd ∧ 2 ^ 255 ≤ 8 * wideEd.q ∧ Rfc8032 wideEd wideSigs ∧
    (∀ seed m, seed.length = 32 → wideSigs.verify (wideSigs.pub seed) m (wideSigs.sign seed m) = true) ∧
    (∀ key m sig, sig ≠ key → wideSigs.verify key m sig = false) :=
  ⟨wideEd_laws, by decide +kernel, fun _ _ => rfl, fun _ _ _ => decide_eq_true rfl, fun _ _ _ h => decide_eq_false h.symm⟩

/-- keys that are numbers of up to four bytes -/
def toyEcdsaKeys : EcdsaKeys Nat Nat where
  gen r := if r < 1000 then some r else none
  privBytes k := if k < 1000 then some (putBE 4 k) else none
  pub k := k
  pubBytes k := if k < 1000 then some (putBE 4 k) else none
  parsePriv b := some (getBE b)
  parsePub b := some (getBE b)

theorem toyEcdsaKeys_laws : EcdsaKeysLaws toyEcdsaKeys := by
  have e : ∀ k b, (if k < 1000 then some (putBE 4 k) else none) = some b → some (getBE b) = some k := by
    intro k b h
    split at h
    · cases h
      rw [getBE_putBE, Nat.mod_eq_of_lt (by omega)]
    · cases h
  exact ⟨e, e⟩

/-- a run in which the first two strings drawn for the VRF key are refused -/
example : P256Laws toyP256 ∧ EcdsaKeysLaws toyEcdsaKeys ∧
    (GenerateKeys.main toyEcdsaKeys toyP256 wideSigs "p256" 700 [putBE 32 0, putBE 32 (2 ^ 255), putBE 32 5] none none).outcome =
      .done := by
  refine ⟨toyP256_laws, toyEcdsaKeys_laws, (C101_p256_succeeds toyP256_laws _ _ _ _ _ _ ?_).2 ⟨⟨700, rfl, rfl, rfl⟩, putBE 32 5,
    by simp, by decide +kernel, by decide +kernel⟩⟩
  intro d hd
  simp only [List.mem_cons, List.not_mem_nil, or_false] at hd
  rcases hd with rfl | rfl | rfl <;> exact putBE_length _ _

/-- a failed run that has printed a private key -/
example : (GenerateKeys.main toyEcdsaKeys toyP256 wideSigs "p256" 7 [] none none) =
    ⟨[("Signing Private Key: ", "00000007".toList), ("Signing Public Key:  ", "00000007".toList)], .waiting⟩ := by decide +kernel

end Katie.Props
