import Verif.Model.Nonce
import Verif.Spec.Nonce
import Verif.Spec.Collision
import Verif.Lemmas.Codec

/-
C92: the nonces of the VRF proofs.

Specification: `IsNonce` of `Verif/Spec/Nonce.lean` (RFC 6979).
-/

namespace Katie.Props
open Katie Katie.VRF Katie.NonceSpec Katie.Wire

theorem mac_eq (H : Bytes → Bytes) : P256.mac H = hmac H := rfl

theorem acceptable_iff {q : Nat} {k : Bytes} : (getBE k ≠ 0 ∧ getBE k < q) ↔ Acceptable q k := by
  unfold Acceptable bits2int
  omega

theorem nonceLoop_step (H : Bytes → Bytes) (q : Nat) (x h : Bytes) (fuel n : Nat) :
    P256.nonceLoop H q (fuel + 1) (state H x h n).1 (state H x h n).2 =
      if getBE (candidate H x h n) ≠ 0 ∧ getBE (candidate H x h n) < q then pure (candidate H x h n)
      else P256.nonceLoop H q fuel (state H x h (n + 1)).1 (state H x h (n + 1)).2 := by
  conv => lhs; unfold P256.nonceLoop
  rw [mac_eq]
  simp only [candidate, state]
  exact if_congr Iff.rfl rfl rfl

theorem nonceLoop_spec (H : Bytes → Bytes) (q : Nat) (x h : Bytes) : ∀ (fuel n : Nat),
    (∀ k, P256.nonceLoop H q fuel (state H x h n).1 (state H x h n).2 = .ok k ↔
      ∃ j, j < fuel ∧ (∀ i, n ≤ i → i < n + j → ¬ Acceptable q (candidate H x h i)) ∧
        Acceptable q (candidate H x h (n + j)) ∧ k = candidate H x h (n + j)) ∧
    ((∀ i, n ≤ i → i < n + fuel → ¬ Acceptable q (candidate H x h i)) →
      P256.nonceLoop H q fuel (state H x h n).1 (state H x h n).2 = goPanic "nonce generation failed unexpectedly") := by
  intro fuel
  induction fuel with
  | zero =>
    intro n
    refine ⟨fun k => ⟨fun e => (by cases e), ?_⟩, fun _ => rfl⟩
    rintro ⟨j, hj, _⟩
    omega
  | succ f ih =>
    intro n
    obtain ⟨ih1, ih2⟩ := ih (n + 1)
    rw [nonceLoop_step]
    by_cases ha : Acceptable q (candidate H x h n)
    · rw [if_pos (acceptable_iff.mpr ha)]
      refine ⟨fun k => ⟨fun e => ?_, ?_⟩, fun hno => absurd ha (hno n (le_refl _) (by omega))⟩
      · cases e
        exact ⟨0, by omega, by omega, ha, rfl⟩
      · rintro ⟨j, _, h2, _, h4⟩
        have : j = 0 := by
          by_contra hj
          exact h2 n (le_refl _) (by omega) ha
        subst this
        rw [h4]; rfl
    · rw [if_neg (fun e => ha (acceptable_iff.mp e))]
      refine ⟨fun k => ?_, fun hno => ih2 (fun i h1 h2 => hno i (by omega) (by omega))⟩
      rw [ih1 k]
      constructor
      · rintro ⟨j, h1, h2, h3, h4⟩
        refine ⟨j + 1, by omega, fun i g1 g2 => ?_, by rw [show n + (j + 1) = n + 1 + j by omega]; exact h3,
          by rw [show n + (j + 1) = n + 1 + j by omega]; exact h4⟩
        by_cases hi : i = n
        · rw [hi]; exact ha
        · exact h2 i (by omega) (by omega)
      · rintro ⟨j, h1, h2, h3, h4⟩
        cases j with
        | zero => exact absurd h3 ha
        | succ j =>
          refine ⟨j, by omega, fun i g1 g2 => h2 i (by omega) (by omega), ?_, ?_⟩
          · rw [show n + 1 + j = n + (j + 1) by omega]; exact h3
          · rw [show n + 1 + j = n + (j + 1) by omega]; exact h4

/-- What the code computes: the first acceptable one of 256 candidates, and a panic if there is none. -/
theorem generateNonce_spec (H : Bytes → Bytes) (q : Nat) (priv hStr : Bytes) :
    (∀ k, P256.generateNonce H q priv hStr = .ok k ↔
      ∃ n, n < 256 ∧ (∀ i < n, ¬ Acceptable q (candidate H priv (H hStr) i)) ∧
        Acceptable q (candidate H priv (H hStr) n) ∧ k = candidate H priv (H hStr) n) ∧
    ((∀ i < 256, ¬ Acceptable q (candidate H priv (H hStr) i)) →
      P256.generateNonce H q priv hStr = goPanic "nonce generation failed unexpectedly") := by
  obtain ⟨h1, h2⟩ := nonceLoop_spec H q priv (H hStr) 256 0
  have hstart : P256.generateNonce H q priv hStr =
      P256.nonceLoop H q 256 (state H priv (H hStr) 0).1 (state H priv (H hStr) 0).2 := by
    unfold P256.generateNonce
    rw [mac_eq]
    simp only [state, start]
  rw [hstart]
  constructor
  · intro k
    refine (h1 k).trans ?_
    simp only [Nat.zero_add, Nat.zero_le, forall_const]
  · intro h
    exact h2 (fun i _ hi => h i (by omega))

/-- **C92**, range: a nonce is neither zero nor beyond the group order, and has 32 bytes. -/
theorem C92_p256_range (H : Bytes → Bytes) (hH : ∀ b, (H b).length = 32) (q : Nat) (priv hStr k : Bytes)
    (h : P256.generateNonce H q priv hStr = .ok k) : 0 < getBE k ∧ getBE k < q ∧ k.length = 32 := by
  obtain ⟨n, _, _, h3, rfl⟩ := ((generateNonce_spec H q priv hStr).1 k).mp h
  obtain ⟨a, b⟩ := acceptable_iff.mpr h3
  exact ⟨by omega, b, hH _⟩

/-- **C92**, P-256, proved for all messages whose hash is below the group order: the nonce is the one of RFC 6979, and the
code gives up (with a panic) exactly if none of the first 256 candidates is acceptable.

Missing for the full statement: messages whose hash is not below the order, see `C92_p256_not_reduced`. -/
theorem C92_p256_rfc_partial (H : Bytes → Bytes) (hH : ∀ b, (H b).length = 32) (q x : Nat) (hStr : Bytes)
    (hlt : getBE (H hStr) < q) :
    (∀ k, P256.generateNonce H q (int2octets x) hStr = .ok k → IsNonce H q (int2octets x) (bits2octets q (H hStr)) k) ∧
    (∀ k, IsNonce H q (int2octets x) (bits2octets q (H hStr)) k → P256.generateNonce H q (int2octets x) hStr = .ok k ∨
      (P256.generateNonce H q (int2octets x) hStr = goPanic "nonce generation failed unexpectedly" ∧
        ∀ i < 256, ¬ Acceptable q (candidate H (int2octets x) (bits2octets q (H hStr)) i))) := by
  have hb : bits2octets q (H hStr) = H hStr := by
    unfold bits2octets bits2int int2octets
    rw [Nat.mod_eq_of_lt hlt]
    have := putBE_getBE (H hStr)
    rwa [hH] at this
  rw [hb]
  obtain ⟨h1, h2⟩ := generateNonce_spec H q (int2octets x) hStr
  constructor
  · intro k hk
    obtain ⟨n, _, h3, h4, h5⟩ := (h1 k).mp hk
    exact ⟨n, h3, h4, h5⟩
  · rintro k ⟨n, h3, h4, h5⟩
    by_cases hn : n < 256
    · exact Or.inl ((h1 k).mpr ⟨n, hn, h3, h4, h5⟩)
    · exact Or.inr ⟨h2 (fun i hi => h3 i (by omega)), fun i hi => h3 i (by omega)⟩

/-- The code does not reduce the hash: if it is not below the order, the octets that enter the derivation are not those of
RFC 6979. -/
theorem C92_p256_octets (H : Bytes → Bytes) (q : Nat) (hq : 0 < q) (hStr : Bytes) :
    bits2octets q (H hStr) = H hStr → getBE (H hStr) < q ∨ 256 ^ 32 ≤ q := by
  intro h
  by_cases hq' : 256 ^ 32 ≤ q
  · exact Or.inr hq'
  · left
    have := congrArg getBE h
    unfold bits2octets bits2int int2octets at this
    rw [getBE_putBE, Nat.mod_eq_of_lt (lt_trans (Nat.mod_lt _ hq) (by omega))] at this
    rw [← this]
    exact Nat.mod_lt _ hq

/-- the order of P-256 -/
def orderP256 : Nat := 0xffffffff00000000ffffffffffffffffbce6faada7179e84f3b9cac2fc632551

/-- a hash function for examples -/
def toySha (b : Bytes) : Bytes :=
  if b = [0xfc] then List.replicate 32 0xff
  else (List.range 32).map (fun i => b.foldl (fun a x => (a ^^^ x) * UInt8.ofNat (2 * i + 3) + (a >>> 3)) (UInt8.ofNat i))

/-- **C92** is false for P-256 as stated: for a message whose hash is not below the order the nonce is not the one of
RFC 6979. -/
theorem C92_p256_not_reduced : ∃ k k', getBE (toySha [0xfc]) ≥ orderP256 ∧
    P256.generateNonce toySha orderP256 (int2octets 77) [0xfc] = .ok k ∧
    IsNonce toySha orderP256 (int2octets 77) (bits2octets orderP256 (toySha [0xfc])) k' ∧ k ≠ k' := by
  refine ⟨(P256.generateNonce toySha orderP256 (int2octets 77) [0xfc]).toOption.getD [],
    candidate toySha (int2octets 77) (bits2octets orderP256 (toySha [0xfc])) 0, by decide +kernel, by decide +kernel,
    ⟨0, fun i hi => absurd hi (Nat.not_lt_zero i), ?_, rfl⟩, by decide +kernel⟩
  unfold Acceptable
  decide +kernel

/-! ### nonces do not repeat -/

theorem map_xor_inj {p : UInt8} : ∀ {a b : Bytes}, a.map (· ^^^ p) = b.map (· ^^^ p) → a = b := by
  intro a b h
  refine (List.map_inj_right (fun x y hxy => ?_)).mp h
  have : (x ^^^ p) ^^^ p = (y ^^^ p) ^^^ p := congrArg (· ^^^ p) hxy
  simpa [UInt8.xor_assoc] using this

theorem strings_inj {H : Bytes → Bytes} {A B : List Bytes} (hcol : ¬ LogSpec.Collides H A B) {k m k' m' : Bytes}
    (hk : k.length = 32) (hk' : k'.length = 32) (hA : ∀ s ∈ strings H (k, m), s ∈ A)
    (hB : ∀ s ∈ strings H (k', m'), s ∈ B) (h : hmac H k m = hmac H k' m') : k = k' ∧ m = m' := by
  have e2 : (hmacStrings H k m).2 = (hmacStrings H k' m').2 := by
    by_contra hne
    exact hcol ⟨_, hA _ (by simp [strings]), _, hB _ (by simp [strings]), hne, h⟩
  unfold hmacStrings at e2
  simp only at e2
  obtain ⟨e3, e4⟩ := List.append_inj e2 (by simp [hk, hk'])
  have e5 := map_xor_inj e3
  obtain ⟨e6, _⟩ := List.append_inj e5 (by rw [hk, hk'])
  have e1 : (hmacStrings H k m).1 = (hmacStrings H k' m').1 := by
    by_contra hne
    exact hcol ⟨_, hA _ (by simp [strings]), _, hB _ (by simp [strings]), hne, e4⟩
  unfold hmacStrings at e1
  simp only at e1
  obtain ⟨_, e7⟩ := List.append_inj e1 (by simp [hk, hk'])
  exact ⟨e6, e7⟩

section
variable (H : Bytes → Bytes) (x h : Bytes)

theorem mem_hashed_state {i n : Nat} (hi : i ≤ n) : ∀ s ∈ strings H (state H x h i), s ∈ hashed H x h n := by
  intro s hs
  unfold hashed
  refine List.mem_flatMap.mpr ⟨_, List.mem_append_right _ (List.mem_map.mpr ⟨i, ?_, rfl⟩), hs⟩
  exact List.mem_range.mpr (by omega)

theorem mem_hashed_retry {i n : Nat} (hi : i < n) :
    ∀ s ∈ strings H ((state H x h i).1, candidate H x h i ++ [0x00]), s ∈ hashed H x h n := by
  intro s hs
  unfold hashed
  refine List.mem_flatMap.mpr ⟨_, List.mem_append_left _ (List.mem_append_right _
    (List.mem_flatMap.mpr ⟨i, List.mem_range.mpr hi, List.mem_cons_self⟩)), hs⟩

/-- `K` after the first two rounds, and `V` after the first -/
def key1 : Bytes := hmac H (List.replicate 32 0x00) (List.replicate 32 0x01 ++ [0x00] ++ x ++ h)
def val1 : Bytes := hmac H (key1 H x h) (List.replicate 32 0x01)

theorem mem_hashed_start (n : Nat) :
    ∀ s ∈ strings H (key1 H x h, val1 H x h ++ [0x01] ++ x ++ h), s ∈ hashed H x h n := by
  intro s hs
  unfold hashed
  refine List.mem_flatMap.mpr ⟨_, List.mem_append_left _ (List.mem_append_left _ ?_), hs⟩
  exact List.mem_cons_of_mem _ (List.mem_cons_of_mem _ List.mem_cons_self)

theorem state_key_length (hH : ∀ b, (H b).length = 32) (n : Nat) : (state H x h n).1.length = 32 := by
  cases n <;> exact hH _

end

theorem candidate_inj (H : Bytes → Bytes) (hH : ∀ b, (H b).length = 32) (x x' h h' : Bytes)
    (hx : x.length = 32) (hx' : x'.length = 32) (hh : h.length = 32) (hh' : h'.length = 32) {A B : List Bytes}
    (hcol : ¬ LogSpec.Collides H A B) : ∀ (n n' : Nat), (∀ s ∈ hashed H x h n, s ∈ A) → (∀ s ∈ hashed H x' h' n', s ∈ B) →
    (∀ i ≤ n, ∀ s ∈ hashed H x h i, s ∈ A) → (∀ i ≤ n', ∀ s ∈ hashed H x' h' i, s ∈ B) →
    candidate H x h n = candidate H x' h' n' → x = x' ∧ h = h' ∧ n = n' := by
  intro n
  induction n with
  | zero =>
    intro n' hA hB hA' hB' e
    obtain ⟨ek, -⟩ := strings_inj hcol (state_key_length H x h hH 0) (state_key_length H x' h' hH n')
      (fun s hs => hA s (mem_hashed_state H x h (le_refl _) s hs))
      (fun s hs => hB s (mem_hashed_state H x' h' (le_refl _) s hs)) e
    cases n' with
    | zero =>
      obtain ⟨-, em⟩ := strings_inj (k := key1 H x h) (k' := key1 H x' h') (m := val1 H x h ++ [0x01] ++ x ++ h)
        (m' := val1 H x' h' ++ [0x01] ++ x' ++ h') hcol (hH _) (hH _)
        (fun s hs => hA s (mem_hashed_start H x h _ s hs)) (fun s hs => hB s (mem_hashed_start H x' h' _ s hs)) ek
      obtain ⟨e1, e2⟩ := List.append_inj' em (by rw [hh, hh'])
      obtain ⟨-, e3⟩ := List.append_inj' e1 (by rw [hx, hx'])
      exact ⟨e3, e2, rfl⟩
    | succ m =>
      obtain ⟨-, em⟩ := strings_inj (k := key1 H x h) (m := val1 H x h ++ [0x01] ++ x ++ h)
        (k' := (state H x' h' m).1) (m' := candidate H x' h' m ++ [0x00]) hcol (hH _) (state_key_length H x' h' hH m)
        (fun s hs => hA s (mem_hashed_start H x h _ s hs))
        (fun s hs => hB s (mem_hashed_retry H x' h' (Nat.lt_succ_self m) s hs)) ek
      have := congrArg List.length em
      simp [val1, candidate, hmac, hH, hx, hh] at this
  | succ k ih =>
    intro n' hA hB hA' hB' e
    obtain ⟨ek, -⟩ := strings_inj hcol (state_key_length H x h hH (k + 1)) (state_key_length H x' h' hH n')
      (fun s hs => hA s (mem_hashed_state H x h (le_refl _) s hs))
      (fun s hs => hB s (mem_hashed_state H x' h' (le_refl _) s hs)) e
    cases n' with
    | zero =>
      obtain ⟨-, em⟩ := strings_inj (k := (state H x h k).1) (m := candidate H x h k ++ [0x00])
        (k' := key1 H x' h') (m' := val1 H x' h' ++ [0x01] ++ x' ++ h') hcol (state_key_length H x h hH k) (hH _)
        (fun s hs => hA s (mem_hashed_retry H x h (Nat.lt_succ_self k) s hs))
        (fun s hs => hB s (mem_hashed_start H x' h' _ s hs)) ek
      have := congrArg List.length em
      simp [val1, candidate, hmac, hH, hx', hh'] at this
    | succ m =>
      obtain ⟨-, em⟩ := strings_inj (k := (state H x h k).1) (m := candidate H x h k ++ [0x00])
        (k' := (state H x' h' m).1) (m' := candidate H x' h' m ++ [0x00]) hcol (state_key_length H x h hH k)
        (state_key_length H x' h' hH m)
        (fun s hs => hA s (mem_hashed_retry H x h (Nat.lt_succ_self k) s hs))
        (fun s hs => hB s (mem_hashed_retry H x' h' (Nat.lt_succ_self m) s hs)) ek
      have ec := (List.append_inj' em rfl).1
      obtain ⟨r1, r2, r3⟩ := ih m (hA' k (by omega)) (hB' m (by omega)) (fun i hi => hA' i (by omega))
        (fun i hi => hB' i (by omega)) ec
      exact ⟨r1, r2, by omega⟩

theorem hashed_mono (H : Bytes → Bytes) (x h : Bytes) {i n : Nat} (hi : i ≤ n) :
    ∀ s ∈ hashed H x h i, s ∈ hashed H x h n := by
  intro s hs
  unfold hashed at hs ⊢
  obtain ⟨c, hc, hs⟩ := List.mem_flatMap.mp hs
  refine List.mem_flatMap.mpr ⟨c, ?_, hs⟩
  rcases List.mem_append.mp hc with hc | hc
  · refine List.mem_append_left _ ?_
    rcases List.mem_append.mp hc with hc | hc
    · exact List.mem_append_left _ hc
    · refine List.mem_append_right _ ?_
      obtain ⟨j, hj, hc⟩ := List.mem_flatMap.mp hc
      exact List.mem_flatMap.mpr ⟨j, List.mem_range.mpr (by have := List.mem_range.mp hj; omega), hc⟩
  · refine List.mem_append_right _ ?_
    obtain ⟨j, hj, hc⟩ := List.mem_map.mp hc
    exact List.mem_map.mpr ⟨j, List.mem_range.mpr (by have := List.mem_range.mp hj; omega), hc⟩

/-- **C92**, no reuse: if two computations give the same nonce, they were for the same key and the same point, or two
different strings that are hashed by them have the same digest. -/
theorem C92_p256_no_reuse (H : Bytes → Bytes) (hH : ∀ b, (H b).length = 32) (q : Nat) (x x' hStr hStr' k : Bytes)
    (hx : x.length = 32) (hx' : x'.length = 32)
    (h : P256.generateNonce H q x hStr = .ok k) (h' : P256.generateNonce H q x' hStr' = .ok k) :
    (x = x' ∧ hStr = hStr') ∨ ∃ n n', n < 256 ∧ n' < 256 ∧
      LogSpec.Collides H (hStr :: hashed H x (H hStr) n) (hStr' :: hashed H x' (H hStr') n') := by
  obtain ⟨n, hn, _, _, rfl⟩ := ((generateNonce_spec H q x hStr).1 k).mp h
  obtain ⟨n', hn', _, _, e⟩ := ((generateNonce_spec H q x' hStr').1 _).mp h'
  by_cases hcol : LogSpec.Collides H (hStr :: hashed H x (H hStr) n) (hStr' :: hashed H x' (H hStr') n')
  · exact Or.inr ⟨n, n', hn, hn', hcol⟩
  left
  obtain ⟨e1, e2, -⟩ := candidate_inj H hH x x' (H hStr) (H hStr') hx hx' (hH _) (hH _) hcol n n'
    (fun s hs => List.mem_cons_of_mem _ hs) (fun s hs => List.mem_cons_of_mem _ hs)
    (fun i hi s hs => List.mem_cons_of_mem _ (hashed_mono H x _ hi s hs))
    (fun i hi s hs => List.mem_cons_of_mem _ (hashed_mono H x' _ hi s hs)) e
  refine ⟨e1, ?_⟩
  by_contra hne
  exact hcol ⟨hStr, List.mem_cons_self, hStr', List.mem_cons_self, hne, e2⟩

/-- A case: the toy hash function gives nonces for two points, and they differ. -/
example : ∃ k k', P256.generateNonce toySha orderP256 (int2octets 77) [0x02, 0x05] = .ok k ∧
    P256.generateNonce toySha orderP256 (int2octets 77) [0x03, 0x06] = .ok k' ∧ k ≠ k' ∧
    getBE (toySha [0x02, 0x05]) < orderP256 ∧ (int2octets 77).length = 32 := by
  refine ⟨(P256.generateNonce toySha orderP256 (int2octets 77) [0x02, 0x05]).toOption.getD [],
    (P256.generateNonce toySha orderP256 (int2octets 77) [0x03, 0x06]).toOption.getD [], ?_⟩
  decide +kernel

/-- A case: with a smaller order some candidates are refused. -/
example : ¬ Acceptable (256 ^ 31) (candidate toySha (int2octets 77) (toySha [2, 8]) 0) ∧
    getBE ((P256.generateNonce toySha (256 ^ 31) (int2octets 77) [2, 8]).toOption.getD []) ≠ 0 := by
  constructor
  · unfold Acceptable
    decide +kernel
  · decide +kernel

/-- A case: a hash function for which no candidate is acceptable. -/
example : P256.generateNonce (fun _ => List.replicate 32 0xff) orderP256 (int2octets 77) [0x02] =
    goPanic "nonce generation failed unexpectedly" := by
  refine (generateNonce_spec _ _ _ _).2 (fun i _ => ?_)
  show ¬ Acceptable orderP256 (List.replicate 32 0xff)
  unfold Acceptable
  decide +kernel

/-! ### edwards25519 -/

/-- **C92**, edwards25519: for a key made from the 32 bytes `raw`, the nonce is the hash of the second half of the hash of
`raw` and of the point, read as a number (RFC 8032, 5.1.6, step 2; RFC 9381, 5.4.2.2). -/
theorem C92_ed25519 {P : Type} [AddCommGroup P] (E : Curve P) (hsha : ∀ b, (E.sha b).length = 64) (clamp : Bytes → Nat)
    (raw hStr : Bytes) (key : Ed.PrivateKey P) (hk : Ed.newPrivateKey E clamp raw = .ok key) :
    Ed.generateNonce E.sha E.q key.upper hStr = .ok (getLE (E.sha ((E.sha raw).drop 32 ++ hStr)) % E.q) := by
  unfold Ed.newPrivateKey at hk
  split at hk
  · cases hk
  · cases hk
    unfold Ed.generateNonce
    simp only
    rw [if_neg (by rw [hsha]; simp)]
    rfl

/-- **C92, edwards25519, no reuse.**  If two keys get the same nonce for two points, then the keys and the points are the same, or
the digests of two different strings are the same number modulo the order of the group, or the second halves of the digests of the
two keys are the same. -/
theorem C92_ed25519_no_reuse {P : Type} [AddCommGroup P] (E : Curve P) (hsha : ∀ b, (E.sha b).length = 64) (clamp : Bytes → Nat)
    (raw raw' hStr hStr' : Bytes) (key key' : Ed.PrivateKey P) (hk : Ed.newPrivateKey E clamp raw = .ok key)
    (hk' : Ed.newPrivateKey E clamp raw' = .ok key') {k : Nat}
    (h : Ed.generateNonce E.sha E.q key.upper hStr = .ok k) (h' : Ed.generateNonce E.sha E.q key'.upper hStr' = .ok k) :
    (raw = raw' ∧ hStr = hStr') ∨
    (∃ a b, a ≠ b ∧ a = (E.sha raw).drop 32 ++ hStr ∧ b = (E.sha raw').drop 32 ++ hStr' ∧
      getLE (E.sha a) % E.q = getLE (E.sha b) % E.q) ∨
    (raw ≠ raw' ∧ (E.sha raw).drop 32 = (E.sha raw').drop 32) := by
  rw [C92_ed25519 E hsha clamp raw hStr key hk] at h
  rw [C92_ed25519 E hsha clamp raw' hStr' key' hk'] at h'
  have e := (Except.ok.inj h).trans (Except.ok.inj h').symm
  by_cases hab : (E.sha raw).drop 32 ++ hStr = (E.sha raw').drop 32 ++ hStr'
  · obtain ⟨e1, e2⟩ := List.append_inj hab (by rw [List.length_drop, List.length_drop, hsha, hsha])
    by_cases hr : raw = raw'
    · exact Or.inl ⟨hr, e2⟩
    · exact Or.inr (Or.inr ⟨hr, e1⟩)
  · exact Or.inr (Or.inl ⟨_, _, hab, rfl, rfl, e⟩)

end Katie.Props
