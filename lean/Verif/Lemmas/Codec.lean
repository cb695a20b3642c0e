import Verif.Spec.Codec
import Mathlib.Tactic.Ring
import Mathlib.Algebra.Order.Ring.Nat
import Mathlib.Tactic.ByContra

/-
Building lossless encodings from smaller ones.
-/

namespace Katie.Wire
open Katie

variable {α β γ : Type}

/-! ### readers and writers -/

/-- the sequencing of readers -/
def Rd.bind' (r : Rd α) (f : α → Rd β) : Rd β := fun buf =>
  match r buf with
  | .ok (a, rest) => f a rest
  | .error e => .error e

instance : LawfulMonad Rd := LawfulMonad.mk' _
  (id_map := by
    intro α x; funext buf
    show (match x buf with | Except.ok (a, rest) => Except.ok (a, rest) | Except.error e => Except.error e) = x buf
    rcases x buf with e | ⟨a, r⟩ <;> rfl)
  (pure_bind := by intro α β x f; rfl)
  (bind_assoc := by
    intro α β γ x f g; funext buf
    show Rd.bind' (Rd.bind' x f) g buf = Rd.bind' x (fun a => Rd.bind' (f a) g) buf
    unfold Rd.bind'
    rcases x buf with e | ⟨a, r⟩ <;> rfl)

theorem rd_bind_ok {r : Rd α} {f : α → Rd β} {buf rest : Bytes} {a : α} (h : r buf = .ok (a, rest)) :
    (r >>= f) buf = f a rest := by
  show (match r buf with | .ok (a, rest) => f a rest | .error e => .error e) = _
  rw [h]

theorem rd_bind_err {r : Rd α} {f : α → Rd β} {buf : Bytes} {e : Fault} (h : r buf = .error e) :
    (r >>= f) buf = .error e := by
  show (match r buf with | .ok (a, rest) => f a rest | .error e => .error e) = _
  rw [h]

theorem rd_bind_inv {r : Rd α} {f : α → Rd β} {buf rest : Bytes} {b : β} (h : (r >>= f) buf = .ok (b, rest)) :
    ∃ a mid, r buf = .ok (a, mid) ∧ f a mid = .ok (b, rest) := by
  change (match r buf with | .ok (a, rest) => f a rest | .error e => .error e) = _ at h
  rcases hr : r buf with e | ⟨a, mid⟩
  · rw [hr] at h; cases h
  · rw [hr] at h; exact ⟨a, mid, rfl, h⟩

@[simp] theorem rd_pure (a : α) (buf : Bytes) : (pure a : Rd α) buf = .ok (a, buf) := rfl

theorem wSeq_ok {a b : G Bytes} {c : Bytes} : (a +> b) = .ok c ↔ ∃ x y, a = .ok x ∧ b = .ok y ∧ c = x ++ y := by
  unfold wSeq
  rcases a with e | x
  · simp
  · rcases b with e | y
    · simp
    · constructor
      · intro h; exact ⟨x, y, rfl, rfl, (Except.ok.inj h).symm⟩
      · rintro ⟨x', y', hx, hy, rfl⟩
        cases hx; cases hy; rfl

theorem wSeq_assoc (a b c : G Bytes) : ((a +> b) +> c) = (a +> (b +> c)) := by
  unfold wSeq
  rcases a with e | x <;> rcases b with e' | y <;> rcases c with e'' | z <;> simp [List.append_assoc]

@[simp] theorem wSeq_nil (a : G Bytes) : (a +> .ok []) = a := by
  unfold wSeq; rcases a with e | x <;> simp

/-! ### combinators -/

theorem Codec.weaken {P Q : α → Prop} {w : α → G Bytes} {r : Rd α} (c : Codec P w r) (h : ∀ a, Q a → P a)
    (h' : ∀ a, P a → Q a) : Codec Q w r :=
  ⟨fun a b rest hq => c.rt a b rest (h a hq), fun bs a rest hr =>
    let ⟨hp, hb⟩ := c.canon bs a rest hr; ⟨h' a hp, hb⟩⟩

/-- a value followed by one whose format may depend on it -/
theorem Codec.pair {P : α → Prop} {w : α → G Bytes} {r : Rd α} {Q : β → Prop} {w' : β → G Bytes}
    {r' : Rd β} (c : Codec P w r) (c' : Codec Q w' r') :
    Codec (fun p : α × β => P p.1 ∧ Q p.2) (fun p => w p.1 +> w' p.2)
      (do let a ← r; let b ← r'; pure (a, b)) := by
  constructor
  · rintro ⟨a, b⟩ bs rest ⟨hp, hq⟩ hw
    obtain ⟨x, y, hx, hy, rfl⟩ := wSeq_ok.1 hw
    rw [List.append_assoc, rd_bind_ok (c.rt a x (y ++ rest) hp hx), rd_bind_ok (c'.rt b y rest hq hy)]
    rfl
  · rintro bs ⟨a, b⟩ rest h
    obtain ⟨a', m1, h1, h2⟩ := rd_bind_inv h
    obtain ⟨b', m2, h3, h4⟩ := rd_bind_inv h2
    cases h4
    obtain ⟨hp, x, hx, rfl⟩ := c.canon _ _ _ h1
    obtain ⟨hq, y, hy, rfl⟩ := c'.canon _ _ _ h3
    exact ⟨⟨hp, hq⟩, x ++ y, wSeq_ok.2 ⟨x, y, hx, hy, rfl⟩, by rw [List.append_assoc]⟩

/-- the same format for another type -/
theorem Codec.iso {P : α → Prop} {w : α → G Bytes} {r : Rd α} (c : Codec P w r) (f : α → β) (g : β → α)
    (hfg : ∀ b, f (g b) = b) (hgf : ∀ a, g (f a) = a) {Q : β → Prop} {w' : β → G Bytes} {r' : Rd β}
    (hq : ∀ b, Q b ↔ P (g b)) (hw : ∀ b, w' b = w (g b)) (hr : r' = (do let a ← r; pure (f a))) :
    Codec Q w' r' := by
  constructor
  · intro b bs rest hb hbs
    rw [hw] at hbs
    rw [hr, rd_bind_ok (c.rt _ _ rest ((hq b).1 hb) hbs)]
    rw [hfg]; rfl
  · intro bs b rest h
    rw [hr] at h
    obtain ⟨a, m, h1, h2⟩ := rd_bind_inv h
    cases h2
    obtain ⟨hp, x, hx, rfl⟩ := c.canon _ _ _ h1
    exact ⟨(hq _).2 (by rw [hgf]; exact hp), x, by rw [hw, hgf]; exact hx, rfl⟩

/-! ### primitives -/

theorem putBE_length (k n : Nat) : (putBE k n).length = k := by
  induction k with
  | zero => rfl
  | succ k ih => simp [putBE, ih]

theorem foldl_be (b : Bytes) (acc : Nat) :
    b.foldl (fun acc (x : UInt8) => acc * 256 + x.toNat) acc = acc * 256 ^ b.length + getBE b := by
  induction b generalizing acc with
  | nil => simp [getBE]
  | cons x b ih =>
    simp only [List.foldl_cons, List.length_cons, getBE]
    rw [ih, ih (0 * 256 + x.toNat)]
    simp only [Nat.zero_mul, Nat.zero_add]
    ring

theorem getBE_cons (x : UInt8) (b : Bytes) : getBE (x :: b) = x.toNat * 256 ^ b.length + getBE b := by
  unfold getBE
  rw [List.foldl_cons, foldl_be]
  simp [getBE]

theorem getBE_putBE (k n : Nat) : getBE (putBE k n) = n % 256 ^ k := by
  induction k with
  | zero => simp [putBE, getBE, Nat.mod_one]
  | succ k ih =>
    simp only [putBE]
    rw [getBE_cons, ih, putBE_length, UInt8.toNat_ofNat']
    have : n / 256 ^ k % 256 % 2 ^ 8 = n / 256 ^ k % 256 := Nat.mod_eq_of_lt (by omega)
    rw [this, pow_succ, Nat.mod_mul, Nat.mul_comm, Nat.add_comm]

theorem getBE_lt (b : Bytes) : getBE b < 256 ^ b.length := by
  induction b with
  | nil => simp [getBE]
  | cons x b ih =>
    rw [getBE_cons, List.length_cons, pow_succ]
    have hx := x.toNat_lt
    have : x.toNat * 256 ^ b.length + 256 ^ b.length ≤ 256 * 256 ^ b.length := by
      rw [← Nat.succ_mul]; exact Nat.mul_le_mul_right _ (by omega)
    omega

theorem putBE_getBE (b : Bytes) : putBE b.length (getBE b) = b := by
  induction b with
  | nil => rfl
  | cons x b ih =>
    simp only [List.length_cons, putBE]
    have hlt := getBE_lt b
    have hpos : 0 < 256 ^ b.length := Nat.pow_pos (by omega)
    have h1 : getBE (x :: b) / 256 ^ b.length % 256 = x.toNat := by
      rw [getBE_cons, Nat.add_comm, Nat.add_mul_div_right _ _ hpos, Nat.div_eq_of_lt hlt, Nat.zero_add]
      exact Nat.mod_eq_of_lt x.toNat_lt
    rw [h1]
    have h2 : ∀ k n m, n % 256 ^ k = m % 256 ^ k → putBE k n = putBE k m := by
      intro k
      induction k with
      | zero => intros; rfl
      | succ k ih =>
        intro n m h
        simp only [putBE]
        have hk : n % 256 ^ k = m % 256 ^ k := by
          have := congrArg (· % 256 ^ k) h
          simpa [Nat.mod_mod_of_dvd, pow_succ] using this
        rw [ih _ _ hk]
        have : n / 256 ^ k % 256 = m / 256 ^ k % 256 := by
          have := congrArg (· / 256 ^ k) h
          simpa only [pow_succ, Nat.mod_mul_right_div_self] using this
        rw [this]
    rw [h2 _ (getBE (x :: b)) (getBE b) (by rw [getBE_cons, Nat.add_comm, Nat.add_mul_mod_self_right]), ih]
    simp

theorem codec_num (k : Nat) : Codec (Fits k) (wNum k) (rNum k) := by
  constructor
  · intro n b rest hn hb
    cases hb
    unfold rNum
    have hl : (putBE k n ++ rest).length = k + rest.length := by rw [List.length_append, putBE_length]
    rw [if_neg (by omega)]
    have h1 : (putBE k n ++ rest).take k = putBE k n := by
      rw [List.take_append_of_le_length (by rw [putBE_length]), List.take_of_length_le (by rw [putBE_length])]
    have h2 : (putBE k n ++ rest).drop k = rest := by
      rw [List.drop_append, List.drop_of_length_le (by rw [putBE_length]), putBE_length]; simp
    rw [h1, h2, getBE_putBE, Nat.mod_eq_of_lt hn]
  · intro bs n rest h
    unfold rNum at h
    split at h
    · cases h
    · rename_i hlen
      have h' := Except.ok.inj h
      have hn : getBE (bs.take k) = n := congrArg Prod.fst h'
      have hr : bs.drop k = rest := congrArg Prod.snd h'
      have hl : (bs.take k).length = k := by rw [List.length_take]; omega
      refine ⟨?_, putBE k n, rfl, ?_⟩
      · have := getBE_lt (bs.take k)
        rw [hl, hn] at this
        exact this
      · rw [← hn, ← hr]
        have := putBE_getBE (bs.take k)
        rw [hl] at this
        rw [this, List.take_append_drop]

theorem codec_full (n : Nat) : Codec (fun b : Bytes => b.length = n) wRaw (rFull n) := by
  constructor
  · intro a b rest ha hb
    cases hb
    show readFull n (a ++ rest) = _
    unfold readFull
    rw [if_neg (by rw [List.length_append]; omega)]
    subst ha
    simp
  · intro bs a rest h
    change readFull n bs = _ at h
    unfold readFull at h
    split at h
    · cases h
    · rename_i hlen
      have h' := Except.ok.inj h
      have hn : bs.take n = a := congrArg Prod.fst h'
      have hr : bs.drop n = rest := congrArg Prod.snd h'
      refine ⟨?_, a, rfl, ?_⟩
      · show a.length = n
        rw [← hn, List.length_take]; omega
      · rw [← hn, ← hr, List.take_append_drop]

theorem fits_of_le {k n : Nat} (h : ¬ n > 256 ^ k - 1) : Fits k n := by
  have : 0 < 256 ^ k := Nat.pow_pos (by omega)
  unfold Fits
  omega

theorem codec_bytes (k : Nat) (name : String) : Codec (fun _ : Bytes => True) (wBytes k name) (rBytes k) := by
  constructor
  · intro a b rest _ hb
    unfold wBytes at hb
    split at hb
    · cases hb
    · rename_i hlen
      obtain ⟨x, y, hx, hy, rfl⟩ := wSeq_ok.1 hb
      unfold rBytes
      rw [List.append_assoc, rd_bind_ok ((codec_num k).rt _ _ _ (fits_of_le hlen) hx)]
      exact (codec_full a.length).rt _ _ _ rfl hy
  · intro bs a rest h
    obtain ⟨n, m, h1, h2⟩ := rd_bind_inv h
    obtain ⟨hn, x, hx, rfl⟩ := (codec_num k).canon _ _ _ h1
    obtain ⟨ha, y, hy, rfl⟩ := (codec_full n).canon _ _ _ h2
    refine ⟨trivial, x ++ y, ?_, by rw [List.append_assoc]⟩
    unfold wBytes
    subst ha
    rw [if_neg (by unfold Fits at hn; omega)]
    exact wSeq_ok.2 ⟨x, y, hx, hy, rfl⟩

theorem codec_loop {P : α → Prop} {w : α → G Bytes} {r : Rd α} (c : Codec P w r) (n : Nat) :
    Codec (fun l : List α => l.length = n ∧ Each P l) (wLoop w) (rLoop r n) := by
  induction n with
  | zero =>
    constructor
    · intro l b rest hl hb
      rw [List.length_eq_zero_iff.1 hl.1] at hb ⊢
      cases hb
      rfl
    · intro bs l rest h
      cases h
      exact ⟨⟨rfl, by intro a ha; cases ha⟩, [], rfl, rfl⟩
  | succ n ih =>
    constructor
    · intro l b rest hl hb
      cases l with
      | nil => simp at hl
      | cons a l =>
        obtain ⟨x, y, hx, hy, rfl⟩ := wSeq_ok.1 hb
        unfold rLoop
        rw [List.append_assoc, rd_bind_ok (c.rt a x _ (hl.2 a (by simp)) hx),
          rd_bind_ok (ih.rt l y rest ⟨by simpa using hl.1, fun a' h' => hl.2 a' (by simp [h'])⟩ hy)]
        rfl
    · intro bs l rest h
      obtain ⟨a, m, h1, h2⟩ := rd_bind_inv h
      obtain ⟨as, m', h3, h4⟩ := rd_bind_inv h2
      cases h4
      obtain ⟨hp, x, hx, rfl⟩ := c.canon _ _ _ h1
      obtain ⟨hq, y, hy, rfl⟩ := ih.canon _ _ _ h3
      refine ⟨⟨by simp [hq.1], ?_⟩, x ++ y, wSeq_ok.2 ⟨x, y, hx, hy, rfl⟩, by rw [List.append_assoc]⟩
      intro b hb
      rcases List.mem_cons.1 hb with rfl | hb
      · exact hp
      · exact hq.2 b hb

theorem codec_slice {P : α → Prop} {w : α → G Bytes} {r : Rd α} (c : Codec P w r) (k : Nat) (name : String) :
    Codec (Each P) (wSlice k name w) (rSlice k r) := by
  constructor
  · intro l b rest hl hb
    unfold wSlice at hb
    split at hb
    · cases hb
    · rename_i hlen
      obtain ⟨x, y, hx, hy, rfl⟩ := wSeq_ok.1 hb
      unfold rSlice
      rw [List.append_assoc, rd_bind_ok ((codec_num k).rt _ _ _ (fits_of_le hlen) hx)]
      exact (codec_loop c l.length).rt _ _ _ ⟨rfl, hl⟩ hy
  · intro bs l rest h
    obtain ⟨n, m, h1, h2⟩ := rd_bind_inv h
    obtain ⟨hn, x, hx, rfl⟩ := (codec_num k).canon _ _ _ h1
    obtain ⟨⟨ha, hp⟩, y, hy, rfl⟩ := (codec_loop c n).canon _ _ _ h2
    refine ⟨hp, x ++ y, ?_, by rw [List.append_assoc]⟩
    unfold wSlice
    subst ha
    rw [if_neg (by unfold Fits at hn; omega)]
    exact wSeq_ok.2 ⟨x, y, hx, hy, rfl⟩

theorem codec_optional : Codec (fun _ : Bool => True) wOptional rOptional := by
  constructor
  · intro a b rest _ hb
    cases hb
    cases a <;> rfl
  · intro bs a rest h
    cases bs with
    | nil => cases h
    | cons x bs =>
      unfold rOptional at h
      simp only at h
      split at h
      · cases h
      · rename_i hx
        cases h
        refine ⟨trivial, [x], ?_, rfl⟩
        by_cases h1 : x = 1
        · subst h1; rfl
        · have : x = 0 := by
            by_contra h0; exact hx ⟨h0, h1⟩
          subst this; rfl

theorem codec_opt {P : α → Prop} {w : α → G Bytes} {r : Rd α} (c : Codec P w r) :
    Codec (Maybe P) (wOpt w) (rOpt r) := by
  constructor
  · intro o b rest ho hb
    unfold rOpt
    cases o with
    | none =>
      rw [rd_bind_ok (codec_optional.rt false b rest trivial hb)]
      rfl
    | some a =>
      have hb' : (wOptional true +> w a) = .ok b := hb
      obtain ⟨x, y, hx, hy, rfl⟩ := wSeq_ok.1 hb'
      rw [List.append_assoc, rd_bind_ok (codec_optional.rt true x _ trivial hx)]
      rw [if_pos rfl, rd_bind_ok (c.rt a y rest (ho a rfl) hy)]
      rfl
  · intro bs o rest h
    obtain ⟨p, m, h1, h2⟩ := rd_bind_inv h
    obtain ⟨-, x, hx, rfl⟩ := codec_optional.canon _ _ _ h1
    cases p with
    | false =>
      cases h2
      exact ⟨(fun a ha => by cases ha), x, hx, rfl⟩
    | true =>
      rw [if_pos rfl] at h2
      obtain ⟨a, m', h3, h4⟩ := rd_bind_inv h2
      cases h4
      obtain ⟨hp, y, hy, rfl⟩ := c.canon _ _ _ h3
      refine ⟨fun a' ha => by cases ha; exact hp, x ++ y, wSeq_ok.2 ⟨x, y, hx, hy, rfl⟩, by rw [List.append_assoc]⟩

end Katie.Wire
