import Verif.Model.Alloc
import Verif.Lemmas.Codec
import Mathlib.Tactic.Ring

/-
Helper lemmas for C90: what a counted decoder reserves, piece by piece.
-/

namespace Katie.Wire
open Katie

variable {α β : Type}

/-- `m` is `r` with a count; if it succeeds it has reserved at most `c` bytes for each byte consumed, and if it
fails at most `E` more. -/
structure Tracks (m : Mr α) (r : Rd α) (c E : Nat) : Prop where
  erase : ∀ bs, (m bs).1 = r bs
  ok : ∀ bs a rest, r bs = .ok (a, rest) → rest.length ≤ bs.length ∧ (m bs).2 + c * rest.length ≤ c * bs.length
  err : ∀ bs e, r bs = .error e → (m bs).2 ≤ c * bs.length + E

/-- whatever is read takes at least one byte -/
def Eats (r : Rd α) : Prop := ∀ bs a rest, r bs = .ok (a, rest) → rest.length + 1 ≤ bs.length

namespace Tracks

theorem of {r : Rd α} {c E : Nat} (h : ∀ bs a rest, r bs = .ok (a, rest) → rest.length ≤ bs.length) :
    Tracks (Mr.of r) r c E where
  erase _ := rfl
  ok bs a rest e := ⟨h bs a rest e, by
    show 0 + _ ≤ _
    rw [Nat.zero_add]
    exact Nat.mul_le_mul_left _ (h bs a rest e)⟩
  err _ _ _ := Nat.zero_le _

theorem pure {a : α} {c E : Nat} : Tracks (Pure.pure a) (Pure.pure a : Rd α) c E where
  erase _ := rfl
  ok bs a' rest e := by
    cases e
    exact ⟨Nat.le_refl _, by show 0 + _ ≤ _; omega⟩
  err _ _ e := by cases e

theorem bind {m : Mr α} {r : Rd α} {f : α → Mr β} {g : α → Rd β} {c E : Nat} (h : Tracks m r c E)
    (hf : ∀ a, Tracks (f a) (g a) c E) : Tracks (m >>= f) (r >>= g) c E := by
  have key : ∀ bs, (∃ a rest, r bs = .ok (a, rest) ∧ (r >>= g) bs = g a rest ∧
      (m >>= f) bs = ((f a rest).1, (m bs).2 + (f a rest).2)) ∨
      (∃ e, r bs = .error e ∧ (r >>= g) bs = .error e ∧ (m >>= f) bs = (.error e, (m bs).2)) := by
    intro bs
    have he := h.erase bs
    cases hm : m bs with
    | mk x n =>
      rw [hm] at he
      cases hr : r bs with
      | ok p =>
        obtain ⟨a, rest⟩ := p
        rw [hr] at he
        simp only at he
        subst he
        refine .inl ⟨a, rest, rfl, rd_bind_ok hr, ?_⟩
        show (match m bs with
          | (.ok (a, rest), n) => ((f a rest).1, n + (f a rest).2)
          | (.error e, n) => (.error e, n)) = _
        rw [hm]
      | error e =>
        rw [hr] at he
        simp only at he
        subst he
        refine .inr ⟨e, rfl, rd_bind_err hr, ?_⟩
        show (match m bs with
          | (.ok (a, rest), n) => ((f a rest).1, n + (f a rest).2)
          | (.error e, n) => (.error e, n)) = _
        rw [hm]
  refine ⟨fun bs => ?_, fun bs b rest e => ?_, fun bs e' e => ?_⟩
  · rcases key bs with ⟨a, rest, _, h2, h3⟩ | ⟨e, _, h2, h3⟩
    · rw [h2, h3]; exact (hf a).erase rest
    · rw [h2, h3]
  · rcases key bs with ⟨a, rest', h1, h2, h3⟩ | ⟨e', _, h2, h3⟩
    · rw [h2] at e
      obtain ⟨h4, h5⟩ := h.ok _ _ _ h1
      obtain ⟨h6, h7⟩ := (hf a).ok _ _ _ e
      rw [h3]
      exact ⟨by omega, by show _ + _ + _ ≤ _; omega⟩
    · rw [h2] at e; cases e
  · rcases key bs with ⟨a, rest', h1, h2, h3⟩ | ⟨e'', h1, h2, h3⟩
    · rw [h2] at e
      obtain ⟨h4, h5⟩ := h.ok _ _ _ h1
      have h6 := (hf a).err _ _ e
      rw [h3]
      show _ + _ ≤ _
      omega
    · rw [h3]
      exact h.err _ _ h1

theorem mono {m : Mr α} {r : Rd α} {c E c' E' : Nat} (h : Tracks m r c E) (hc : c ≤ c') (hE : E ≤ E') :
    Tracks m r c' E' := by
  obtain ⟨d, rfl⟩ := Nat.exists_eq_add_of_le hc
  refine ⟨h.erase, fun bs a rest e => ?_, fun bs e' e => ?_⟩
  · obtain ⟨h1, h2⟩ := h.ok bs a rest e
    have := Nat.mul_le_mul_left d h1
    exact ⟨h1, by rw [Nat.add_mul, Nat.add_mul]; omega⟩
  · have := h.err bs e' e
    rw [Nat.add_mul]
    omega

theorem ite {p : Prop} [Decidable p] {m m' : Mr α} {r r' : Rd α} {c E : Nat} (h : Tracks m r c E)
    (h' : Tracks m' r' c E) : Tracks (if p then m else m') (if p then r else r') c E := by
  by_cases hp : p
  · rw [if_pos hp, if_pos hp]; exact h
  · rw [if_neg hp, if_neg hp]; exact h'

theorem num {k c E : Nat} : Tracks (Mr.of (rNum k)) (rNum k) c E := of (fun bs a rest e => by
  unfold rNum at e
  by_cases h : bs.length < k
  · rw [if_pos h] at e; cases e
  · rw [if_neg h] at e; cases e; rw [List.length_drop]; omega)

theorem error {msg : String} {c E : Nat} : Tracks (Mr.of (Rd.err msg)) (Rd.err msg : Rd α) c E :=
  of (fun _ _ _ e => by cases e)

theorem optional {c E : Nat} : Tracks (Mr.of rOptional) rOptional c E := of (fun bs a rest e => by
  obtain ⟨_, b, _, rfl⟩ := codec_optional.canon _ _ _ e
  rw [List.length_append]; omega)

theorem full {n c E : Nat} (hc : 1 ≤ c) (hE : n ≤ E) : Tracks (mFull n) (rFull n) c E where
  erase _ := rfl
  ok bs a rest e := by
    obtain ⟨hl, b, hb, rfl⟩ := (codec_full n).canon _ _ _ e
    cases hb
    refine ⟨by rw [List.length_append]; omega, ?_⟩
    show n + 0 + _ ≤ _
    rw [List.length_append, hl, Nat.mul_add]
    have := Nat.mul_le_mul_right n hc
    omega
  err bs e _ := by
    show n + 0 ≤ _
    omega

theorem num_lt {k : Nat} {bs rest : Bytes} {n : Nat} (h : rNum k bs = .ok (n, rest)) : n ≤ 256 ^ k - 1 := by
  have := ((codec_num k).canon _ _ _ h).1
  unfold Fits at this
  omega

/-- a reader whose continuation is only tracked for the values the first one can return -/
theorem bind' {m : Mr α} {r : Rd α} {f : α → Mr β} {g : α → Rd β} {c E : Nat} (h : Tracks m r c E) (P : α → Prop)
    (hP : ∀ bs a rest, r bs = .ok (a, rest) → P a) (he : ∀ a bs, (f a bs).1 = g a bs)
    (hf : ∀ a, P a → Tracks (f a) (g a) c E) : Tracks (m >>= f) (r >>= g) c E := by
  classical
  have h1 := bind (f := fun a => if P a then f a else Mr.of (Rd.err ""))
    (g := fun a => if P a then g a else Rd.err "") h (fun a => by
      by_cases hp : P a
      · simp only [if_pos hp]; exact hf a hp
      · simp only [if_neg hp]; exact error)
  have e1 : ∀ bs, (r >>= fun a => if P a then g a else Rd.err "") bs = (r >>= g) bs := by
    intro bs
    cases hr : r bs with
    | ok p =>
      obtain ⟨a, rest⟩ := p
      rw [rd_bind_ok hr, rd_bind_ok hr, if_pos (hP _ _ _ hr)]
    | error e => rw [rd_bind_err hr, rd_bind_err hr]
  have e2 : ∀ bs, (m >>= fun a => if P a then f a else Mr.of (Rd.err "")) bs = (m >>= f) bs := by
    intro bs
    have hb := h.erase bs
    show (match m bs with
          | (.ok (a, rest), n) => (((if P a then f a else Mr.of (Rd.err "")) rest).1, n + ((if P a then f a else Mr.of (Rd.err "")) rest).2)
          | (.error e, n) => (.error e, n)) = (match m bs with
          | (.ok (a, rest), n) => ((f a rest).1, n + (f a rest).2)
          | (.error e, n) => (.error e, n))
    cases hm : m bs with
    | mk x n =>
      rw [hm] at hb
      cases x with
      | error e => rfl
      | ok p =>
        obtain ⟨a, rest⟩ := p
        simp only [if_pos (hP _ _ _ hb.symm)]
  refine ⟨fun bs => ?_, fun bs => ?_, fun bs => ?_⟩
  · rw [← e1, ← e2]; exact h1.erase bs
  · rw [← e1, ← e2]; exact h1.ok bs
  · rw [← e1, ← e2]; exact h1.err bs

theorem bytes {k c E : Nat} (hc : 1 ≤ c) (hE : 256 ^ k - 1 ≤ E) : Tracks (mBytes k) (rBytes k) c E :=
  bind' num (fun n => n ≤ 256 ^ k - 1) (fun _ _ _ e => num_lt e) (fun _ _ => rfl)
    (fun _ h => full hc (by omega))

theorem opt {m : Mr α} {r : Rd α} {c E : Nat} (h : Tracks m r c E) : Tracks (mOpt m) (rOpt r) c E :=
  optional.bind (fun _ => ite (h.bind (fun _ => pure)) pure)

theorem loop {m : Mr α} {r : Rd α} {c E : Nat} (h : Tracks m r c E) : ∀ n, Tracks (mLoop m n) (rLoop r n) c E
  | 0 => pure
  | n + 1 => h.bind (fun _ => (loop h n).bind (fun _ => pure))

theorem loop_eats {r : Rd α} (h : Eats r) : ∀ (n : Nat) bs as rest, rLoop r n bs = .ok (as, rest) →
    rest.length + n ≤ bs.length
  | 0, bs, as, rest, e => by cases e; omega
  | n + 1, bs, as, rest, e => by
    obtain ⟨a, m, h1, h2⟩ := rd_bind_inv e
    obtain ⟨l, m', h3, h4⟩ := rd_bind_inv h2
    cases h4
    have := h _ _ _ h1
    have := loop_eats h n _ _ _ h3
    omega

theorem slice {m : Mr α} {r : Rd α} {k w c E c' E' : Nat} (h : Tracks m r c E) (he : Eats r) (hc : c + w ≤ c')
    (hE : E + w * (256 ^ k - 1) ≤ E') : Tracks (mSlice k w m) (rSlice k r) c' E' := by
  refine bind' num (fun n => n ≤ 256 ^ k - 1) (fun _ _ _ e => num_lt e) (fun n bs => ?_) (fun n hn => ?_)
  · exact (loop h n).erase bs
  · refine mono (c := c + w) (E := E + w * n) ⟨fun bs => (loop h n).erase bs, fun bs as rest e => ?_, fun bs e' e => ?_⟩ hc ?_
    · obtain ⟨h1, h2⟩ := (loop h n).ok _ _ _ e
      have h3 := loop_eats he n _ _ _ e
      refine ⟨h1, ?_⟩
      show w * n + (mLoop m n bs).2 + _ ≤ _
      have h4 : w * (rest.length + n) ≤ w * bs.length := Nat.mul_le_mul_left _ h3
      rw [Nat.mul_add] at h4
      rw [Nat.add_mul, Nat.add_mul]
      omega
    · have h2 := (loop h n).err _ _ e
      show w * n + (mLoop m n bs).2 ≤ _
      rw [Nat.add_mul]
      omega
    · have := Nat.mul_le_mul_left w hn
      omega

end Tracks

/-- a format whose encodings are not empty takes at least one byte -/
theorem Codec.eats {P : α → Prop} {w : α → G Bytes} {r : Rd α} (c : Codec P w r)
    (h : ∀ a b, P a → w a = .ok b → 1 ≤ b.length) : Eats r := by
  intro bs a rest e
  obtain ⟨hp, b, hb, rfl⟩ := c.canon _ _ _ e
  have := h a b hp hb
  rw [List.length_append]
  omega

theorem eats_num {k : Nat} (hk : 0 < k) : Eats (rNum k) :=
  (codec_num k).eats (fun a b _ e => by cases e; rw [putBE_length]; exact hk)

theorem eats_full {n : Nat} (hn : 0 < n) : Eats (rFull n) :=
  (codec_full n).eats (fun a b h e => by cases e; rw [h]; exact hn)

theorem eats_bind {r : Rd α} {g : α → Rd β} (h : Eats r)
    (hg : ∀ a bs b rest, g a bs = .ok (b, rest) → rest.length ≤ bs.length) : Eats (r >>= g) := by
  intro bs b rest e
  obtain ⟨a, m, h1, h2⟩ := rd_bind_inv e
  have := h _ _ _ h1
  have := hg _ _ _ _ h2
  omega

/-- a counted reader that starts with something that takes a byte -/
theorem Tracks.eats {r : Rd α} {g : α → Rd β} {f : α → Mr β} {c E : Nat} (h : Eats r)
    (hg : ∀ a, Tracks (f a) (g a) c E) : Eats (r >>= g) :=
  eats_bind h (fun a bs b rest e => ((hg a).ok bs b rest e).1)

end Katie.Wire
