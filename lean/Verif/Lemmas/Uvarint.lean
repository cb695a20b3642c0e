import Verif.Model.Uvarint
import Mathlib.Tactic.ByContra

/- Round trip of the variable-length integers. -/

namespace Katie

theorem readUvarintAux_enc (f : Nat) : ∀ (x : Nat) (rest : Bytes), 0 < f → x < 2 * 128 ^ (f - 1) →
    readUvarintAux f (uvarintAux f x ++ rest) = .ok (x, rest) := by
  induction f with
  | zero => intro x rest h; omega
  | succ f ih =>
    intro x rest _ hx
    simp only [Nat.add_sub_cancel] at hx
    unfold uvarintAux
    by_cases h : x < 128
    · rw [if_pos h]
      have e : (UInt8.ofNat x).toNat = x := by simp; omega
      simp only [List.singleton_append, readUvarintAux, e, h, if_true]
      rw [if_neg]
      · rfl
      · rintro ⟨h0, h1⟩
        subst h0
        simp at hx; omega
    · rw [if_neg h]
      have hf : 0 < f := by
        by_contra hc
        have : f = 0 := by omega
        subst this; simp at hx; omega
      have e : (UInt8.ofNat (x % 128 + 128)).toNat = x % 128 + 128 := by simp; omega
      simp only [List.cons_append, readUvarintAux, e]
      rw [if_neg (by omega)]
      have hpow : 128 ^ f = 128 * 128 ^ (f - 1) := by
        rw [show 128 ^ f = 128 ^ (f - 1 + 1) by congr 1; omega, Nat.pow_succ]; omega
      rw [ih (x / 128) rest hf (by omega)]
      simp only [G.ok_bind, G.pure_eq]
      congr 2
      omega

/-- `ReadUvarint` reads back what `PutUvarint` wrote, for every `uint64`. -/
theorem readUvarint_enc (x : Nat) (hx : x < 2 ^ 64) (rest : Bytes) :
    readUvarint (encodeUvarint x ++ rest) = .ok (x, rest) :=
  readUvarintAux_enc 10 x rest (by omega) (by simpa using hx)

theorem readFull_append (n : Nat) (a rest : Bytes) (h : a.length = n) :
    readFull n (a ++ rest) = .ok (a, rest) := by
  unfold readFull
  rw [if_neg (by simp; omega)]
  subst h; simp

end Katie
