import Verif.Model.Prefix
import Verif.Spec.Prefix
import Mathlib.Data.List.Infix
import Mathlib.Data.Nat.Bitwise
import Mathlib.Data.List.Nodup
import Mathlib.Data.List.Perm.Subperm

/-
Bits of VRF outputs, the sort order, and the binary search that splits a sorted list by a bit.
-/

namespace Katie.Prefix
open Katie Katie.PrefixSpec

theorem byteBits_length (b : UInt8) : (byteBits b).length = 8 := rfl

theorem bits_length (v : Bytes) : (bits v).length = 8 * v.length := by
  induction v with
  | nil => rfl
  | cons b v ih =>
    have h : bits (b :: v) = byteBits b ++ bits v := rfl
    rw [h, List.length_append, byteBits_length, ih, List.length_cons]; omega

theorem bits_cons (b : UInt8) (v : Bytes) : bits (b :: v) = byteBits b ++ bits v := rfl

theorem byteBits_getElem? (b : UInt8) (j : Nat) (hj : j < 8) :
    (byteBits b)[j]? = some (b.toNat.testBit (7 - j)) := by
  have : j = 0 ∨ j = 1 ∨ j = 2 ∨ j = 3 ∨ j = 4 ∨ j = 5 ∨ j = 6 ∨ j = 7 := by omega
  rcases this with h | h | h | h | h | h | h | h <;> subst h <;> rfl

theorem bits_getElem? (v : Bytes) (d : Nat) :
    (bits v)[d]? = (v[d / 8]?).map (fun b => b.toNat.testBit (7 - d % 8)) := by
  induction v generalizing d with
  | nil => simp [bits]
  | cons b v ih =>
    rw [bits_cons]
    by_cases h : d < 8
    · rw [List.getElem?_append_left (by rw [byteBits_length]; exact h), byteBits_getElem? b d h]
      have h0 : d / 8 = 0 := by omega
      have h1 : d % 8 = d := by omega
      simp [h0, h1]
    · rw [List.getElem?_append_right (by rw [byteBits_length]; omega), byteBits_length, ih]
      have h0 : d / 8 = (d - 8) / 8 + 1 := by omega
      have h1 : (d - 8) % 8 = d % 8 := by omega
      rw [h0, h1, List.getElem?_cons_succ]

theorem shift_bit (b : UInt8) (k : Nat) (hk : k < 8) :
    (((b >>> UInt8.ofNat k) &&& 1) == 1) = b.toNat.testBit k := by
  have h1 : (UInt8.ofNat k).toNat = k := by simp; omega
  have h2 : ((b >>> UInt8.ofNat k) &&& 1).toNat = (b.toNat >>> k) &&& 1 := by
    rw [UInt8.toNat_and, UInt8.toNat_shiftRight, h1]
    have : k % 8 = k := by omega
    rw [this]; rfl
  rw [Nat.testBit]
  have h3 : (b.toNat >>> k) &&& 1 = (b.toNat >>> k) % 2 := Nat.and_one_is_mod _
  rw [Nat.and_comm] at h3
  rw [h3]
  rw [Nat.and_comm, h3] at h2
  rw [Bool.eq_iff_iff]
  simp only [beq_iff_eq, bne_iff_ne, ne_eq]
  rw [← UInt8.toNat_inj, h2]
  have := Nat.mod_lt (b.toNat >>> k) (by omega : 0 < 2)
  show _ = 1 ↔ _
  omega

theorem getBit_eq (v : Bytes) (d : Nat) (hd : d < 8 * v.length) : getBit v d = .ok (bitAt v d) := by
  unfold getBit bitAt
  have h : d / 8 < v.length := by omega
  rw [List.getD_eq_getElem?_getD, bits_getElem?, List.getElem?_eq_getElem h]
  simp only [Option.map_some, Option.getD_some, G.pure_eq]
  rw [shift_bit _ _ (by omega)]

theorem getBit_panic (v : Bytes) (d : Nat) (hd : 8 * v.length ≤ d) :
    getBit v d = goPanic "index out of range" := by
  unfold getBit
  rw [List.getElem?_eq_none (by omega)]

theorem byteBits_inj {a b : UInt8} (h : byteBits a = byteBits b) : a = b := by
  have hi : ∀ j, j < 8 → a.toNat.testBit j = b.toNat.testBit j := by
    intro j hj
    have h1 := byteBits_getElem? a (7 - j) (by omega)
    have h2 := byteBits_getElem? b (7 - j) (by omega)
    rw [h, h2] at h1
    have : 7 - (7 - j) = j := by omega
    rw [this] at h1
    exact (Option.some.inj h1).symm
  apply UInt8.toNat_inj.mp
  apply Nat.eq_of_testBit_eq
  intro i
  by_cases hi8 : i < 8
  · exact hi i hi8
  · have ha := a.toNat_lt
    have hb := b.toNat_lt
    have hp : 2 ^ 8 ≤ 2 ^ i := Nat.pow_le_pow_right (by omega) (by omega)
    rw [Nat.testBit_lt_two_pow (by omega), Nat.testBit_lt_two_pow (by omega)]

theorem bits_inj {v w : Bytes} (h : bits v = bits w) : v = w := by
  induction v generalizing w with
  | nil =>
    have := congrArg List.length h
    rw [bits_length, bits_length] at this
    have h0 : w.length = 0 := by simp only [List.length_nil] at this; omega
    exact (List.eq_nil_of_length_eq_zero h0).symm
  | cons a v ih =>
    cases w with
    | nil => rw [bits_cons] at h; simp [bits, byteBits] at h
    | cons b w =>
      rw [bits_cons, bits_cons] at h
      obtain ⟨h1, h2⟩ := List.append_inj h (by rw [byteBits_length, byteBits_length])
      rw [byteBits_inj h1, ih h2]

/-- `v` continues the path `p`. -/
def On (p : List Bool) (v : Bytes) : Prop := p <+: bits v

instance (p : List Bool) (v : Bytes) : Decidable (On p v) := inferInstanceAs (Decidable (p <+: bits v))

theorem on_nil (v : Bytes) : On [] v := List.nil_prefix

theorem On.length_le {p : List Bool} {v : Bytes} (h : On p v) : p.length ≤ 8 * v.length := by
  have := List.IsPrefix.length_le h; rwa [bits_length] at this

theorem on_snoc {p : List Bool} {b : Bool} {v : Bytes} :
    On (p ++ [b]) v ↔ On p v ∧ p.length < 8 * v.length ∧ bitAt v p.length = b := by
  unfold On bitAt
  rw [List.prefix_iff_eq_take, List.prefix_iff_eq_take, ← bits_length]
  constructor
  · intro h
    have hl := congrArg List.length h
    simp only [List.length_append, List.length_singleton, List.length_take] at hl
    have hlt : p.length < (bits v).length := by omega
    rw [List.length_append, List.length_singleton, List.take_add_one, List.getElem?_eq_getElem hlt] at h
    obtain ⟨h1, h2⟩ := List.append_inj' h rfl
    refine ⟨h1, hlt, ?_⟩
    rw [List.getD_eq_getElem?_getD, List.getElem?_eq_getElem hlt]
    simpa using h2.symm
  · rintro ⟨h1, hlt, h2⟩
    rw [List.length_append, List.length_singleton, List.take_add_one, List.getElem?_eq_getElem hlt, ← h1]
    rw [List.getD_eq_getElem?_getD, List.getElem?_eq_getElem hlt] at h2
    simpa using h2.symm

theorem On.step {p : List Bool} {v : Bytes} (h : On p v) (hl : p.length < 8 * v.length) :
    On (p ++ [bitAt v p.length]) v := on_snoc.mpr ⟨h, hl, rfl⟩

theorem On.up {p : List Bool} {b : Bool} {v : Bytes} (h : On (p ++ [b]) v) : On p v := (on_snoc.mp h).1

theorem On.bit {p : List Bool} {b : Bool} {v : Bytes} (h : On (p ++ [b]) v) : bitAt v p.length = b :=
  (on_snoc.mp h).2.2

/-- Two equally long outputs on a full-length path are equal. -/
theorem On.full {p : List Bool} {v w : Bytes} (hv : On p v) (hw : On p w) (hl : v.length = w.length)
    (hp : 8 * v.length ≤ p.length) : v = w := by
  apply bits_inj
  have h1 := hv.eq_of_length_le (by rw [bits_length]; exact hp)
  have h2 := hw.eq_of_length_le (by rw [bits_length, ← hl]; exact hp)
  rw [← h1, ← h2]

theorem On.lt {p : List Bool} {v w : Bytes} (hv : On p v) (hw : On p w) (hl : v.length = w.length)
    (hne : v ≠ w) : p.length < 8 * v.length := by
  by_contra hc
  exact hne (hv.full hw hl (by omega))

/-! ### Order -/

theorem bytesLt_irrefl (a : Bytes) : bytesLt a a = false := by
  induction a with
  | nil => rfl
  | cons x a ih => simp [bytesLt, ih]

theorem bytesLt_trans {a b c : Bytes} (h1 : bytesLt a b = true) (h2 : bytesLt b c = true) :
    bytesLt a c = true := by
  induction a generalizing b c with
  | nil =>
    cases b with
    | nil => simp [bytesLt] at h1
    | cons y b => cases c with
      | nil => simp [bytesLt] at h2
      | cons z c => rfl
  | cons x a ih =>
    cases b with
    | nil => simp [bytesLt] at h1
    | cons y b =>
      cases c with
      | nil => simp [bytesLt] at h2
      | cons z c =>
        simp only [bytesLt] at h1 h2 ⊢
        by_cases hxy : x < y
        · by_cases hyz : y < z
          · rw [if_pos (UInt8.lt_trans hxy hyz)]
          · rw [if_neg hyz] at h2
            by_cases hzy : z < y
            · rw [if_pos hzy] at h2; cases h2
            · have : y = z := UInt8.le_antisymm (UInt8.not_lt.mp hzy) (UInt8.not_lt.mp hyz)
              subst this; rw [if_pos hxy]
        · rw [if_neg hxy] at h1
          by_cases hyx : y < x
          · rw [if_pos hyx] at h1; cases h1
          · rw [if_neg hyx] at h1
            have : x = y := UInt8.le_antisymm (UInt8.not_lt.mp hyx) (UInt8.not_lt.mp hxy)
            subst this
            by_cases hyz : x < z
            · rw [if_pos hyz]
            · rw [if_neg hyz] at h2 ⊢
              by_cases hzy : z < x
              · rw [if_pos hzy] at h2; cases h2
              · rw [if_neg hzy] at h2 ⊢
                exact ih h1 h2

theorem bytesLt_total {a b : Bytes} (h1 : bytesLt a b = false) (h2 : bytesLt b a = false) : a = b := by
  induction a generalizing b with
  | nil => cases b with
    | nil => rfl
    | cons y b => simp [bytesLt] at h1
  | cons x a ih =>
    cases b with
    | nil => simp [bytesLt] at h2
    | cons y b =>
      simp only [bytesLt] at h1 h2
      by_cases hxy : x < y
      · rw [if_pos hxy] at h1; cases h1
      · by_cases hyx : y < x
        · rw [if_pos hyx] at h2; cases h2
        · rw [if_neg hxy, if_neg hyx] at h1
          rw [if_neg hyx, if_neg hxy] at h2
          rw [UInt8.le_antisymm (UInt8.not_lt.mp hyx) (UInt8.not_lt.mp hxy), ih h1 h2]

/-- Bits decide the order: same bits before `d`, then 0 against 1. -/
theorem lt_of_bits {a b : Bytes} (d : Nat) (hl : a.length = b.length)
    (hpre : ∀ i < d, bitAt a i = bitAt b i) (ha : bitAt a d = false) (hb : bitAt b d = true) :
    bytesLt a b = true := by
  induction a generalizing b d with
  | nil =>
    have : b = [] := List.eq_nil_of_length_eq_zero hl.symm
    subst this; simp [bitAt, bits] at hb
  | cons x a ih =>
    cases b with
    | nil => simp at hl
    | cons y b =>
      have hbit : ∀ (z : UInt8) (v : Bytes) i, i < 8 → bitAt (z :: v) i = z.toNat.testBit (7 - i) := by
        intro z v i hi
        unfold bitAt
        rw [List.getD_eq_getElem?_getD, bits_getElem?]
        have h0 : i / 8 = 0 := by omega
        have h1 : i % 8 = i := by omega
        simp [h0, h1]
      have hbit8 : ∀ (z : UInt8) (v : Bytes) i, 8 ≤ i → bitAt (z :: v) i = bitAt v (i - 8) := by
        intro z v i hi
        unfold bitAt
        rw [List.getD_eq_getElem?_getD, List.getD_eq_getElem?_getD, bits_getElem?, bits_getElem?]
        have h0 : i / 8 = (i - 8) / 8 + 1 := by omega
        have h1 : (i - 8) % 8 = i % 8 := by omega
        rw [h0, h1, List.getElem?_cons_succ]
      unfold bytesLt
      by_cases hd : d < 8
      · have hlt : x.toNat < y.toNat := by
          apply Nat.lt_of_testBit (7 - d)
          · rw [← hbit x a d hd]; exact ha
          · rw [← hbit y b d hd]; exact hb
          · intro j hj
            by_cases hj8 : j < 8
            · have := hpre (7 - j) (by omega)
              rw [hbit _ _ _ (by omega), hbit _ _ _ (by omega)] at this
              have e : 7 - (7 - j) = j := by omega
              rwa [e] at this
            · have hx := x.toNat_lt
              have hy := y.toNat_lt
              have hp : 2 ^ 8 ≤ 2 ^ j := Nat.pow_le_pow_right (by omega) (by omega)
              rw [Nat.testBit_lt_two_pow (by omega), Nat.testBit_lt_two_pow (by omega)]
        have : x < y := hlt
        rw [if_pos this]
      · have hxy : x = y := by
          apply byteBits_inj
          apply List.ext_getElem?
          intro i
          by_cases hi : i < 8
          · rw [byteBits_getElem? _ _ hi, byteBits_getElem? _ _ hi]
            have := hpre i (by omega)
            rw [hbit _ _ _ hi, hbit _ _ _ hi] at this
            rw [this]
          · rw [List.getElem?_eq_none (by rw [byteBits_length]; omega),
              List.getElem?_eq_none (by rw [byteBits_length]; omega)]
        subst hxy
        have hirr : ¬ x < x := UInt8.lt_irrefl x
        rw [if_neg hirr, if_neg hirr]
        apply ih (d - 8) (by simpa using hl)
        · intro i hi
          have := hpre (i + 8) (by omega)
          rw [hbit8 _ _ _ (by omega), hbit8 _ _ _ (by omega)] at this
          simpa using this
        · rw [← hbit8 x a d (by omega)]; exact ha
        · rw [← hbit8 x b d (by omega)]; exact hb

/-- sorted by key, duplicates allowed -/
def Sorted {α : Type} (key : α → Bytes) (l : List α) : Prop :=
  l.Pairwise (fun a b => bytesLt (key b) (key a) = false)

variable {α : Type} {key : α → Bytes}

theorem insertBy_perm (a : α) (l : List α) : (insertBy key a l).Perm (a :: l) := by
  induction l with
  | nil => exact List.Perm.refl _
  | cons b l ih =>
    unfold insertBy
    split
    · exact (List.Perm.cons b ih).trans (List.Perm.swap a b l)
    · exact List.Perm.refl _

theorem sortBy_perm (l : List α) : (sortBy key l).Perm l := by
  induction l with
  | nil => exact List.Perm.refl _
  | cons a l ih => exact (insertBy_perm a _).trans (List.Perm.cons a ih)

theorem insertBy_sorted (a : α) (l : List α) (h : Sorted key l) : Sorted key (insertBy key a l) := by
  induction l with
  | nil => exact List.pairwise_singleton _ _
  | cons b l ih =>
    unfold insertBy
    have hb := List.pairwise_cons.mp h
    split
    · rename_i hlt
      refine List.pairwise_cons.mpr ⟨?_, ih hb.2⟩
      intro x hx
      rcases List.mem_cons.mp ((insertBy_perm a l).mem_iff.mp hx) with hxa | hxl
      · subst hxa
        by_contra hc
        simp only [Bool.not_eq_false] at hc
        have := bytesLt_trans hc hlt
        rw [bytesLt_irrefl] at this; cases this
      · exact hb.1 x hxl
    · rename_i hlt
      simp only [Bool.not_eq_true] at hlt
      refine List.pairwise_cons.mpr ⟨?_, h⟩
      intro x hx
      rcases List.mem_cons.mp hx with hxb | hxl
      · subst hxb; exact hlt
      · have h2 := hb.1 x hxl
        by_contra hc
        simp only [Bool.not_eq_false] at hc
        -- key x < key a, key a ≤ key b ≤ key x
        by_cases hab : bytesLt (key a) (key b) = true
        · have := bytesLt_trans hc hab; rw [h2] at this; cases this
        · simp only [Bool.not_eq_true] at hab
          rw [bytesLt_total hab hlt] at hc
          rw [h2] at hc; cases hc

theorem sortBy_sorted (l : List α) : Sorted key (sortBy key l) := by
  induction l with
  | nil => exact List.Pairwise.nil
  | cons a l ih => exact insertBy_sorted a _ ih

theorem Sorted.filter {l : List α} (h : Sorted key l) (f : α → Bool) : Sorted key (l.filter f) :=
  List.Pairwise.filter f h

/-! ### Splitting by a bit -/

/-- The elements whose key continues the path `p`. -/
def below (key : α → Bytes) (l : List α) (p : List Bool) : List α := l.filter (fun a => decide (On p (key a)))

theorem mem_below {l : List α} {p : List Bool} {a : α} : a ∈ below key l p ↔ a ∈ l ∧ On p (key a) := by
  simp [below]

theorem below_root (l : List α) : below key l [] = l := by
  unfold below
  rw [List.filter_eq_self]
  intro a _
  simp [on_nil]

/-- In a list sorted by key of equally long keys below `p`, the elements with bit `|p|` clear come first. -/
theorem below_split {l : List α} {hs : Nat} (hsort : Sorted key l) (hlen : ∀ a ∈ l, (key a).length = hs)
    (p : List Bool) (hp : p.length < 8 * hs) :
    below key l p = below key l (p ++ [false]) ++ below key l (p ++ [true]) := by
  induction l with
  | nil => rfl
  | cons a l ih =>
    have hs' := List.pairwise_cons.mp hsort
    have ih' := ih hs'.2 (fun x hx => hlen x (List.mem_cons_of_mem _ hx))
    have hla := hlen a (by simp)
    unfold below at ih' ⊢
    simp only [List.filter_cons]
    by_cases hon : On p (key a)
    · have hstep := hon.step (by rw [hla]; exact hp)
      cases hb : bitAt (key a) p.length with
      | false =>
        rw [hb] at hstep
        have hn : ¬ On (p ++ [true]) (key a) := by
          intro h; have := h.bit; rw [hb] at this; cases this
        simp [hon, hstep, hn, ih']
      | true =>
        rw [hb] at hstep
        have hn : ¬ On (p ++ [false]) (key a) := by
          intro h; have := h.bit; rw [hb] at this; cases this
        -- nothing after `a` has the bit clear
        have hemp : l.filter (fun x => decide (On (p ++ [false]) (key x))) = [] := by
          rw [List.filter_eq_nil_iff]
          intro x hx hxon
          simp only [decide_eq_true_eq] at hxon
          have hlt : bytesLt (key x) (key a) = true := by
            apply lt_of_bits p.length
            · rw [hla, hlen x (List.mem_cons_of_mem _ hx)]
            · intro i hi
              have e1 := (List.prefix_iff_getElem?.mp hxon.up) i hi
              have e2 := (List.prefix_iff_getElem?.mp hon) i hi
              unfold bitAt
              rw [List.getD_eq_getElem?_getD, List.getD_eq_getElem?_getD, e1, e2]
            · exact hxon.bit
            · exact hb
          rw [hs'.1 x hx] at hlt; cases hlt
        rw [hemp] at ih' ⊢
        simp [hon, hstep, hn, ih']
    · have h0 : ¬ On (p ++ [false]) (key a) := fun h => hon h.up
      have h1 : ¬ On (p ++ [true]) (key a) := fun h => hon h.up
      simp [hon, h0, h1, ih']

/-- The binary search finds the boundary of a list that is `xs ++ ys`, bit clear in `xs`, set in `ys`. -/
theorem searchBit_eq (xs ys : List α) (d hs : Nat) (hlen : ∀ a ∈ xs ++ ys, (key a).length = hs)
    (hd : d < 8 * hs) (hx : ∀ a ∈ xs, bitAt (key a) d = false) (hy : ∀ a ∈ ys, bitAt (key a) d = true) :
    ∀ fuel i j, j - i ≤ fuel → i ≤ xs.length → xs.length ≤ j → j ≤ (xs ++ ys).length →
      searchBit key (xs ++ ys) d fuel i j = .ok xs.length := by
  intro fuel
  induction fuel with
  | zero =>
    intro i j hf hi hj hjl
    have : i = xs.length ∧ ¬ i < j := by omega
    unfold searchBit
    rw [if_neg this.2, this.1]; rfl
  | succ f ih =>
    intro i j hf hi hj hjl
    unfold searchBit
    by_cases hij : i < j
    · rw [if_pos hij]
      have hm : (i + j) / 2 < (xs ++ ys).length := by omega
      rw [List.getElem?_eq_getElem hm]
      have hmem : (xs ++ ys)[(i + j) / 2] ∈ xs ++ ys := List.getElem_mem hm
      simp only
      rw [getBit_eq _ _ (by rw [hlen _ hmem]; exact hd)]
      simp only [G.ok_bind]
      by_cases hlt : (i + j) / 2 < xs.length
      · have hb : bitAt (key (xs ++ ys)[(i + j) / 2]) d = false := by
          apply hx
          rw [List.getElem_append_left hlt]
          exact List.getElem_mem hlt
        rw [hb]
        simp only [Bool.false_eq_true, if_false]
        exact ih _ _ (by omega) (by omega) hj hjl
      · have hb : bitAt (key (xs ++ ys)[(i + j) / 2]) d = true := by
          apply hy
          rw [List.getElem_append_right (by omega)]
          exact List.getElem_mem _
        rw [hb]
        simp only [if_true]
        exact ih _ _ (by omega) hi (by omega) (by omega)
    · rw [if_neg hij]
      have : i = xs.length := by omega
      rw [this]; rfl

theorem splitBit_below {l : List α} {hs : Nat} (hsort : Sorted key l) (hlen : ∀ a ∈ l, (key a).length = hs)
    (p : List Bool) (hp : p.length < 8 * hs) :
    splitBit key (below key l p) p.length =
      .ok (below key l (p ++ [false]), below key l (p ++ [true])) := by
  have hsp := below_split hsort hlen p hp
  have hlen' : ∀ a ∈ below key l (p ++ [false]) ++ below key l (p ++ [true]), (key a).length = hs := by
    intro a ha
    rw [← hsp] at ha
    exact hlen a (mem_below.mp ha).1
  unfold splitBit
  rw [hsp, searchBit_eq _ _ p.length hs hlen' hp (fun a ha => (mem_below.mp ha).2.bit)
    (fun a ha => (mem_below.mp ha).2.bit) _ 0 _ (by omega) (by omega) (by simp) (by omega)]
  simp

theorem splitBit_nil (d : Nat) : splitBit key [] d = .ok ([], []) := rfl

end Katie.Prefix
