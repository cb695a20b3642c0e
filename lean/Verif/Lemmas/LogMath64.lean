import Verif.Model.LogMath64
import Verif.Lemmas.LogMath

/-
The 64-bit functions of `Model/LogMath64.lean` agree with those on unbounded numbers.
-/

namespace Katie.LogMath
open Katie Katie.LogSpec

theorem lt64 (x : BitVec 64) : x.toNat < 18446744073709551616 := x.isLt

theorem isLeaf64_eq (x : BitVec 64) : isLeaf64 x = isLeaf x.toNat := by
  unfold isLeaf64 isLeaf
  rw [Bool.eq_iff_iff, beq_iff_eq, beq_iff_eq, ← BitVec.toNat_inj]
  rfl

theorem log2Loop64_eq : ∀ (fuel : Nat) (x : BitVec 64) (k : Nat), log2Loop64 fuel x k = log2Loop fuel x.toNat k := by
  intro fuel
  induction fuel with
  | zero => intro x k; rfl
  | succ f ih =>
    intro x k
    unfold log2Loop64 log2Loop
    rw [ih]
    refine if_congr ?_ rfl rfl
    rw [gt_iff_lt, gt_iff_lt, BitVec.lt_def, BitVec.toNat_ushiftRight]
    rfl

theorem log264_eq (x : BitVec 64) : log264 x = log2 x.toNat := by
  unfold log264 log2
  rw [log2Loop64_eq]
  refine if_congr ?_ rfl rfl
  rw [← BitVec.toNat_inj]
  rfl

theorem levelLoop64_eq : ∀ (fuel : Nat) (x : BitVec 64) (k : Nat), levelLoop64 fuel x k = levelLoop fuel x.toNat k := by
  intro fuel
  induction fuel with
  | zero => intro x k; rfl
  | succ f ih =>
    intro x k
    unfold levelLoop64 levelLoop
    rw [ih]
    refine if_congr ?_ rfl rfl
    rw [← BitVec.toNat_inj, BitVec.toNat_and, BitVec.toNat_ushiftRight]
    rfl

theorem level64_eq (x : BitVec 64) : level64 x = level x.toNat := by
  unfold level64 level
  rw [isLeaf64_eq, levelLoop64_eq]

theorem level_le {x : Nat} (hx : x < 2 ^ 64 - 1) : level x ≤ 63 := by
  obtain ⟨K, i, rfl⟩ := exists_idx x
  rw [level_idx]
  by_contra h
  have h1 : 2 ^ 64 ≤ 2 ^ K := Nat.pow_le_pow_right (by norm_num) (by omega)
  unfold idx at hx
  omega

theorem level_le64 {x : Nat} (hx : x < 2 ^ 64) : level x ≤ 64 := by
  obtain ⟨K, i, rfl⟩ := exists_idx x
  rw [level_idx]
  by_contra h
  have h1 : 2 ^ 65 ≤ 2 ^ K := Nat.pow_le_pow_right (by norm_num) (by omega)
  unfold idx at hx
  omega

theorem shl64 (a : BitVec 64) (k : Nat) (h : a.toNat <<< k < 2 ^ 64) : (a <<< k).toNat = a.toNat <<< k := by
  rw [BitVec.toNat_shiftLeft, Nat.mod_eq_of_lt h]

theorem one_shl64 {k : Nat} (h : k ≤ 63) : (1#64 <<< k).toNat = 1 <<< k := by
  refine shl64 1#64 k ?_
  show 1 <<< k < _
  rw [Nat.one_shiftLeft]
  exact Nat.pow_lt_pow_right (by norm_num) (by omega)

theorem left64_eq (x : BitVec 64) : (left64 x).map BitVec.toNat = left x.toNat := by
  unfold left64 left
  simp only [level64_eq]
  split
  · rfl
  · show Except.ok _ = Except.ok _
    have := level_le64 x.isLt
    rw [BitVec.toNat_xor, one_shl64 (by omega)]

theorem map_ok {α β : Type} {f : α → β} {x : G α} {b : β} (h : x.map f = .ok b) : ∃ a, x = .ok a ∧ f a = b := by
  cases x with
  | error e => cases h
  | ok a => exact ⟨a, rfl, Except.ok.inj h⟩

theorem left64_ok {x : BitVec 64} {l : Nat} (h : left x.toNat = .ok l) : ∃ y, left64 x = .ok y ∧ y.toNat = l :=
  map_ok (by rw [left64_eq, h])

theorem rightStep64_eq {x : BitVec 64} (hx : x.toNat < 2 ^ 64 - 1) : (rightStep64 x).map BitVec.toNat = rightStep x.toNat := by
  unfold rightStep64 rightStep
  simp only [level64_eq]
  split
  · rfl
  · next h =>
    show Except.ok _ = Except.ok _
    have := level_le hx
    rw [BitVec.toNat_xor, shl64]
    · rfl
    · show 3 <<< _ < _
      rw [Nat.shiftLeft_eq]
      have : 2 ^ (level x.toNat - 1) ≤ 2 ^ 62 := Nat.pow_le_pow_right (by norm_num) (by omega)
      omega

theorem rightLoop64_eq : ∀ (fuel : Nat) (r w : BitVec 64),
    (rightLoop64 fuel r w).map BitVec.toNat = rightLoop fuel r.toNat w.toNat := by
  intro fuel
  induction fuel with
  | zero => intro r w; rfl
  | succ f ih =>
    intro r w
    unfold rightLoop64 rightLoop
    by_cases h : r.toNat ≥ w.toNat
    · rw [if_pos h, if_pos (show r ≥ w from h), ← left64_eq]
      cases hl : left64 r with
      | error e => rfl
      | ok l => exact ih l w
    · rw [if_neg h, if_neg (show ¬ r ≥ w from h)]
      rfl

theorem nodeWidth64_eq {n : BitVec 64} (hn : n.toNat ≤ 2 ^ 63) : (nodeWidth64 n).toNat = nodeWidth n.toNat := by
  unfold nodeWidth64 nodeWidth
  by_cases h : n = 0#64
  · subst h; rfl
  · have h0 : n.toNat ≠ 0 := fun h1 => h (BitVec.eq_of_toNat_eq h1)
    rw [if_neg h, if_neg h0]
    rw [BitVec.toNat_add, BitVec.toNat_mul, BitVec.toNat_sub]
    simp only [BitVec.toNat_ofNat]
    omega

theorem nodeWidth_le {n : Nat} (hn : n ≤ 2 ^ 63) : nodeWidth n ≤ 2 ^ 64 - 1 := by
  unfold nodeWidth
  split <;> omega

theorem right64_eq {x n : BitVec 64} (hx : x.toNat < 2 ^ 64 - 1) (hn : n.toNat ≤ 2 ^ 63) :
    (right64 x n).map BitVec.toNat = right x.toNat n.toNat := by
  unfold right64 right
  rw [← rightStep64_eq hx, ← nodeWidth64_eq hn]
  cases hr : rightStep64 x with
  | error e => rfl
  | ok r => exact rightLoop64_eq _ r _

theorem rightLoop_lt : ∀ (fuel r w q : Nat), rightLoop fuel r w = .ok q → q < w := by
  intro fuel
  induction fuel with
  | zero => intro r w q h; cases h
  | succ f ih =>
    intro r w q h
    unfold rightLoop at h
    split at h
    · obtain ⟨l, -, h⟩ := G.bind_eq_ok.1 h
      exact ih _ _ _ h
    · cases h; omega

theorem right_lt {x n q : Nat} (h : right x n = .ok q) : q < nodeWidth n := by
  unfold right at h
  obtain ⟨r, -, h⟩ := G.bind_eq_ok.1 h
  exact rightLoop_lt _ _ _ _ h

theorem right64_ok {x n : BitVec 64} {q : Nat} (hx : x.toNat < 2 ^ 64 - 1) (hn : n.toNat ≤ 2 ^ 63)
    (h : right x.toNat n.toNat = .ok q) : ∃ y, right64 x n = .ok y ∧ y.toNat = q ∧ q < 2 ^ 64 - 1 := by
  obtain ⟨y, h1, h2⟩ := map_ok (by rw [right64_eq hx hn, h])
  have := right_lt h
  have := nodeWidth_le hn
  exact ⟨y, h1, h2, by omega⟩

theorem left_lt {x q : Nat} (h : left x = .ok q) : q < x := by
  obtain ⟨K, i, rfl⟩ := exists_idx x
  cases K with
  | zero => rw [left_leaf] at h; cases h
  | succ K =>
    rw [left_idx] at h
    cases h
    unfold idx
    have := Nat.two_pow_pos K
    have e : 2 ^ (K + 1) * (2 * i) = 2 ^ (K + 1 + 1) * i := by rw [pow_succ 2 (K + 1)]; ring
    rw [e, pow_succ 2 K]
    omega

theorem parentStep64_eq {x : BitVec 64} (hx : x.toNat < 2 ^ 64 - 1) : (parentStep64 x).toNat = parentStep x.toNat := by
  unfold parentStep64 parentStep
  have hk := level_le hx
  simp only [level64_eq]
  rw [BitVec.toNat_xor, BitVec.toNat_or, one_shl64 hk, shl64]
  · rw [BitVec.toNat_and, BitVec.toNat_ushiftRight]
    rfl
  · rw [BitVec.toNat_and, BitVec.toNat_ushiftRight]
    show ((x.toNat >>> (level x.toNat + 1)) &&& 1) <<< (level x.toNat + 1) < 2 ^ 64
    rw [Nat.and_one_is_mod, Nat.shiftLeft_eq]
    by_cases h : level x.toNat + 1 = 64
    · rw [h]
      have : x.toNat >>> 64 = 0 := by
        rw [Nat.shiftRight_eq_div_pow]
        exact Nat.div_eq_of_lt x.isLt
      rw [this]
      norm_num
    · have h1 : 2 ^ (level x.toNat + 1) ≤ 2 ^ 63 := Nat.pow_le_pow_right (by norm_num) (by omega)
      have h2 : x.toNat >>> (level x.toNat + 1) % 2 ≤ 1 := by omega
      calc _ ≤ 1 * 2 ^ 63 := Nat.mul_le_mul h2 h1
        _ < 2 ^ 64 := by norm_num

theorem parentLoop_top {w : Nat} : ∀ (fuel K : Nat), w ≤ idx K 0 → parentLoop fuel (idx K 0) w = .error .diverge := by
  intro fuel
  induction fuel with
  | zero => intro K _; rfl
  | succ f ih =>
    intro K h
    unfold parentLoop
    rw [if_pos h, parentStep_idx]
    refine ih (K + 1) (h.trans ?_)
    unfold idx
    have : 2 ^ K ≤ 2 ^ (K + 1) := Nat.pow_le_pow_right (by norm_num) (by omega)
    omega

theorem parentLoop64_ok : ∀ (fuel : Nat) (p w : BitVec 64) (q : Nat), parentLoop fuel p.toNat w.toNat = .ok q →
    ∃ y, parentLoop64 fuel p w = .ok y ∧ y.toNat = q := by
  intro fuel
  induction fuel with
  | zero => intro p w q h; cases h
  | succ f ih =>
    intro p w q h
    by_cases hp : p.toNat < 2 ^ 64 - 1
    · unfold parentLoop at h
      unfold parentLoop64
      by_cases h1 : p.toNat ≥ w.toNat
      · rw [if_pos h1, ← parentStep64_eq hp] at h
        rw [if_pos (show p ≥ w from h1)]
        exact ih _ _ _ h
      · rw [if_neg h1] at h
        rw [if_neg (show ¬ p ≥ w from h1)]
        cases h
        exact ⟨p, rfl, rfl⟩
    · have hlt := p.isLt
      have e : p.toNat = idx 64 0 := by unfold idx; omega
      have := w.isLt
      rw [e, parentLoop_top _ _ (by unfold idx; omega)] at h
      cases h

theorem parentLoop_lt : ∀ (fuel p w q : Nat), parentLoop fuel p w = .ok q → q < w := by
  intro fuel
  induction fuel with
  | zero => intro r w q h; cases h
  | succ f ih =>
    intro r w q h
    unfold parentLoop at h
    split at h
    · exact ih _ _ _ h
    · cases h; omega

theorem nodeWidth_pos_lt {n : Nat} (h0 : 0 < n) : 0 < nodeWidth n := by unfold nodeWidth; rw [if_neg (by omega)]; omega

theorem root64_eq {n : BitVec 64} (hn : n.toNat ≤ 2 ^ 63) : (root64 n).toNat = root n.toNat := by
  unfold root64 root
  rw [BitVec.toNat_sub, log264_eq, nodeWidth64_eq hn]
  have hlog : log2 (nodeWidth n.toNat) ≤ 63 := by
    by_cases h0 : nodeWidth n.toNat = 0
    · rw [h0]; decide
    · rw [log2_eq (K := Nat.log2 (nodeWidth n.toNat)) (Nat.log2_self_le h0) Nat.lt_log2_self]
      have := nodeWidth_le hn
      exact Nat.le_of_lt_succ ((Nat.log2_lt h0).2 (by omega))
  rw [one_shl64 hlog, Nat.one_shiftLeft]
  have h1 : 2 ^ log2 (nodeWidth n.toNat) ≤ 2 ^ 63 := Nat.pow_le_pow_right (by norm_num) hlog
  have h2 := Nat.two_pow_pos (log2 (nodeWidth n.toNat))
  simp only [BitVec.toNat_ofNat]
  omega

theorem parent64_ok {x n : BitVec 64} {q : Nat} (hn : n.toNat ≤ 2 ^ 63) (h : parent x.toNat n.toNat = .ok q) :
    ∃ y, parent64 x n = .ok y ∧ y.toNat = q ∧ q < 2 ^ 64 - 1 := by
  unfold parent at h
  unfold parent64
  rw [← root64_eq hn] at h
  by_cases hr : x = root64 n
  · rw [if_pos (by rw [hr])] at h; cases h
  · rw [if_neg (fun e => hr (BitVec.eq_of_toNat_eq e))] at h
    rw [if_neg hr]
    have hlt := parentLoop_lt _ _ _ _ h
    have hw := nodeWidth_le hn
    rw [← nodeWidth64_eq hn] at h
    by_cases hx : x.toNat < 2 ^ 64 - 1
    · rw [← parentStep64_eq hx] at h
      obtain ⟨y, h1, h2⟩ := parentLoop64_ok _ _ _ _ h
      exact ⟨y, h1, h2, by omega⟩
    · have := x.isLt
      have e : x.toNat = idx 64 0 := by unfold idx; omega
      have := (nodeWidth64 n).isLt
      rw [show parentStep x.toNat = idx 65 0 by rw [e, parentStep_idx], parentLoop_top _ _ (by unfold idx; omega)] at h
      cases h

theorem sibling64_ok {x n : BitVec 64} {q : Nat} (hn : n.toNat ≤ 2 ^ 63) (h : sibling x.toNat n.toNat = .ok q) :
    ∃ y, sibling64 x n = .ok y ∧ y.toNat = q := by
  unfold sibling at h
  obtain ⟨p, hp, h⟩ := G.bind_eq_ok.1 h
  obtain ⟨p', hp', rfl, hlt⟩ := parent64_ok hn hp
  unfold sibling64
  rw [hp', G.ok_bind]
  by_cases hx : x.toNat < p'.toNat
  · rw [if_pos hx] at h
    rw [if_pos (show x < p' from hx)]
    obtain ⟨y, h1, h2, -⟩ := right64_ok hlt hn h
    exact ⟨y, h1, h2⟩
  · rw [if_neg hx] at h
    rw [if_neg (show ¬ x < p' from hx)]
    exact left64_ok h

theorem directPathLoop64_ok {n r : BitVec 64} (hn : n.toNat ≤ 2 ^ 63) : ∀ (fuel : Nat) (x : BitVec 64) (l : List Nat),
    directPathLoop fuel x.toNat n.toNat r.toNat = .ok l →
    ∃ l', directPathLoop64 fuel x n r = .ok l' ∧ l'.map BitVec.toNat = l := by
  intro fuel
  induction fuel with
  | zero => intro x l h; cases h
  | succ f ih =>
    intro x l h
    unfold directPathLoop at h
    unfold directPathLoop64
    by_cases hx : x = r
    · rw [if_neg (by rw [hx]; simp)] at h
      rw [if_neg (by simp [hx])]
      cases h
      exact ⟨[], rfl, rfl⟩
    · rw [if_pos (fun e => hx (BitVec.eq_of_toNat_eq e))] at h
      rw [if_pos hx]
      obtain ⟨p, hp, h⟩ := G.bind_eq_ok.1 h
      obtain ⟨rest, hrest, h⟩ := G.bind_eq_ok.1 h
      obtain ⟨p', hp', rfl, -⟩ := parent64_ok hn hp
      obtain ⟨l', h1, h2⟩ := ih p' rest hrest
      cases h
      rw [hp', G.ok_bind, h1, G.ok_bind]
      exact ⟨_, rfl, by rw [List.map_cons, h2]⟩

theorem directPath64_ok {x n : BitVec 64} (hn : n.toNat ≤ 2 ^ 63) {l : List Nat} (h : directPath x.toNat n.toNat = .ok l) :
    ∃ l', directPath64 x n = .ok l' ∧ l'.map BitVec.toNat = l := by
  unfold directPath at h
  rw [← root64_eq hn] at h
  exact directPathLoop64_ok hn _ _ _ h

theorem mapM64_ok {f : BitVec 64 → G (BitVec 64)} {g : Nat → G Nat}
    (hfg : ∀ x q, g x.toNat = .ok q → ∃ y, f x = .ok y ∧ y.toNat = q) : ∀ (xs : List (BitVec 64)) (l : List Nat),
    (xs.map BitVec.toNat).mapM g = .ok l → ∃ l', xs.mapM f = .ok l' ∧ l'.map BitVec.toNat = l := by
  intro xs
  induction xs with
  | nil => intro l h; cases h; exact ⟨[], rfl, rfl⟩
  | cons x xs ih =>
    intro l h
    rw [List.map_cons, List.mapM_cons] at h
    obtain ⟨q, hq, h⟩ := G.bind_eq_ok.1 h
    obtain ⟨rest, hrest, h⟩ := G.bind_eq_ok.1 h
    obtain ⟨y, h1, rfl⟩ := hfg x q hq
    obtain ⟨l', h2, rfl⟩ := ih rest hrest
    cases h
    rw [List.mapM_cons, h1, G.ok_bind, h2, G.ok_bind]
    exact ⟨_, rfl, rfl⟩

theorem copath64_ok {x n : BitVec 64} (hn : n.toNat ≤ 2 ^ 63) {l : List Nat} (h : copath x.toNat n.toNat = .ok l) :
    ∃ l', copath64 x n = .ok l' ∧ l'.map BitVec.toNat = l := by
  unfold copath at h
  unfold copath64
  rw [← root64_eq hn] at h
  by_cases hr : x = root64 n
  · rw [if_pos (by rw [hr])] at h
    rw [if_pos hr]
    cases h
    exact ⟨[], rfl, rfl⟩
  · rw [if_neg (fun e => hr (BitVec.eq_of_toNat_eq e))] at h
    rw [if_neg hr]
    obtain ⟨d, hd, h⟩ := G.bind_eq_ok.1 h
    obtain ⟨d', h1, rfl⟩ := directPath64_ok hn hd
    rw [h1, G.ok_bind]
    rw [← List.map_cons, ← List.map_dropLast] at h
    exact mapM64_ok (fun x q hq => sibling64_ok hn hq) _ _ h

theorem isFullSubtree64_eq {x n : BitVec 64} (hx : x.toNat < 2 ^ 64 - 1) (h0 : 0 < n.toNat) (hn : n.toNat ≤ 2 ^ 63) :
    isFullSubtree64 x n = isFullSubtree x.toNat n.toNat := by
  unfold isFullSubtree64 isFullSubtree
  have hk := level_le hx
  simp only [level64_eq]
  rw [decide_eq_decide, BitVec.le_def, BitVec.toNat_sub, BitVec.toNat_add, one_shl64 hk, BitVec.toNat_mul, BitVec.toNat_sub]
  simp only [BitVec.toNat_ofNat]
  have hlt := x.isLt
  have hpos : 0 < 1 <<< level x.toNat := by rw [Nat.one_shiftLeft]; exact Nat.two_pow_pos _
  have hb : x.toNat + 1 <<< level x.toNat < 2 ^ 64 := by
    obtain ⟨K, i, e⟩ := exists_idx x.toNat
    rw [e, level_idx] at hk
    rw [e, level_idx, Nat.one_shiftLeft]
    rw [e] at hlt
    have h1 : i < 2 ^ (63 - K) := by
      by_contra h
      have h2 : 2 ^ (K + 1) * 2 ^ (63 - K) ≤ 2 ^ (K + 1) * i := Nat.mul_le_mul_left _ (by omega)
      rw [← pow_add, show K + 1 + (63 - K) = 64 by omega] at h2
      unfold idx at hlt
      omega
    have h2 : 2 ^ (K + 1) * (i + 1) ≤ 2 ^ (K + 1) * 2 ^ (63 - K) := Nat.mul_le_mul_left _ (by omega)
    rw [← pow_add, show K + 1 + (63 - K) = 64 by omega, Nat.mul_add] at h2
    unfold idx
    have := Nat.two_pow_pos K
    have e2 : 2 ^ (K + 1) = 2 * 2 ^ K := by rw [pow_succ]; ring
    omega
  omega

theorem fullSubtreesLoop64_ok {n : BitVec 64} (h0 : 0 < n.toNat) (hn : n.toNat ≤ 2 ^ 63) :
    ∀ (fuel : Nat) (x : BitVec 64) (l : List Nat), x.toNat < 2 ^ 64 - 1 → fullSubtreesLoop fuel x.toNat n.toNat = .ok l →
    ∃ l', fullSubtreesLoop64 fuel x n = .ok l' ∧ l'.map BitVec.toNat = l := by
  intro fuel
  induction fuel with
  | zero => intro x l _ h; cases h
  | succ f ih =>
    intro x l hx h
    unfold fullSubtreesLoop at h
    unfold fullSubtreesLoop64
    rw [isFullSubtree64_eq hx h0 hn]
    split at h
    · next hf =>
      rw [if_pos hf]
      cases h
      exact ⟨[x], rfl, rfl⟩
    · next hf =>
      rw [if_neg hf]
      obtain ⟨a, ha, h⟩ := G.bind_eq_ok.1 h
      obtain ⟨r, hr, h⟩ := G.bind_eq_ok.1 h
      obtain ⟨rest, hrest, h⟩ := G.bind_eq_ok.1 h
      obtain ⟨a', h1, rfl⟩ := left64_ok ha
      obtain ⟨r', h2, rfl, hlt⟩ := right64_ok hx hn hr
      obtain ⟨l', h3, rfl⟩ := ih r' rest hlt hrest
      cases h
      rw [h1, G.ok_bind, h2, G.ok_bind, h3, G.ok_bind]
      exact ⟨_, rfl, rfl⟩

theorem fullSubtrees64_ok {x n : BitVec 64} (hx : x.toNat < 2 ^ 64 - 1) (h0 : 0 < n.toNat) (hn : n.toNat ≤ 2 ^ 63)
    {l : List Nat} (h : fullSubtrees x.toNat n.toNat = .ok l) :
    ∃ l', fullSubtrees64 x n = .ok l' ∧ l'.map BitVec.toNat = l :=
  fullSubtreesLoop64_ok h0 hn _ _ _ hx h

theorem map_inj64 {l l' : List (BitVec 64)} : l.map BitVec.toNat = l'.map BitVec.toNat ↔ l = l' :=
  List.map_inj_right (fun _ _ h => BitVec.eq_of_toNat_eq h)

theorem contains64 (l : List (BitVec 64)) (x : BitVec 64) : (l.map BitVec.toNat).contains x.toNat = l.contains x := by
  rw [Bool.eq_iff_iff, List.contains_iff_mem, List.contains_iff_mem, List.mem_map]
  constructor
  · rintro ⟨y, hy, e⟩
    rwa [← BitVec.eq_of_toNat_eq e]
  · intro h; exact ⟨x, h, rfl⟩

theorem takeWhile64 (l : List (BitVec 64)) (x : BitVec 64) :
    ((l.map BitVec.toNat).takeWhile (· < x.toNat)).length = (l.takeWhile (· < x)).length := by
  rw [List.takeWhile_map, List.length_map]
  rfl

theorem batchCopathAux64_ok {n : BitVec 64} (h0 : 0 < n.toNat) (hn : n.toNat ≤ 2 ^ 63) (incl : List (BitVec 64)) :
    ∀ (fuel : Nat) (x : BitVec 64) (nodes : List (BitVec 64)) (l : List Nat), x.toNat < 2 ^ 64 - 1 →
    batchCopathAux fuel x.toNat n.toNat (nodes.map BitVec.toNat) (incl.map BitVec.toNat) = .ok l →
    ∃ l', batchCopathAux64 fuel x n nodes incl = .ok l' ∧ l'.map BitVec.toNat = l := by
  intro fuel
  induction fuel with
  | zero => intro x nodes l _ h; cases h
  | succ f ih =>
    intro x nodes l hx h
    unfold batchCopathAux at h
    unfold batchCopathAux64
    by_cases hnil : nodes = []
    · subst hnil
      rw [if_pos rfl]
      exact fullSubtrees64_ok hx h0 hn (by simpa using h)
    rw [if_neg (by simpa using hnil)] at h
    rw [if_neg hnil]
    by_cases hone : nodes = [x]
    · subst hone
      rw [if_pos rfl]
      simp only [List.map_cons, List.map_nil, if_true, contains64] at h
      split at h
      · next hc => rw [if_pos hc]; cases h; exact ⟨[x], rfl, rfl⟩
      · next hc => rw [if_neg hc]; cases h; exact ⟨[], rfl, rfl⟩
    rw [if_neg (fun e => hone (map_inj64.1 (by rw [e]; rfl)))] at h
    rw [if_neg hone]
    simp only [binarySearch, contains64, takeWhile64] at h
    obtain ⟨a, ha, h⟩ := G.bind_eq_ok.1 h
    obtain ⟨la, hla, h⟩ := G.bind_eq_ok.1 h
    obtain ⟨b, hb, h⟩ := G.bind_eq_ok.1 h
    obtain ⟨lb, hlb, h⟩ := G.bind_eq_ok.1 h
    obtain ⟨a', h1, rfl⟩ := left64_ok ha
    obtain ⟨b', h2, rfl, hlt⟩ := right64_ok hx hn hb
    have := left_lt ha
    rw [← List.map_take] at hla
    rw [← List.map_drop] at hlb
    obtain ⟨la', h3, rfl⟩ := ih a' _ la (by omega) hla
    obtain ⟨lb', h4, rfl⟩ := ih b' _ lb hlt hlb
    cases h
    simp only [h1, G.ok_bind, h2, h3, h4]
    exact ⟨_, rfl, by rw [List.map_append]⟩

theorem insertUniq64 (a : BitVec 64) : ∀ l : List (BitVec 64),
    (sortDedup64.insertUniq a l).map BitVec.toNat = sortDedup.insertUniq a.toNat (l.map BitVec.toNat)
  | [] => rfl
  | b :: l => by
    unfold sortDedup64.insertUniq
    rw [List.map_cons]
    unfold sortDedup.insertUniq
    by_cases h1 : a.toNat < b.toNat
    · rw [if_pos h1, if_pos (show a < b from h1)]; rfl
    · rw [if_neg h1, if_neg (show ¬ a < b from h1)]
      by_cases h2 : a = b
      · rw [if_pos h2, if_pos (by rw [h2])]; rfl
      · rw [if_neg h2, if_neg (fun e => h2 (BitVec.eq_of_toNat_eq e)), List.map_cons, insertUniq64 a l]

theorem sortDedup64_eq : ∀ l : List (BitVec 64), (sortDedup64 l).map BitVec.toNat = sortDedup (l.map BitVec.toNat)
  | [] => rfl
  | a :: l => by
    show (sortDedup64.insertUniq a (sortDedup64 l)).map BitVec.toNat = _
    rw [insertUniq64, sortDedup64_eq l]
    rfl

theorem root_lt {n : Nat} (h0 : 0 < n) (hn : n ≤ 2 ^ 63) : root n < 2 ^ 64 - 1 := by
  rw [root_eq h0]
  have := nd_lt (lo := 0) h0
  omega

theorem fromHead64 {o : Option (BitVec 64)} (ho : ∀ k, o = some k → 0 < k.toNat ∧ k.toNat ≤ 2 ^ 63) {l : List Nat}
    (h : (match o.map BitVec.toNat with | none => pure [] | some k => fullSubtrees (root k) k) = Except.ok l) :
    ∃ l', (match o with | none => pure [] | some k => fullSubtrees64 (root64 k) k : G _) = .ok l' ∧ l'.map BitVec.toNat = l := by
  cases o with
  | none => cases h; exact ⟨[], rfl, rfl⟩
  | some k =>
    obtain ⟨h0, hk⟩ := ho k rfl
    have h' : fullSubtrees (root k.toNat) k.toNat = .ok l := h
    rw [← root64_eq hk] at h'
    exact fullSubtrees64_ok (by rw [root64_eq hk]; exact root_lt h0 hk) h0 hk h'

theorem batchCopath_def (leaves : List Nat) (n : Nat) (nP m : Option Nat) : batchCopath leaves n nP m =
    ((match nP with | none => pure [] | some k => fullSubtrees (root k) k : G _) >>= fun fromNP =>
      (match m with | none => pure [] | some k => fullSubtrees (root k) k : G _) >>= fun fromM =>
      batchCopathAux (2 * n + 2) (root n) n (sortDedup (leaves.map (2 * ·) ++ fromNP ++ fromM)) fromNP) := by
  cases nP <;> cases m <;> rfl

theorem batchCopath64_def (leaves : List (BitVec 64)) (n : BitVec 64) (nP m : Option (BitVec 64)) : batchCopath64 leaves n nP m =
    ((match nP with | none => pure [] | some k => fullSubtrees64 (root64 k) k : G _) >>= fun fromNP =>
      (match m with | none => pure [] | some k => fullSubtrees64 (root64 k) k : G _) >>= fun fromM =>
      batchCopathAux64 (2 * n.toNat + 2) (root64 n) n (sortDedup64 (leaves.map (2#64 * ·) ++ fromNP ++ fromM)) fromNP) := by
  cases nP <;> cases m <;> rfl

theorem batchCopath64_ok {leaves : List (BitVec 64)} {n : BitVec 64} {nP m : Option (BitVec 64)} (h0 : 0 < n.toNat)
    (hn : n.toNat ≤ 2 ^ 63) (hl : ∀ x ∈ leaves, x.toNat < 2 ^ 63) (hP : ∀ k, nP = some k → 0 < k.toNat ∧ k.toNat ≤ 2 ^ 63)
    (hm : ∀ k, m = some k → 0 < k.toNat ∧ k.toNat ≤ 2 ^ 63) {l : List Nat}
    (h : batchCopath (leaves.map BitVec.toNat) n.toNat (nP.map BitVec.toNat) (m.map BitVec.toNat) = .ok l) :
    ∃ l', batchCopath64 leaves n nP m = .ok l' ∧ l'.map BitVec.toNat = l := by
  rw [batchCopath_def] at h
  obtain ⟨f1, hf1, h⟩ := G.bind_eq_ok.1 h
  obtain ⟨f2, hf2, h⟩ := G.bind_eq_ok.1 h
  obtain ⟨f1', h1, rfl⟩ := fromHead64 hP hf1
  obtain ⟨f2', h2, rfl⟩ := fromHead64 hm hf2
  have e : (leaves.map BitVec.toNat).map (2 * ·) = (leaves.map (2#64 * ·)).map BitVec.toNat := by
    rw [List.map_map, List.map_map]
    refine List.map_congr_left fun x hx => ?_
    have := hl x hx
    show 2 * x.toNat = (2#64 * x).toNat
    rw [BitVec.toNat_mul]
    simp only [BitVec.toNat_ofNat]
    omega
  rw [e, ← List.map_append, ← List.map_append, ← sortDedup64_eq, ← root64_eq hn] at h
  rw [batchCopath64_def]
  rw [h1, G.ok_bind, h2, G.ok_bind]
  exact batchCopathAux64_ok h0 hn _ _ _ _ _ (by rw [root64_eq hn]; exact root_lt h0 hn) h

theorem chunkLoop64_ok : ∀ (fuel : Nat) (x : BitVec 64) (q : Nat), x.toNat < 2 ^ 64 - 1 → chunkLoop fuel x.toNat = .ok q →
    ∃ y, chunkLoop64 fuel x = .ok y ∧ y.toNat = q := by
  intro fuel
  induction fuel with
  | zero => intro x q _ h; cases h
  | succ f ih =>
    intro x q hx h
    unfold chunkLoop at h
    unfold chunkLoop64
    rw [level64_eq]
    by_cases hc : level x.toNat % 4 ≠ 3
    · rw [if_pos hc, ← parentStep64_eq hx] at h
      rw [if_pos hc]
      refine ih _ _ ?_ h
      rw [parentStep64_eq hx]
      have hk := level_le hx
      have hlt := (parentStep64 x).isLt
      rw [parentStep64_eq hx] at hlt
      obtain ⟨K, i, e⟩ := exists_idx x.toNat
      rw [e, level_idx] at hk hc
      rw [e, parentStep_idx] at hlt ⊢
      by_contra h1
      have h2 : level (idx (K + 1) (i / 2)) = 64 := by
        have : idx (K + 1) (i / 2) = idx 64 0 := by unfold idx at h1 hlt ⊢; omega
        rw [this, level_idx]
      rw [level_idx] at h2
      have : K = 63 := by omega
      subst this
      exact hc rfl
    · rw [if_neg hc] at h
      rw [if_neg hc]
      cases h
      exact ⟨x, rfl, rfl⟩

end Katie.LogMath
