import Verif.Model.Log
import Verif.Lemmas.LogMath

/-
Lemmas on the log tree: values of subtrees, stateless append, roll-up.
-/

namespace Katie.Log
open Katie Katie.LogMath Katie.LogSpec

/-- the cipher suite's digests have the declared, non-zero size -/
structure Suite.Good (cs : Suite) : Prop where
  pos : 0 < cs.hashSize
  len : ∀ x, (cs.H x).length = cs.hashSize

/-- value of the subtree over leaves `lo … lo+s-1` -/
def blk (H : Bytes → Bytes) (L : List Bytes) (lo s : Nat) : Val := merkle H ((L.drop lo).take s)

theorem merkle_one (H : Bytes → Bytes) (x : Bytes) : merkle H [x] = ⟨true, x⟩ := by
  unfold merkle; simp

theorem merkle_two (H : Bytes → Bytes) (L : List Bytes) (h : 2 ≤ L.length) :
    merkle H L = ⟨false, H ((merkle H (L.take (half L.length))).enc ++ (merkle H (L.drop (half L.length))).enc)⟩ := by
  conv_lhs => unfold merkle
  rw [dif_neg (by omega)]

theorem blk_one (H : Bytes → Bytes) {L : List Bytes} {lo : Nat} (h : lo < L.length) :
    blk H L lo 1 = ⟨true, L[lo]⟩ := by
  unfold blk
  rw [List.drop_eq_getElem_cons h, List.take_succ_cons, List.take_zero, merkle_one]

theorem blk_two (H : Bytes → Bytes) {L : List Bytes} {lo s : Nat} (hs : 2 ≤ s) (h : lo + s ≤ L.length) :
    blk H L lo s = ⟨false, H ((blk H L lo (half s)).enc ++ (blk H L (lo + half s) (s - half s)).enc)⟩ := by
  unfold blk
  have hl := half_lt hs
  have hlen : ((L.drop lo).take s).length = s := by simp; omega
  rw [merkle_two _ _ (by omega), hlen]
  simp only [List.take_take, List.drop_take, List.drop_drop]
  rw [min_eq_left (by omega)]

theorem blk_all (H : Bytes → Bytes) (L : List Bytes) : blk H L 0 L.length = merkle H L := by
  simp [blk]

theorem blk_leaf (H : Bytes → Bytes) {L : List Bytes} {lo s : Nat} (hs : 0 < s) (h : lo + s ≤ L.length) :
    (blk H L lo s).leaf = decide (s ≤ 1) := by
  by_cases h1 : s ≤ 1
  · have : s = 1 := by omega
    subst this
    rw [blk_one H (by omega)]; simp
  · rw [blk_two H (by omega) h]; simp [h1]

theorem blk_len {cs : Suite} (hcs : cs.Good) {L : List Bytes} (hL : ∀ v ∈ L, v.length = cs.hashSize)
    {lo s : Nat} (hs : 0 < s) (h : lo + s ≤ L.length) :
    (blk cs.H L lo s).value.length = cs.hashSize := by
  by_cases h1 : s ≤ 1
  · have : s = 1 := by omega
    subst this
    rw [blk_one _ (by omega)]; exact hL _ (List.getElem_mem _)
  · rw [blk_two _ (by omega) h]; exact hcs.len _

/-- subtree values do not depend on later leaves -/
theorem blk_prefix (H : Bytes → Bytes) {L : List Bytes} {lo s m : Nat} (h : lo + s ≤ m) :
    blk H (L.take m) lo s = blk H L lo s := by
  unfold blk
  rw [List.drop_take, List.take_take, min_eq_left (by omega)]

theorem blk_append (H : Bytes → Bytes) {L M : List Bytes} {lo s : Nat} (h : lo + s ≤ L.length) :
    blk H (L ++ M) lo s = blk H L lo s := by
  rw [← blk_prefix H (L := L ++ M) h]
  simp

/-- a spec value as model node -/
def toND (v : Val) : NodeData := ⟨v.leaf, v.value⟩

theorem marshal_toND {v : Val} (h : 0 < v.value.length) : (toND v).marshal = .ok v.enc := by
  unfold NodeData.marshal toND Val.enc
  rw [if_neg (by simp; intro h'; simp [h'] at h)]; rfl

theorem treeHash_toND {cs : Suite} {a b : Val} (ha : 0 < a.value.length) (hb : 0 < b.value.length) :
    treeHash cs (toND a) (toND b) = .ok ⟨false, cs.H (a.enc ++ b.enc)⟩ := by
  unfold treeHash
  rw [marshal_toND ha, marshal_toND hb]; rfl

theorem treeHash_blk {cs : Suite} (hcs : cs.Good) {L : List Bytes} (hL : ∀ v ∈ L, v.length = cs.hashSize)
    {lo s : Nat} (hs : 2 ≤ s) (h : lo + s ≤ L.length) :
    treeHash cs (toND (blk cs.H L lo (half s))) (toND (blk cs.H L (lo + half s) (s - half s)))
      = .ok (toND (blk cs.H L lo s)) := by
  have hl := half_lt hs
  have hp := half_pos s
  rw [treeHash_toND, blk_two cs.H hs h]; rfl
  · rw [blk_len hcs hL hp (by omega)]; exact hcs.pos
  · rw [blk_len hcs hL (by omega) (by omega)]; exact hcs.pos

theorem heads_small (H : Bytes → Bytes) {L : List Bytes} (h : L.length ≤ 1) : heads H L = L := by
  unfold heads; rw [dif_pos h]

theorem heads_full (H : Bytes → Bytes) {L : List Bytes} (h : 2 ≤ L.length) (h2 : L.length = 2 * half L.length) :
    heads H L = [(merkle H L).value] := by
  unfold heads; rw [dif_neg (by omega), if_pos h2]

theorem heads_part (H : Bytes → Bytes) {L : List Bytes} (h : 2 ≤ L.length) (h2 : L.length ≠ 2 * half L.length) :
    heads H L = (merkle H (L.take (half L.length))).value :: heads H (L.drop (half L.length)) := by
  conv_lhs => unfold heads
  rw [dif_neg (by omega), if_neg h2]

/-- `heads` lists the values of the maximal complete subtrees -/
theorem heads_slice (H : Bytes → Bytes) : ∀ (s lo : Nat) (L : List Bytes), 0 < s → lo + s ≤ L.length →
    heads H ((L.drop lo).take s) = (fsList lo s).map (fun p => (blk H L p.1 p.2).value) := by
  intro s
  induction s using Nat.strong_induction_on with
  | _ s ih =>
    intro lo L hs h
    have hlen : ((L.drop lo).take s).length = s := by simp; omega
    unfold fsList
    by_cases h1 : s ≤ 1
    · have : s = 1 := by omega
      subst this
      rw [heads_small H (by omega), List.drop_eq_getElem_cons (by omega), List.take_succ_cons, List.take_zero]
      simp [blk_one H (show lo < L.length by omega)]
    · have hl := half_lt (s := s) (by omega)
      have hp := half_pos s
      simp only [h1, dite_false]
      by_cases h2 : s = 2 * half s
      · rw [if_pos h2, heads_full H (by omega) (by rw [hlen]; exact h2)]; simp [blk]
      · rw [if_neg h2, heads_part H (by omega) (by rw [hlen]; exact h2), hlen]
        simp only [List.map_cons, List.take_take, List.drop_take, List.drop_drop]
        rw [ih (s - half s) (by omega) (lo + half s) L (by omega) (by omega), min_eq_left (by omega)]
        rfl

theorem heads_eq (H : Bytes → Bytes) (L : List Bytes) (h : 0 < L.length) :
    heads H L = (fsList 0 L.length).map (fun p => (blk H L p.1 p.2).value) := by
  rw [← heads_slice H L.length 0 L h (by omega)]; simp

theorem heads_take (H : Bytes → Bytes) (L : List Bytes) {m : Nat} (h : 0 < m) (hm : m ≤ L.length) :
    heads H (L.take m) = (fsList 0 m).map (fun p => (blk H L p.1 p.2).value) := by
  rw [← heads_slice H m 0 L h (by omega)]; simp

theorem fsList_ne_nil (lo s : Nat) : fsList lo s ≠ [] := by
  unfold fsList; split <;> simp; split <;> simp

/-- every listed subtree lies inside and is a complete subtree -/
theorem fsList_mem {n : Nat} : ∀ (s lo : Nat), Sub n lo s → ∀ p ∈ fsList lo s,
    Sub n p.1 p.2 ∧ p.2 = 2 ^ ht p.2 ∧ lo ≤ p.1 ∧ p.1 + p.2 ≤ lo + s := by
  intro s
  induction s using Nat.strong_induction_on with
  | _ s ih =>
    intro lo h p hp
    unfold fsList at hp
    by_cases h1 : s ≤ 1
    · simp only [h1, dite_true, List.mem_singleton] at hp
      subst hp
      have := h.pos
      have : s = 1 := by omega
      subst this
      exact ⟨h, by simp [ht], by simp, by simp⟩
    · have hs : 2 ≤ s := by omega
      have hl := half_lt hs
      have hpp := half_pos s
      simp only [h1, dite_false] at hp
      by_cases h2 : s = 2 * half s
      · rw [if_pos h2, List.mem_singleton] at hp
        subst hp
        exact ⟨h, (full_iff hs).mpr h2, by simp, by simp⟩
      · rw [if_neg h2] at hp
        rcases List.mem_cons.mp hp with hp | hp
        · subst hp
          exact ⟨h.left hs, by simp [half_eq hs, ht_two_pow], by simp, by simp; omega⟩
        · obtain ⟨a, b, c, d⟩ := ih (s - half s) (by omega) _ (h.right hs) p hp
          exact ⟨a, b, by omega, by omega⟩

theorem fsList_full {lo s : Nat} (hs : s = 2 ^ ht s) : fsList lo s = [(lo, s)] := by
  unfold fsList
  by_cases h1 : s ≤ 1
  · simp [h1]
  · simp only [h1, dite_false]
    rw [if_pos ((full_iff (by omega)).mp hs)]

theorem fsList_part {lo s : Nat} (h2 : 2 ≤ s) (hs : s ≠ 2 ^ ht s) :
    fsList lo s = (lo, half s) :: fsList (lo + half s) (s - half s) := by
  conv_lhs => unfold fsList
  rw [dif_neg (by omega), if_neg (fun h => hs ((full_iff h2).mpr h))]

/-- roll-up of the heads of a subtree gives its value -/
theorem rollUp_fs {cs : Suite} (hcs : cs.Good) {L : List Bytes} (hL : ∀ v ∈ L, v.length = cs.hashSize) :
    ∀ (s lo : Nat), Sub L.length lo s →
    rollUp cs ((fsList lo s).map (fun p => toND (blk cs.H L p.1 p.2))) = .ok (toND (blk cs.H L lo s)) := by
  intro s
  induction s using Nat.strong_induction_on with
  | _ s ih =>
    intro lo h
    by_cases hf : s = 2 ^ ht s
    · rw [fsList_full hf]; rfl
    · have h2 : 2 ≤ s := by
        by_contra hlt
        have := h.pos
        have : s = 1 := by omega
        subst this; simp [ht] at hf
      have hl := half_lt h2
      have hp := half_pos s
      rw [fsList_part h2 hf]
      have hne := fsList_ne_nil (lo + half s) (s - half s)
      obtain ⟨q, qs, hq⟩ := List.exists_cons_of_ne_nil hne
      have ihr := ih (s - half s) (by omega) _ (h.right h2)
      rw [hq] at ihr ⊢
      simp only [List.map_cons] at ihr ⊢
      rw [rollUp, ihr, G.ok_bind, treeHash_blk hcs hL h2 h.le]
      simp

/-- leaf flags by node number agree with the specification's -/
theorem zip_fs {H : Bytes → Bytes} {L : List Bytes} {n lo s : Nat} (h : Sub n lo s) (hn : n ≤ L.length) :
    List.zipWith (fun x v => (⟨isLeaf x, v⟩ : NodeData)) ((fsList lo s).map fun p => nd p.1 p.2)
      ((fsList lo s).map (fun p => (blk H L p.1 p.2).value))
    = (fsList lo s).map (fun p => toND (blk H L p.1 p.2)) := by
  rw [List.zipWith_map, List.zipWith_self]
  apply List.map_congr_left
  intro p hp
  obtain ⟨a, b, c, d⟩ := fsList_mem s lo h p hp
  have := a.le
  rw [isLeaf_nd, ← blk_leaf H (L := L) (lo := p.1) a.pos (by omega)]; rfl

/-- `Root` of the heads is the Merkle root -/
theorem root_heads {cs : Suite} (hcs : cs.Good) {L : List Bytes} (hL : ∀ v ∈ L, v.length = cs.hashSize)
    (h0 : 0 < L.length) (hmax : L.length ≤ maxTreeSize) :
    root cs L.length (heads cs.H L) = .ok (rootHash cs.H L) := by
  have hs := Sub.root (n := L.length) h0
  unfold root
  rw [if_neg (by omega), root_eq h0, fullSubtrees_eq hs, G.ok_bind, heads_eq _ _ h0]
  rw [if_neg (by simp), if_neg, zip_fs hs (le_refl _), rollUp_fs hcs hL _ _ hs, blk_all]
  · rfl
  · simp only [not_not, List.all_map, List.all_eq_true, Function.comp]
    intro p hp
    obtain ⟨a, b, c, d⟩ := fsList_mem _ _ hs p hp
    simp [blk_len hcs hL a.pos a.le]

end Katie.Log
