import Verif.Lemmas.Log

/-
The stateless `Append` computes the heads of the extended log.
-/

namespace Katie.Log
open Katie Katie.LogMath Katie.LogSpec

/-- the level-`k` entry of the binary decomposition of `s` leaves from `lo` on -/
def bitBlk (lo s k : Nat) : Option (Nat × Nat) :=
  if s.testBit k then some (lo + 2 ^ k * (s / 2 ^ k - 1), 2 ^ k) else none

theorem testBit_top {s K : Nat} (h1 : 2 ^ K ≤ s) (h2 : s < 2 ^ (K+1)) : s.testBit K = true := by
  rw [Nat.testBit_eq_decide_div_mod_eq]
  have : s / 2 ^ K = 1 := by
    rw [Nat.div_eq_iff (Nat.two_pow_pos _)]
    rw [pow_succ] at h2; omega
  simp [this]

theorem testBit_sub_top {s K k : Nat} (h1 : 2 ^ K ≤ s) (h2 : s < 2 ^ (K+1)) (hk : k < K) :
    s.testBit k = (s - 2 ^ K).testBit k := by
  obtain ⟨t, rfl⟩ : ∃ t, s = 2 ^ K + t := ⟨s - 2 ^ K, by omega⟩
  have ht : t < 2 ^ K := by rw [pow_succ] at h2; omega
  have := Nat.testBit_two_pow_mul_add 1 ht k
  rw [Nat.mul_one] at this
  rw [this, if_pos hk]
  congr 1; omega

theorem bitBlk_sub_top {lo s K k : Nat} (h1 : 2 ^ K ≤ s) (h2 : s < 2 ^ (K+1)) (hk : k < K) :
    bitBlk lo s k = bitBlk (lo + 2 ^ K) (s - 2 ^ K) k := by
  unfold bitBlk
  rw [testBit_sub_top h1 h2 hk]
  by_cases hb : (s - 2 ^ K).testBit k = true
  · rw [if_pos hb, if_pos hb]
    congr 2
    obtain ⟨d, rfl⟩ : ∃ d, K = k + d := ⟨K - k, by omega⟩
    have e : s / 2 ^ k = 2 ^ d + (s - 2 ^ (k+d)) / 2 ^ k := by
      conv_lhs => rw [show s = (s - 2 ^ (k + d)) + 2 ^ k * 2 ^ d by rw [← pow_add]; omega]
      rw [Nat.add_mul_div_left _ _ (Nat.two_pow_pos _)]; ring
    have hpos : 1 ≤ (s - 2 ^ (k+d)) / 2 ^ k := by
      rw [Nat.one_le_div_iff (Nat.two_pow_pos _)]
      exact Nat.ge_two_pow_of_testBit hb
    rw [e, Nat.add_sub_assoc hpos, Nat.mul_add, ← pow_add]; ring
  · rw [if_neg hb, if_neg hb]

theorem filterMap_congr' {α β : Type} {f g : α → Option β} {l : List α} (h : ∀ a ∈ l, f a = g a) :
    l.filterMap f = l.filterMap g := by
  induction l with
  | nil => rfl
  | cons a l ih =>
    simp only [List.filterMap_cons, h a (by simp)]
    rw [ih (fun b hb => h b (by simp [hb]))]

theorem fsList_bits : ∀ (len lo s : Nat), 0 < s → s < 2 ^ len →
    fsList lo s = (List.range len).reverse.filterMap (bitBlk lo s) := by
  intro len
  induction len with
  | zero => intro lo s h1 h2; simp at h2; omega
  | succ K ih =>
    intro lo s h1 h2
    rw [List.range_succ, List.reverse_append, List.reverse_singleton, List.singleton_append]
    by_cases hs : s < 2 ^ K
    · have hb : bitBlk lo s K = none := by
        unfold bitBlk
        rw [Nat.testBit_lt_two_pow hs]; simp
      rw [List.filterMap_cons_none hb]
      exact ih lo s h1 hs
    · have hge : 2 ^ K ≤ s := by omega
      have hb : bitBlk lo s K = some (lo, 2 ^ K) := by
        unfold bitBlk
        rw [if_pos (testBit_top hge h2)]
        have : s / 2 ^ K = 1 := by
          rw [Nat.div_eq_iff (Nat.two_pow_pos _)]
          rw [pow_succ] at h2; omega
        simp [this]
      rw [List.filterMap_cons_some hb]
      have hcongr : (List.range K).reverse.filterMap (bitBlk lo s)
          = (List.range K).reverse.filterMap (bitBlk (lo + 2 ^ K) (s - 2 ^ K)) := by
        apply filterMap_congr'
        intro k hk
        exact bitBlk_sub_top hge h2 (by simpa using hk)
      rw [hcongr]
      by_cases he : s = 2 ^ K
      · have hz : (List.range K).reverse.filterMap (bitBlk (lo + 2 ^ K) (s - 2 ^ K)) = [] := by
          rw [List.filterMap_eq_nil_iff]
          intro k _
          simp [bitBlk, he]
        rw [hz, fsList_full (by rw [he, ht_two_pow]), he]
      · have hht : ht s = K + 1 := ht_unique (by omega) (by rw [pow_succ]; omega)
        have h2s : 2 ≤ s := by have := Nat.one_le_two_pow (n := K); omega
        have hh : half s = 2 ^ K := by rw [half_eq h2s, hht]; simp
        rw [fsList_part h2s (by rw [hht]; omega), hh]
        rw [← ih (lo + 2 ^ K) (s - 2 ^ K) (by omega) (by rw [pow_succ] at h2; omega)]

/-- value at level `k` of the binary decomposition of the log `L` -/
def bitVal (H : Bytes → Bytes) (L : List Bytes) (n k : Nat) : Option Bytes :=
  (bitBlk 0 n k).map fun p => (blk H L p.1 p.2).value

theorem map_set_replicate {α : Type} (j : Nat) (v : α) (tail : List (Option α)) :
    (List.replicate (j+1) none ++ tail).set j (some v) = List.replicate j none ++ (some v :: tail) := by
  rw [List.replicate_succ', List.append_assoc]
  rw [List.set_append_right _ _ (by simp)]
  simp

theorem fillChain_bits {H : Bytes → Bytes} {L : List Bytes} {n : Nat} (hn : n ≤ L.length) :
    ∀ (j : Nat) (tail : List (Option Bytes)),
    fillChain (List.replicate j none ++ tail)
      (((List.range j).reverse.filterMap (bitBlk 0 n)).map fun p => nd p.1 p.2)
      (((List.range j).reverse.filterMap (bitBlk 0 n)).map fun p => (blk H L p.1 p.2).value)
    = .ok ((List.range j).map (bitVal H L n) ++ tail) := by
  intro j
  induction j with
  | zero => intro tail; simp [fillChain]
  | succ j ih =>
    intro tail
    rw [List.range_succ, List.reverse_append, List.reverse_singleton, List.singleton_append]
    by_cases hb : n.testBit j = true
    · have hbb : bitBlk 0 n j = some (2 ^ j * (n / 2 ^ j - 1), 2 ^ j) := by simp [bitBlk, hb]
      have hge : 2 ^ j ≤ n := Nat.ge_two_pow_of_testBit hb
      have hdiv : 1 ≤ n / 2 ^ j := by rw [Nat.one_le_div_iff (Nat.two_pow_pos _)]; exact hge
      rw [List.filterMap_cons_some hbb]
      simp only [List.map_cons, fillChain]
      have hlev : level (nd (2 ^ j * (n / 2 ^ j - 1)) (2 ^ j)) = j := by
        rw [nd_eq_idx (s := 2 ^ j) (n / 2 ^ j - 1) (by rw [ht_two_pow]), level_idx, ht_two_pow]
      rw [hlev, if_pos (by simp; omega), map_set_replicate, ih]
      simp [bitVal, hbb]
    · have hbb : bitBlk 0 n j = none := by simp [bitBlk, hb]
      rw [List.filterMap_cons_none hbb, List.replicate_succ', List.append_assoc, ih]
      simp [bitVal, hbb]

theorem div_succ_of_mod {n k : Nat} (h : n % 2 ^ k = 2 ^ k - 1) : (n + 1) / 2 ^ k = n / 2 ^ k + 1 := by
  have hp := Nat.two_pow_pos k
  have e := Nat.div_add_mod n (2 ^ k)
  have : n + 1 = 2 ^ k * (n / 2 ^ k + 1) := by rw [Nat.mul_add]; omega
  rw [this, Nat.mul_div_cancel_left _ hp]

theorem div_succ_of_mod_ne {n k : Nat} (h : n % 2 ^ k ≠ 2 ^ k - 1) : (n + 1) / 2 ^ k = n / 2 ^ k := by
  have hp := Nat.two_pow_pos k
  have e := Nat.div_add_mod n (2 ^ k)
  have hm := Nat.mod_lt n hp
  rw [Nat.div_eq_iff hp]
  have : n / 2 ^ k * 2 ^ k = 2 ^ k * (n / 2 ^ k) := Nat.mul_comm _ _
  omega

theorem mod_succ_pow {n k : Nat} : n % 2 ^ (k+1) = n % 2 ^ k + 2 ^ k * (n / 2 ^ k % 2) := by
  rw [pow_succ, Nat.mod_mul]

theorem carryLoop_bits {cs : Suite} (hcs : cs.Good) {L : List Bytes} (x : Bytes)
    (hL : ∀ v ∈ L ++ [x], v.length = cs.hashSize) :
    ∀ (m k : Nat), L.length % 2 ^ k = 2 ^ k - 1 → (∃ j, k ≤ j ∧ j < k + m ∧ L.length.testBit j = false) →
    carryLoop cs k ((List.range' k m).map (bitVal cs.H L L.length))
      (toND (blk cs.H (L ++ [x]) (2 ^ k * (L.length / 2 ^ k)) (2 ^ k)))
    = .ok ((List.range' k m).map (bitVal cs.H (L ++ [x]) (L.length + 1))) := by
  intro m
  induction m with
  | zero => intro k _ ⟨j, h1, h2, _⟩; omega
  | succ m ih =>
    intro k hmod hz
    set n := L.length with hn
    have hp := Nat.two_pow_pos k
    have hdm := Nat.div_add_mod n (2 ^ k)
    rw [List.range'_succ]
    simp only [List.map_cons]
    by_cases hb : n.testBit k = true
    · -- carry continues
      have hge : 2 ^ k ≤ n := Nat.ge_two_pow_of_testBit hb
      have hdiv : 1 ≤ n / 2 ^ k := by rw [Nat.one_le_div_iff hp]; exact hge
      have hodd : n / 2 ^ k % 2 = 1 := by
        rw [Nat.testBit_eq_decide_div_mod_eq] at hb; simpa using hb
      have hbv : bitVal cs.H L n k = some (blk cs.H L (2 ^ k * (n / 2 ^ k - 1)) (2 ^ k)).value := by
        simp [bitVal, bitBlk, hb]
      rw [hbv]
      simp only [carryLoop]
      have hdd : n / 2 ^ (k+1) = n / 2 ^ k / 2 := by rw [pow_succ, Nat.div_div_eq_div_mul]
      have hq : n / 2 ^ k = 2 * (n / 2 ^ (k+1)) + 1 := by omega
      have hlo : 2 ^ k * (n / 2 ^ k - 1) = 2 ^ (k+1) * (n / 2 ^ (k+1)) := by
        rw [hq, pow_succ]; simp; ring
      have hle : 2 ^ k * (n / 2 ^ k - 1) + 2 ^ k ≤ n := by
        have : 2 ^ k * (n / 2 ^ k - 1) + 2 ^ k = 2 ^ k * (n / 2 ^ k) := by
          conv_rhs => rw [show n / 2 ^ k = (n / 2 ^ k - 1) + 1 by omega]
          ring
        omega
      have hleaf : (⟨k == 0, (blk cs.H L (2 ^ k * (n / 2 ^ k - 1)) (2 ^ k)).value⟩ : NodeData)
          = toND (blk cs.H (L ++ [x]) (2 ^ (k+1) * (n / 2 ^ (k+1))) (half (2 ^ (k+1)))) := by
        rw [half_two_pow, ← hlo, blk_append _ hle]
        unfold toND
        rw [blk_leaf _ hp hle]
        congr 1
        match k with
        | 0 => simp
        | k+1 =>
          have h1 : ¬ 2 ^ (k+1) ≤ 1 := by rw [pow_succ]; have := Nat.two_pow_pos k; omega
          simp [h1]
      have hcar : blk cs.H (L ++ [x]) (2 ^ k * (n / 2 ^ k)) (2 ^ k)
          = blk cs.H (L ++ [x]) (2 ^ (k+1) * (n / 2 ^ (k+1)) + half (2 ^ (k+1))) (2 ^ (k+1) - half (2 ^ (k+1))) := by
        rw [half_two_pow]
        congr 1
        · conv_lhs => rw [hq]
          rw [pow_succ]; ring
        · rw [pow_succ]; omega
      have hmod' : n % 2 ^ (k+1) = 2 ^ (k+1) - 1 := by
        rw [mod_succ_pow, hodd, hmod, pow_succ]; omega
      have hdm' := Nat.div_add_mod n (2 ^ (k+1))
      have hp' := Nat.two_pow_pos (k+1)
      rw [hleaf, hcar, treeHash_blk hcs hL (by rw [pow_succ]; omega) (by simp only [List.length_append, List.length_singleton]; omega), G.ok_bind]
      rw [ih (k+1) hmod' (by
        obtain ⟨j, h1, h2, h3⟩ := hz
        refine ⟨j, ?_, by omega, h3⟩
        rcases Nat.eq_or_lt_of_le h1 with h | h
        · subst h; rw [hb] at h3; simp at h3
        · omega)]
      have : bitVal cs.H (L ++ [x]) (n + 1) k = none := by
        have : (n+1).testBit k = false := by
          rw [Nat.testBit_eq_decide_div_mod_eq, div_succ_of_mod hmod]
          simp; omega
        simp [bitVal, bitBlk, this]
      rw [this]; rfl
    · -- carry stops here
      have hb' : n.testBit k = false := by simpa using hb
      have heven : n / 2 ^ k % 2 = 0 := by
        rw [Nat.testBit_eq_decide_div_mod_eq] at hb'; simp at hb'; omega
      have hbv : bitVal cs.H L n k = none := by simp [bitVal, bitBlk, hb']
      rw [hbv]
      simp only [carryLoop, G.pure_eq, Except.ok.injEq]
      have h1 : bitVal cs.H (L ++ [x]) (n+1) k
          = some (blk cs.H (L ++ [x]) (2 ^ k * (n / 2 ^ k)) (2 ^ k)).value := by
        have : (n+1).testBit k = true := by
          rw [Nat.testBit_eq_decide_div_mod_eq, div_succ_of_mod hmod]
          simp; omega
        simp [bitVal, bitBlk, this, div_succ_of_mod hmod]
      rw [h1]
      congr 1
      apply List.map_congr_left
      intro j hj
      rw [List.mem_range'_1] at hj
      have hne : ∀ j, k + 1 ≤ j → n % 2 ^ j ≠ 2 ^ j - 1 := by
        intro j hj hc
        have hm : n % 2 ^ (k+1) = 2 ^ k - 1 := by rw [mod_succ_pow, heven, hmod]; simp
        have : n % 2 ^ j % 2 ^ (k+1) = n % 2 ^ (k+1) := Nat.mod_mod_of_dvd _ (pow_dvd_pow _ hj)
        rw [hc, hm] at this
        obtain ⟨d, rfl⟩ : ∃ d, j = k + 1 + d := ⟨j - (k+1), by omega⟩
        have h2d := Nat.two_pow_pos d
        have e : 2 ^ (k + 1 + d) - 1 = 2 ^ (k+1) * (2 ^ d - 1) + (2 ^ (k+1) - 1) := by
          have hp' := Nat.two_pow_pos (k+1)
          rw [pow_add]
          have : 2 ^ (k+1) * 2 ^ d = 2 ^ (k+1) * (2 ^ d - 1) + 2 ^ (k+1) := by
            conv_lhs => rw [show 2 ^ d = (2 ^ d - 1) + 1 by omega]
            ring
          omega
        rw [e, Nat.mul_add_mod, Nat.mod_eq_of_lt (by have := Nat.two_pow_pos (k+1); omega)] at this
        rw [pow_succ] at this
        omega
      have hj' := hne j (by omega)
      have htb : (n+1).testBit j = n.testBit j := by
        rw [Nat.testBit_eq_decide_div_mod_eq, Nat.testBit_eq_decide_div_mod_eq, div_succ_of_mod_ne hj']
      unfold bitVal bitBlk
      rw [htb, div_succ_of_mod_ne hj']
      by_cases hbj : n.testBit j = true
      · simp only [hbj, if_true, Option.map_some, Nat.zero_add]
        have hge : 2 ^ j ≤ n := Nat.ge_two_pow_of_testBit hbj
        have hpj := Nat.two_pow_pos j
        have hdiv : 1 ≤ n / 2 ^ j := by rw [Nat.one_le_div_iff hpj]; exact hge
        have hdmj := Nat.div_add_mod n (2 ^ j)
        rw [blk_append]
        have : 2 ^ j * (n / 2 ^ j - 1) + 2 ^ j = 2 ^ j * (n / 2 ^ j) := by
          conv_rhs => rw [show n / 2 ^ j = (n / 2 ^ j - 1) + 1 by omega]
          ring
        omega
      · simp [hbj]

theorem reverse_filterMap_bits {H : Bytes → Bytes} {L : List Bytes} (len : Nat) (h0 : 0 < L.length)
    (h : L.length < 2 ^ len) :
    (((List.range len).map (bitVal H L L.length)).reverse.filterMap id) = heads H L := by
  rw [heads_eq H L h0, fsList_bits len 0 L.length h0 h, ← List.map_reverse, List.filterMap_map,
    List.map_filterMap]
  rfl

/-- The stateless append maps the heads of a log to the heads of the extended log. -/
theorem append_heads {cs : Suite} (hcs : cs.Good) {L : List Bytes} {x : Bytes}
    (hL : ∀ v ∈ L ++ [x], v.length = cs.hashSize) :
    append cs L.length (heads cs.H L) x = .ok (heads cs.H (L ++ [x])) := by
  unfold append
  by_cases h0 : L.length = 0
  · have : L = [] := List.length_eq_zero_iff.mp h0
    subst this
    simp [heads_small]
  · have hpos : 0 < L.length := by omega
    have hs := Sub.root (n := L.length) hpos
    simp only []
    rw [if_neg h0, root_eq hpos, fullSubtrees_eq hs, G.ok_bind, level_nd hs]
    set n := L.length with hn
    have hlt : n < 2 ^ (ht n + 1) := by
      have := le_two_pow_ht n
      have := Nat.two_pow_pos (ht n)
      rw [pow_succ]; omega
    have hlt2 : n + 1 < 2 ^ (ht n + 2) := by
      have := Nat.two_pow_pos (ht n)
      rw [pow_succ]; omega
    have hlt3 : n < 2 ^ (ht n + 2) := by omega
    have hfill := fillChain_bits (H := cs.H) (L := L) (n := n) (by omega) (ht n + 2) []
    rw [← fsList_bits (ht n + 2) 0 n hpos hlt3, List.append_nil, List.append_nil] at hfill
    rw [heads_eq _ _ hpos, hfill, G.ok_bind, List.range_eq_range']
    have hc := carryLoop_bits hcs x hL (ht n + 2) 0 (by simp [Nat.mod_one])
      ⟨ht n + 1, by omega, by omega, Nat.testBit_lt_two_pow hlt⟩
    have e : toND (blk cs.H (L ++ [x]) (2 ^ 0 * (L.length / 2 ^ 0)) (2 ^ 0)) = ⟨true, x⟩ := by
      simp only [pow_zero, Nat.div_one, Nat.one_mul]
      rw [blk_one _ (by simp)]
      simp [toND]
    rw [e] at hc
    rw [hc, G.ok_bind]
    have := reverse_filterMap_bits (H := cs.H) (L := L ++ [x]) (ht n + 2) (by simp) (by simp; omega)
    rw [List.range_eq_range', List.length_append, List.length_singleton] at this
    rw [this]; rfl

end Katie.Log
