import Verif.Model.Ladder
import Mathlib.Tactic.Ring
import Mathlib.Tactic.Linarith
import Mathlib.Data.Nat.Log
import Mathlib.Data.List.Basic

namespace Katie.Ladder
open Katie

/-- The ladder bisects `n`: lookups at or below `n` rise to `n`, lookups above fall to `n+1`. -/
structure Bisection (n : Nat) (l : List Nat) : Prop where
  low : (l.filter (fun v => v ≤ n)).Pairwise (· < ·)
  high : (l.filter (fun v => n < v)).Pairwise (· > ·)
  lowEnd : (l.filter (fun v => v ≤ n)).getLast? = some n
  highEnd : (l.filter (fun v => n < v)).getLast? = some (n + 1)

theorem bisect_ok {n : Nat} : ∀ (K fuel lo hi : Nat), lo ≤ n → n < hi → hi < 2 ^ 31 → hi = lo + 2 ^ K → K < fuel →
    ∃ l, bisect fuel n lo hi = .ok l ∧ l.length = K ∧
      (lo :: l.filter (fun v => v ≤ n)).Pairwise (· < ·) ∧ (hi :: l.filter (fun v => n < v)).Pairwise (· > ·) ∧
      (lo :: l.filter (fun v => v ≤ n)).getLast? = some n ∧ (hi :: l.filter (fun v => n < v)).getLast? = some (n + 1) ∧
      (∀ v ∈ l, lo < v ∧ v < hi) := by
  intro K
  induction K with
  | zero =>
    intro fuel lo hi h1 h2 h3 h4 hf
    obtain ⟨f, rfl⟩ : ∃ f, fuel = f + 1 := ⟨fuel - 1, by omega⟩
    refine ⟨[], ?_, rfl, by simp, by simp, ?_, ?_, by simp⟩
    · unfold bisect
      rw [if_neg (by simp at h4; omega)]; rfl
    · simp at h4 ⊢; omega
    · simp at h4 ⊢; omega
  | succ K ih =>
    intro fuel lo hi h1 h2 h3 h4 hf
    obtain ⟨f, rfl⟩ : ∃ f, fuel = f + 1 := ⟨fuel - 1, by omega⟩
    have e : 2 ^ (K + 1) = 2 * 2 ^ K := by ring
    have hp := Nat.two_pow_pos K
    have hlt : (lo + 1) % 2 ^ 32 < hi := by omega
    have hv : (lo + hi) % 2 ^ 32 / 2 = lo + 2 ^ K := by omega
    unfold bisect
    rw [if_pos hlt]
    simp only [hv]
    by_cases hc : lo + 2 ^ K ≤ n
    · obtain ⟨l, hl, hlen, p1, p2, g1, g2, hb⟩ := ih f (lo + 2 ^ K) hi hc h2 h3 (by omega) (by omega)
      rw [if_pos hc, hl]
      refine ⟨_, rfl, by simp [hlen], ?_, ?_, ?_, ?_, ?_⟩
      · rw [List.filter_cons_of_pos (by simpa using hc)]
        refine List.pairwise_cons.2 ⟨?_, p1⟩
        intro a ha
        rcases List.mem_cons.1 ha with rfl | ha
        · omega
        · have := (List.pairwise_cons.1 p1).1 a ha; omega
      · rw [List.filter_cons_of_neg (by simpa using hc)]; exact p2
      · rw [List.filter_cons_of_pos (by simpa using hc), List.getLast?_cons_cons]; exact g1
      · rw [List.filter_cons_of_neg (by simpa using hc)]; exact g2
      · intro v hv'
        rcases List.mem_cons.1 hv' with rfl | hv'
        · omega
        · have := hb v hv'; omega
    · obtain ⟨l, hl, hlen, p1, p2, g1, g2, hb⟩ := ih f lo (lo + 2 ^ K) h1 (by omega) (by omega) rfl (by omega)
      rw [if_neg hc, hl]
      refine ⟨_, rfl, by simp [hlen], ?_, ?_, ?_, ?_, ?_⟩
      · rw [List.filter_cons_of_neg (by simpa using hc)]; exact p1
      · rw [List.filter_cons_of_pos (by simpa using hc)]
        refine List.pairwise_cons.2 ⟨?_, p2⟩
        intro a ha
        rcases List.mem_cons.1 ha with rfl | ha
        · show _ > _; omega
        · have := (List.pairwise_cons.1 p2).1 a ha
          show _ > _; omega
      · rw [List.filter_cons_of_neg (by simpa using hc)]; exact g1
      · rw [List.filter_cons_of_pos (by simpa using hc), List.getLast?_cons_cons]; exact g2
      · intro v hv'
        rcases List.mem_cons.1 hv' with rfl | hv'
        · omega
        · have := hb v hv'; omega

/-- the values `2^j - 1` for `j < m`, from `len` on -/
def pows (len : Nat) : Nat → List Nat
  | 0 => []
  | m + 1 => (2 ^ len - 1) :: pows (len + 1) m

theorem rise_ok {n K : Nat} (h1 : 2 ^ K ≤ n + 1) (h2 : n + 1 < 2 ^ (K + 1)) (hK : K ≤ 30) :
    ∀ (m len fuel : Nat), len + m = K + 1 → m < fuel → rise fuel len n = .ok (pows len m ++ [2 ^ (K + 1) - 1]) := by
  intro m
  induction m with
  | zero =>
    intro len fuel hm hf
    obtain ⟨f, rfl⟩ : ∃ f, fuel = f + 1 := ⟨fuel - 1, by omega⟩
    have : len = K + 1 := by omega
    subst this
    unfold rise
    have hv : pow32 (K + 1) = 2 ^ (K + 1) - 1 := if_pos (by omega)
    simp only [hv]
    rw [if_pos (by omega)]; rfl
  | succ m ih =>
    intro len fuel hm hf
    obtain ⟨f, rfl⟩ : ∃ f, fuel = f + 1 := ⟨fuel - 1, by omega⟩
    have hle : 2 ^ len ≤ 2 ^ K := Nat.pow_le_pow_right (by norm_num) (by omega)
    unfold rise
    have hv : pow32 len = 2 ^ len - 1 := if_pos (by omega)
    simp only [hv]
    rw [if_neg (by have := Nat.two_pow_pos len; omega), ih (len + 1) f (by omega) (by omega)]
    rfl

theorem pows_length (m : Nat) : ∀ len, (pows len m).length = m := by
  induction m with
  | zero => intro len; rfl
  | succ m ih => intro len; simp [pows, ih]

theorem pows_ge (m : Nat) : ∀ len, ∀ v ∈ pows len m, 2 ^ len - 1 ≤ v ∧ v < 2 ^ (len + m) - 1 := by
  induction m with
  | zero => intro len v hv; simp [pows] at hv
  | succ m ih =>
    intro len v hv
    have h1 : 2 ^ len < 2 ^ (len + 1) := Nat.pow_lt_pow_right (by norm_num) (by omega)
    have h2 : 2 ^ (len + 1) ≤ 2 ^ (len + (m + 1)) := Nat.pow_le_pow_right (by norm_num) (by omega)
    have h0 := Nat.two_pow_pos len
    rcases List.mem_cons.1 hv with rfl | hv
    · omega
    · have := ih (len + 1) v hv
      rw [show len + 1 + m = len + (m + 1) by omega] at this
      omega

theorem pows_pairwise (m : Nat) : ∀ len, (pows len m).Pairwise (· < ·) := by
  induction m with
  | zero => intro len; simp [pows]
  | succ m ih =>
    intro len
    refine List.pairwise_cons.2 ⟨?_, ih _⟩
    intro a ha
    have h1 : 2 ^ len < 2 ^ (len + 1) := Nat.pow_lt_pow_right (by norm_num) (by omega)
    have h0 := Nat.two_pow_pos len
    have := pows_ge m _ a ha
    omega

theorem pows_succ (m : Nat) : ∀ len, pows len (m + 1) = pows len m ++ [2 ^ (len + m) - 1] := by
  induction m with
  | zero => intro len; simp [pows]
  | succ m ih =>
    intro len
    rw [pows, ih (len + 1), pows, show len + 1 + m = len + (m + 1) by omega]; rfl

/-- termination, bisection and length of the base ladder -/
theorem base_ok {n : Nat} (hn : n < 2 ^ 31 - 1) (fuel : Nat) (hf : 64 ≤ fuel) :
    ∃ l, baseLadderFuel fuel n = .ok l ∧ Bisection n l ∧ l.length ≤ 62 ∧ l.head? = some 0 ∧
      (∀ v ∈ l, v < 2 ^ 31) := by
  obtain ⟨K, k1, k2⟩ : ∃ K, 2 ^ K ≤ n + 1 ∧ n + 1 < 2 ^ (K + 1) :=
    ⟨Nat.log2 (n + 1), Nat.log2_self_le (by omega), Nat.lt_log2_self⟩
  have hK : K ≤ 30 := by
    have : 2 ^ K < 2 ^ 31 := by omega
    have := (Nat.pow_lt_pow_iff_right (a := 2) (by norm_num)).1 this
    omega
  have hKp := Nat.two_pow_pos K
  have e2 : 2 ^ (K + 1) = 2 * 2 ^ K := by ring
  have h31 : 2 ^ (K + 1) ≤ 2 ^ 31 := Nat.pow_le_pow_right (by norm_num) (by omega)
  have hr := rise_ok k1 k2 hK (K + 1) 0 fuel (by omega) (by omega)
  rw [pows_succ] at hr
  simp only [Nat.zero_add] at hr
  obtain ⟨l, hl, hlen, p1, p2, g1, g2, hb⟩ :=
    bisect_ok (n := n) K fuel (2 ^ K - 1) (2 ^ (K + 1) - 1) (by omega) (by omega) (by omega) (by omega) (by omega)
  have hlt : ∀ v ∈ pows 0 K, v < 2 ^ K - 1 := fun v hv => by have := pows_ge K 0 v hv; simpa using this.2
  refine ⟨(pows 0 K ++ [2 ^ K - 1] ++ [2 ^ (K + 1) - 1]) ++ l, ?_, ?_, ?_, ?_, ?_⟩
  · unfold baseLadderFuel
    rw [hr]
    simp only [G.ok_bind, List.reverse_append, List.reverse_cons, List.reverse_nil, List.nil_append,
      List.singleton_append, hl]
    rfl
  · have f1 : (pows 0 K).filter (fun v => v ≤ n) = pows 0 K := by
      rw [List.filter_eq_self]; intro v hv; have := hlt v hv; simp; omega
    have f2 : (pows 0 K).filter (fun v => n < v) = [] := by
      rw [List.filter_eq_nil_iff]; intro v hv; have := hlt v hv; simp; omega
    have q1 : ((pows 0 K ++ [2 ^ K - 1] ++ [2 ^ (K + 1) - 1]) ++ l).filter (fun v => v ≤ n) =
        pows 0 K ++ (2 ^ K - 1) :: l.filter (fun v => v ≤ n) := by
      rw [List.filter_append, List.filter_append, List.filter_append, f1,
        List.filter_cons_of_pos (by simp; omega), List.filter_cons_of_neg (by simp; omega)]
      simp
    have q2 : ((pows 0 K ++ [2 ^ K - 1] ++ [2 ^ (K + 1) - 1]) ++ l).filter (fun v => n < v) =
        (2 ^ (K + 1) - 1) :: l.filter (fun v => n < v) := by
      rw [List.filter_append, List.filter_append, List.filter_append, f2,
        List.filter_cons_of_neg (by simp; omega), List.filter_cons_of_pos (by simp; omega)]
      simp
    refine ⟨?_, ?_, ?_, ?_⟩
    · rw [q1]
      refine List.pairwise_append.2 ⟨pows_pairwise _ _, p1, ?_⟩
      intro a ha b hb'
      have := hlt a ha
      rcases List.mem_cons.1 hb' with rfl | hb'
      · exact this
      · have := hb b (List.mem_filter.1 hb').1; omega
    · rw [q2]; exact p2
    · rw [q1, List.getLast?_append_of_ne_nil _ (by simp)]; exact g1
    · rw [q2]; exact g2
  · simp [pows_length, hlen]; omega
  · cases K <;> simp [pows]
  · intro v hv
    simp only [List.mem_append, List.mem_singleton] at hv
    rcases hv with ((hv | rfl) | rfl) | hv
    · have := hlt v hv; omega
    · omega
    · omega
    · have := hb v hv; omega

theorem baseBinaryLadder_ok {n : Nat} (hn : n < 2 ^ 31 - 1) :
    ∃ l, baseBinaryLadder n = .ok l ∧ Bisection n l ∧ l.length ≤ 62 ∧ l.head? = some 0 ∧
      (∀ v ∈ l, v < 2 ^ 31) := base_ok hn 64 (le_refl _)

theorem bisect_diverges {n : Nat} (hn : 2 ^ 31 - 1 ≤ n) :
    ∀ (fuel j : Nat), j ≤ 31 → bisect fuel n (2 ^ j - 1) (2 ^ 32 - 1) = .error .diverge := by
  intro fuel
  induction fuel with
  | zero => intro j _; rfl
  | succ f ih =>
    intro j hj
    have hle : 2 ^ j ≤ 2 ^ 31 := Nat.pow_le_pow_right (by norm_num) hj
    have hp := Nat.two_pow_pos j
    unfold bisect
    rw [if_pos (by omega)]
    rcases j with _ | j
    · have : (2 ^ 0 - 1 + (2 ^ 32 - 1)) % 2 ^ 32 / 2 = 2 ^ 31 - 1 := by decide
      simp only [this]
      rw [if_pos hn, ih 31 (by omega)]; rfl
    · have e : 2 ^ (j + 1) = 2 * 2 ^ j := by ring
      have hpj := Nat.two_pow_pos j
      have : (2 ^ (j + 1) - 1 + (2 ^ 32 - 1)) % 2 ^ 32 / 2 = 2 ^ j - 1 := by omega
      simp only [this]
      rw [if_pos (by omega), ih j (by omega)]; rfl

theorem rise_diverges : ∀ (fuel len : Nat), rise fuel len (2 ^ 32 - 1) = .error .diverge := by
  intro fuel
  induction fuel with
  | zero => intro len; rfl
  | succ f ih =>
    intro len
    unfold rise
    have : ¬ pow32 len > 2 ^ 32 - 1 := by
      unfold pow32
      split
      · have : 2 ^ len ≤ 2 ^ 32 := Nat.pow_le_pow_right (by norm_num) (by omega)
        omega
      · omega
    simp only [if_neg this, ih]; rfl

theorem rise_big {n : Nat} (h1 : 2 ^ 31 - 1 ≤ n) (h2 : n < 2 ^ 32 - 1) :
    ∀ (m len fuel : Nat), len + m = 32 → (fuel ≤ m ∧ rise fuel len n = .error .diverge) ∨
      (m < fuel ∧ rise fuel len n = .ok (pows len m ++ [2 ^ 32 - 1])) := by
  intro m
  induction m with
  | zero =>
    intro len fuel hm
    have : len = 32 := by omega
    subst this
    rcases fuel with _ | f
    · left; exact ⟨le_refl _, rfl⟩
    · right
      refine ⟨by omega, ?_⟩
      unfold rise
      have hv : pow32 32 = 2 ^ 32 - 1 := by decide
      simp only [hv]
      rw [if_pos (by omega)]; rfl
  | succ m ih =>
    intro len fuel hm
    rcases fuel with _ | f
    · left; exact ⟨by omega, rfl⟩
    · have hle : 2 ^ len ≤ 2 ^ 31 := Nat.pow_le_pow_right (by norm_num) (by omega)
      unfold rise
      have hv : pow32 len = 2 ^ len - 1 := if_pos (by omega)
      simp only [hv]
      rw [if_neg (by omega)]
      rcases ih (len + 1) f (by omega) with ⟨a, b⟩ | ⟨a, b⟩
      · left; rw [b]; exact ⟨by omega, rfl⟩
      · right; rw [b]; exact ⟨by omega, rfl⟩

theorem base_diverges {n : Nat} (h1 : 2 ^ 31 - 1 ≤ n) (h2 : n < 2 ^ 32) (fuel : Nat) :
    baseLadderFuel fuel n = .error .diverge := by
  unfold baseLadderFuel
  by_cases hn : n = 2 ^ 32 - 1
  · rw [hn, rise_diverges]; rfl
  · rcases rise_big h1 (by omega) 32 0 fuel (by omega) with ⟨-, h⟩ | ⟨-, h⟩
    · rw [h]; rfl
    · rw [h]
      rw [show (32 : Nat) = 31 + 1 from rfl, pows_succ]
      simp only [G.ok_bind, List.reverse_append, List.reverse_cons, List.reverse_nil, List.nil_append,
        List.singleton_append, Nat.zero_add]
      rw [bisect_diverges h1 fuel 31 (le_refl _)]; rfl

/-! ### walking and interpreting -/

/-- the comparison of the greatest version with the target -/
def cmp3 (g : Int) (t : Nat) : Int := if g < (t : Int) then -1 else if g > (t : Int) then 1 else 0

/-- lookup of `v` settles the comparison of `g` with the target -/
def stops (g : Int) (t : Nat) (v : Nat) : Bool := decide (((v : Int) ≤ g ∧ t < v) ∨ (g < (v : Int) ∧ v ≤ t))

/-- the ladder the server walks, for any (possibly negative) greatest version -/
def walk (g : Int) (t : Nat) (omitted : Nat → Bool) : List Nat → List Nat
  | [] => []
  | v :: rest =>
    if omitted v then (if stops g t v then [] else walk g t omitted rest)
    else v :: (if stops g t v then [] else walk g t omitted rest)

theorem searchLoop_walk (t g : Nat) (L R l : List Nat) :
    searchLoop t g L R l = walk (g : Int) t (fun v => L.contains v || R.contains v) l := by
  induction l with
  | nil => rfl
  | cons v rest ih =>
    unfold searchLoop walk
    simp only [ih]
    have hs : ((decide (v ≤ g) && decide (v > t)) || (decide (v > g) && decide (v ≤ t))) = stops (g : Int) t v := by
      unfold stops
      rw [Bool.eq_iff_iff]
      simp
    rw [hs]
    by_cases hk : (L.contains v || R.contains v) = true
    · simp only [hk, Bool.not_true, if_true]; rfl
    · simp only [hk, Bool.not_false, if_true]
      simp

theorem searchLoop_self (t : Nat) (L R l : List Nat) :
    searchLoop t t L R l = l.filter (fun v => !(L.contains v || R.contains v)) := by
  induction l with
  | nil => rfl
  | cons v rest ih =>
    unfold searchLoop
    have : ((decide (v ≤ t) && decide (v > t)) || (decide (v > t) && decide (v ≤ t))) = false := by
      by_cases h : v ≤ t <;> simp [h] <;> omega
    simp only [this, ih, List.filter_cons]
    simp

theorem walk_length_le (g : Int) (t : Nat) (om : Nat → Bool) (l : List Nat) :
    (walk g t om l).length ≤ (l.filter (fun v => !om v)).length := by
  induction l with
  | nil => simp [walk]
  | cons v rest ih =>
    unfold walk
    by_cases h : om v
    · simp only [h, if_true, Bool.not_true, Bool.false_eq_true, List.filter_cons, if_false]
      split
      · simp
      · exact ih
    · simp only [h, List.filter_cons, Bool.not_false, if_true, Bool.false_eq_true, if_false, List.length_cons]
      split
      · simp
      · omega

/-- what the server walks is a prefix of what the client expects -/
theorem walk_prefix (g : Int) (t : Nat) (om : Nat → Bool) (l : List Nat) :
    walk g t om l <+: l.filter (fun v => !om v) := by
  induction l with
  | nil => simp [walk]
  | cons v rest ih =>
    unfold walk
    by_cases h : om v
    · simp only [h, if_true, Bool.not_true, Bool.false_eq_true, List.filter_cons, if_false]
      split
      · simp
      · exact ih
    · simp only [h, List.filter_cons, Bool.not_false, if_true, Bool.false_eq_true, if_false]
      rw [List.prefix_cons_inj]
      split
      · simp
      · exact ih

/-- the loop of the interpretation gives the comparison -/
theorem interpret_walk (g : Int) (t : Nat) (om : Nat → Bool) (l : List Nat)
    (hom : ∀ v, om v = true → stops g t v = false) :
    interpretLoop t (l.filter (fun v => !om v)) ((walk g t om l).map (fun (v : Nat) => decide ((v : Int) ≤ g))) =
      .ok (if ∃ v ∈ l, stops g t v = true then cmp3 g t else 0) := by
  induction l with
  | nil => simp [walk, interpretLoop]
  | cons v rest ih =>
    unfold walk
    by_cases h : om v
    · have hs := hom v h
      simp only [h, if_true, Bool.not_true, Bool.false_eq_true, List.filter_cons, if_false, hs, ih]
      simp [hs]
    · simp only [h, List.filter_cons, Bool.not_false, if_true, Bool.false_eq_true, if_false]
      by_cases hs : stops g t v
      · simp only [hs, if_true, List.map_cons, List.map_nil, interpretLoop]
        have hex : ∃ v' ∈ v :: rest, stops g t v' = true := ⟨v, by simp, hs⟩
        rw [if_pos hex]
        unfold stops at hs
        simp only [decide_eq_true_eq] at hs
        unfold cmp3
        rcases hs with ⟨h1, h2⟩ | ⟨h1, h2⟩
        · have a1 : ¬ g < (t : Int) := by omega
          have a2 : g > (t : Int) := by omega
          simp [h1, h2, a1, a2]
        · have a1 : g < (t : Int) := by omega
          have a2 : ¬ (v : Int) ≤ g := by omega
          have a3 : ¬ v > t := by omega
          simp [h2, a1, a2]
      · simp only [hs, Bool.false_eq_true, if_false, List.map_cons, interpretLoop]
        have hns : ¬ (((v : Int) ≤ g ∧ t < v) ∨ (g < (v : Int) ∧ v ≤ t)) := by
          intro hh; apply hs; unfold stops; simpa using hh
        have c1 : (decide ((v : Int) ≤ g) && decide (v > t)) = false := by
          by_contra hh
          simp only [Bool.not_eq_false, Bool.and_eq_true, decide_eq_true_eq] at hh
          exact hns (Or.inl hh)
        have c2 : (!decide ((v : Int) ≤ g) && decide (v ≤ t)) = false := by
          by_contra hh
          simp only [Bool.not_eq_false, Bool.and_eq_true, Bool.not_eq_true', decide_eq_false_iff_not, decide_eq_true_eq] at hh
          exact hns (Or.inr ⟨by omega, hh.2⟩)
        rw [c1, c2]
        simp only [Bool.false_eq_true, if_false]
        rw [ih]
        simp [hs]

theorem cmp3_of_bisection {g : Int} {t : Nat} {l : List Nat} (hb : Bisection t l) :
    (if ∃ v ∈ l, stops g t v = true then cmp3 g t else 0) = cmp3 g t := by
  split
  · rfl
  · next h =>
    have ht : t ∈ l := (List.mem_filter.1 (List.mem_of_getLast? hb.lowEnd)).1
    have ht1 : t + 1 ∈ l := (List.mem_filter.1 (List.mem_of_getLast? hb.highEnd)).1
    have h1 : ¬ stops g t t = true := fun hh => h ⟨t, ht, hh⟩
    have h2 : ¬ stops g t (t + 1) = true := fun hh => h ⟨t + 1, ht1, hh⟩
    unfold stops at h1 h2
    simp only [decide_eq_true_eq] at h1 h2
    unfold cmp3
    have a : ¬ g < (t : Int) := by
      intro hh; exact h1 (Or.inr ⟨hh, le_refl _⟩)
    have b : ¬ g > (t : Int) := by
      intro hh; apply h2; left; constructor
      · push_cast; omega
      · omega
    simp [a, b]

end Katie.Ladder
