import Verif.Model.SearchTree
import Verif.Spec.SearchTree
import Verif.Lemmas.LogMath

/- Lemmas relating the bit arithmetic of the search tree to the ranges of its specification. -/

namespace Katie.SearchTree
open Katie Katie.SearchSpec
open Katie.LogMath (isLeaf log2 level left rightStep parentStep idx level_idx left_idx left_leaf
  rightStep_idx parentStep_idx log2_eq exists_idx idx_inj isLeaf_iff)

/-- `[lo, hi)` is the range of node `idx k i` in the tree with `n` entries. -/
structure Rng (n lo hi k i : Nat) : Prop where
  hlo : lo = 2 ^ (k + 1) * i
  hx : lo + 2 ^ k ≤ n
  hhi : hi = min (lo + (2 ^ (k + 1) - 1)) n

theorem Rng.idx {n lo hi k i : Nat} (h : Rng n lo hi k i) : LogMath.idx k i = lo + 2 ^ k - 1 := by
  have := h.hlo; have := Nat.two_pow_pos k
  unfold LogMath.idx; omega

theorem log2_spec {m : Nat} (hm : 0 < m) : 2 ^ Nat.log2 m ≤ m ∧ m < 2 ^ (Nat.log2 m + 1) :=
  ⟨Nat.log2_self_le (by omega), Nat.lt_log2_self⟩

theorem log2_uniq {m k : Nat} (h1 : 2 ^ k ≤ m) (h2 : m < 2 ^ (k + 1)) : Nat.log2 m = k := by
  have hm : 0 < m := lt_of_lt_of_le (Nat.two_pow_pos k) h1
  exact (Nat.log2_eq_iff (by omega)).2 ⟨h1, h2⟩

theorem Rng.rt {n lo hi k i : Nat} (h : Rng n lo hi k i) : rt lo hi = LogMath.idx k i := by
  have h1 := h.hx; have h2 := h.hhi; have := Nat.two_pow_pos k
  have e : 2 ^ (k + 1) = 2 * 2 ^ k := by ring
  have hk : Nat.log2 (hi - lo) = k := log2_uniq (by omega) (by omega)
  rw [SearchSpec.rt, hk, h.idx]

theorem Rng.bounds {n lo hi k i : Nat} (h : Rng n lo hi k i) :
    lo ≤ SearchSpec.rt lo hi ∧ SearchSpec.rt lo hi < hi ∧ hi ≤ n := by
  have h1 := h.hx; have h2 := h.hhi; have := Nat.two_pow_pos k
  have e : 2 ^ (k + 1) = 2 * 2 ^ k := by ring
  rw [h.rt, h.idx]
  omega

theorem Rng.root {n : Nat} (hn : 0 < n) : Rng n 0 n (Nat.log2 n) 0 := by
  have := log2_spec hn
  exact ⟨by simp, by omega, by omega⟩

theorem Rng.left {n lo hi k i : Nat} (h : Rng n lo hi k i) (hl : lo < SearchSpec.rt lo hi) :
    ∃ k', k = k' + 1 ∧ Rng n lo (SearchSpec.rt lo hi) k' (2 * i) := by
  rw [h.rt] at *
  have h1 := h.hx; have h2 := h.hhi; have h3 := h.hlo; have h4 := h.idx
  rcases k with _ | k
  · simp at h4; omega
  · have e : 2 ^ (k + 1 + 1) = 2 * 2 ^ (k + 1) := by ring
    have e' : 2 ^ (k + 1) = 2 * 2 ^ k := by ring
    have := Nat.two_pow_pos k
    refine ⟨k, rfl, ?_, by omega, by omega⟩
    rw [h3, e]; ring

theorem Rng.right {n lo hi k i : Nat} (h : Rng n lo hi k i) (hr : SearchSpec.rt lo hi + 1 < hi) :
    ∃ k' d, k = k' + 1 + d ∧ Rng n (SearchSpec.rt lo hi + 1) hi k' (2 ^ d * (2 * i + 1)) ∧
      (0 < d → hi = n ∧ n < SearchSpec.rt lo hi + 1 + 2 ^ (k' + 1)) := by
  rw [h.rt] at *
  have h1 := h.hx; have h2 := h.hhi; have h3 := h.hlo; have h4 := h.idx
  have hp := Nat.two_pow_pos k
  have e : 2 ^ (k + 1) = 2 * 2 ^ k := by ring
  have hm : 0 < hi - (LogMath.idx k i + 1) := by omega
  obtain ⟨l1, l2⟩ := log2_spec hm
  generalize hk' : Nat.log2 (hi - (LogMath.idx k i + 1)) = k' at l1 l2
  have hkk : k' < k := by
    have : 2 ^ k' < 2 ^ k := by omega
    exact (Nat.pow_lt_pow_iff_right (by norm_num)).1 this
  obtain ⟨d, rfl⟩ : ∃ d, k = k' + 1 + d := ⟨k - k' - 1, by omega⟩
  have hd : 2 ^ (k' + 1 + d) = 2 ^ (k' + 1) * 2 ^ d := by rw [pow_add]
  refine ⟨k', d, rfl, ⟨?_, by omega, ?_⟩, ?_⟩
  · rw [h4, h3, e]
    have : 2 * 2 ^ (k' + 1 + d) * i + 2 ^ (k' + 1 + d) - 1 + 1 = 2 * 2 ^ (k' + 1 + d) * i + 2 ^ (k' + 1 + d) := by omega
    rw [this, hd]; ring
  · rcases Nat.eq_zero_or_pos d with rfl | hdp
    · simp only [Nat.add_zero] at *
      omega
    · have : 2 * 2 ^ (k' + 1) ≤ 2 ^ (k' + 1 + d) := by
        rw [hd, Nat.mul_comm]
        exact Nat.mul_le_mul_left _ (by
          calc 2 = 2 ^ 1 := by norm_num
            _ ≤ 2 ^ d := Nat.pow_le_pow_right (by norm_num) hdp)
      have := Nat.two_pow_pos (k' + 1)
      omega
  · intro hdp
    have : 2 * 2 ^ (k' + 1) ≤ 2 ^ (k' + 1 + d) := by
      rw [hd, Nat.mul_comm]
      exact Nat.mul_le_mul_left _ (by
        calc 2 = 2 ^ 1 := by norm_num
          _ ≤ 2 ^ d := Nat.pow_le_pow_right (by norm_num) hdp)
    have := Nat.two_pow_pos (k' + 1)
    omega

theorem _root_.Katie.SearchSpec.At.rng {n lo hi : Nat} {anc : List Nat} (h : At n lo hi anc) :
    ∃ k i, Rng n lo hi k i := by
  induction h with
  | root hn => exact ⟨_, _, Rng.root hn⟩
  | left _ hl ih =>
    obtain ⟨k, i, r⟩ := ih
    obtain ⟨k', -, r'⟩ := r.left hl
    exact ⟨_, _, r'⟩
  | right _ hr ih =>
    obtain ⟨k, i, r⟩ := ih
    obtain ⟨k', d, -, r', -⟩ := r.right hr
    exact ⟨_, _, r'⟩

theorem _root_.Katie.SearchSpec.At.pos {n lo hi : Nat} {anc : List Nat} (h : At n lo hi anc) : 0 < n := by
  induction h <;> assumption

theorem _root_.Katie.SearchSpec.At.bounds {n lo hi : Nat} {anc : List Nat} (h : At n lo hi anc) :
    lo ≤ rt lo hi ∧ rt lo hi < hi ∧ hi ≤ n := by
  obtain ⟨k, i, r⟩ := h.rng
  exact r.bounds

/-- every entry of a subtree's range is the root of a subtree below it -/
theorem exists_at {n : Nat} : ∀ (m lo hi : Nat) (anc : List Nat), hi - lo ≤ m → At n lo hi anc →
    ∀ x, lo ≤ x → x < hi → ∃ lo' hi' anc', At n lo' hi' anc' ∧ rt lo' hi' = x := by
  intro m
  induction m with
  | zero => intro lo hi anc hm h x h1 h2; omega
  | succ m ih =>
    intro lo hi anc hm h x h1 h2
    have hb := h.bounds
    rcases lt_trichotomy x (rt lo hi) with hx | hx | hx
    · exact ih _ _ _ (by omega) (.left h (by omega)) x h1 hx
    · exact ⟨lo, hi, anc, h, hx.symm⟩
    · exact ih _ _ _ (by omega) (.right h (by omega)) x (by omega) h2

/-- ranges of the tree are nested or disjoint, and ancestors are determined by the root -/
theorem at_unique {n : Nat} : ∀ {lo hi : Nat} {anc : List Nat}, At n lo hi anc →
    ∀ {lo' hi' : Nat} {anc' : List Nat}, At n lo' hi' anc' → rt lo hi = rt lo' hi' →
    lo = lo' ∧ hi = hi' := by
  intro lo hi anc h lo' hi' anc' h' e
  obtain ⟨k, i, r⟩ := h.rng
  obtain ⟨k', i', r'⟩ := h'.rng
  rw [r.rt, r'.rt] at e
  obtain ⟨rfl, rfl⟩ := idx_inj e
  have hl : lo = lo' := by rw [r.hlo, r'.hlo]
  exact ⟨hl, by rw [r.hhi, r'.hhi, hl]⟩

/-! ### root, children, parent -/

theorem root_eq {n : Nat} (hn : 0 < n) : root n = rt 0 n := by
  obtain ⟨h1, h2⟩ := log2_spec hn
  rw [root, log2_eq h1 h2, Nat.one_shiftLeft, rt]; simp

theorem root_idx {n : Nat} (hn : 0 < n) : root n = idx (Nat.log2 n) 0 := by
  rw [root_eq hn, (Rng.root hn).rt]

theorem left_rt {n lo hi : Nat} {anc : List Nat} (h : At n lo hi anc) :
    left (rt lo hi) = if lo < rt lo hi then .ok (rt lo (rt lo hi)) else goPanic "leaf node has no children" := by
  obtain ⟨k, i, r⟩ := h.rng
  split
  · next hl =>
    obtain ⟨k', rfl, r'⟩ := r.left hl
    rw [r'.rt, r.rt, left_idx]
  · next hl =>
    have hb := r.bounds
    have hk : k = 0 := by
      rw [r.rt, r.idx] at hl hb
      by_contra hk
      have : 2 ^ 1 ≤ 2 ^ k := Nat.pow_le_pow_right (by norm_num) (by omega)
      omega
    subst hk
    rw [r.rt, left_leaf]

/-- the left descent of `Right` -/
theorem rightLoop_down {n k : Nat} : ∀ (d fuel i : Nat), d < fuel →
    idx k (2 ^ d * i) < n → (0 < d → n < 2 ^ (k + 1) * (2 ^ d * i) + 2 ^ (k + 1)) →
    rightLoop fuel (idx (k + d) i) n = .ok (idx k (2 ^ d * i)) := by
  intro d
  induction d with
  | zero =>
    intro fuel i hf h1 _
    obtain ⟨f, rfl⟩ : ∃ f, fuel = f + 1 := ⟨fuel - 1, by omega⟩
    simp only [pow_zero, Nat.one_mul, Nat.add_zero] at *
    unfold rightLoop
    rw [if_neg (by omega)]; rfl
  | succ d ih =>
    intro fuel i hf h1 h2
    obtain ⟨f, rfl⟩ : ∃ f, fuel = f + 1 := ⟨fuel - 1, by omega⟩
    have h2 := h2 (by omega)
    have e : 2 ^ (d + 1) * i = 2 ^ d * (2 * i) := by ring
    unfold rightLoop
    have hge : idx (k + (d + 1)) i ≥ n := by
      unfold idx
      have e1 : 2 ^ (k + (d + 1) + 1) * i = 2 ^ (k + 1) * (2 ^ (d + 1) * i) := by
        rw [show k + (d + 1) + 1 = (k + 1) + (d + 1) by omega, pow_add]; ring
      have e2 : 2 ^ (k + 1) ≤ 2 ^ (k + (d + 1)) := Nat.pow_le_pow_right (by norm_num) (by omega)
      rw [e1]; omega
    rw [if_pos hge, show k + (d + 1) = (k + d) + 1 by omega, left_idx]
    simp only [G.ok_bind]
    rw [e] at h1 h2 ⊢
    exact ih f (2 * i) (by omega) h1 (fun _ => h2)

theorem right_rt {n lo hi : Nat} {anc : List Nat} (h : At n lo hi anc) (hr : rt lo hi + 1 < hi) :
    right (rt lo hi) n = .ok (rt (rt lo hi + 1) hi) := by
  obtain ⟨k, i, r⟩ := h.rng
  obtain ⟨k', d, rfl, r', hd⟩ := r.right hr
  rw [r'.rt]
  unfold right
  have e : k' + 1 + d = (k' + d) + 1 := by omega
  have hrt := r.rt
  rw [e] at hrt
  rw [hrt, rightStep_idx]
  simp only [G.ok_bind]
  have hb := r'.bounds
  rw [r'.rt] at hb
  refine rightLoop_down d _ _ ?_ (by omega) ?_
  · have := LogMath.lt_idx (k' + d) (2 * i + 1); omega
  · intro hdp
    have := (hd hdp).2
    rw [← r'.hlo]
    exact this

/-- a node whose right subtree is empty has no right child: `Right` panics -/
theorem right_panic {n lo hi : Nat} {anc : List Nat} (h : At n lo hi anc) (hr : ¬ rt lo hi + 1 < hi) :
    Panics (right (rt lo hi) n) := by
  obtain ⟨k, i, r⟩ := h.rng
  have hb := r.bounds
  rw [r.rt] at *
  have hx := r.idx; have h2 := r.hhi; have h3 := r.hlo
  unfold right
  rcases k with _ | k
  · have : rightStep (idx 0 i) = goPanic "leaf node has no children" := by
      unfold rightStep; simp [level_idx]
    rw [this]; exact ⟨_, rfl⟩
  · rw [rightStep_idx]
    simp only [G.ok_bind]
    have e : 2 ^ (k + 1 + 1) = 2 * 2 ^ (k + 1) := by ring
    have hp := Nat.two_pow_pos k
    have e2 : 2 ^ (k + 1) = 2 * 2 ^ k := by ring
    have hn : n = 2 ^ (k + 1) * (2 * i + 1) := by
      have : 2 ^ (k + 1) * (2 * i + 1) = 2 ^ (k + 1 + 1) * i + 2 ^ (k + 1) := by ring
      rw [this]; omega
    have key : ∀ (K fuel j : Nat), n ≤ 2 ^ (K + 1) * j → K < fuel → Panics (rightLoop fuel (idx K j) n) := by
      intro K
      induction K with
      | zero =>
        intro fuel j hj hf
        obtain ⟨f, rfl⟩ : ∃ f, fuel = f + 1 := ⟨fuel - 1, by omega⟩
        unfold rightLoop
        rw [if_pos (by unfold idx; omega), left_leaf]
        exact ⟨_, rfl⟩
      | succ K ih =>
        intro fuel j hj hf
        obtain ⟨f, rfl⟩ : ∃ f, fuel = f + 1 := ⟨fuel - 1, by omega⟩
        unfold rightLoop
        rw [if_pos (by unfold idx; omega), left_idx]
        simp only [G.ok_bind]
        refine ih f (2 * j) ?_ (by omega)
        calc n ≤ _ := hj
          _ = _ := by ring
    refine key k _ _ (by omega) ?_
    have := LogMath.lt_idx k (2 * i + 1); omega

theorem parentLoop_ge {p n fuel : Nat} (h : p ≥ n) :
    parentLoop (fuel + 1) p n = parentLoop fuel (parentStep p) n := by
  conv_lhs => unfold parentLoop
  rw [if_pos h]

theorem parentLoop_lt {p n fuel : Nat} (h : p < n) : parentLoop (fuel + 1) p n = .ok p := by
  unfold parentLoop; rw [if_neg (by omega)]; rfl

theorem _root_.Katie.SearchSpec.At.ne_root {n lo hi : Nat} {a : Nat} {anc : List Nat} (h : At n lo hi (a :: anc)) :
    rt lo hi ≠ root n := by
  intro e
  have hn := h.pos
  rw [root_eq hn] at e
  obtain ⟨h1, h2⟩ := at_unique h (.root hn) e
  cases h with
  | left h hl => have := h.bounds; omega
  | right h hr => omega

theorem parent_left {n lo hi : Nat} {anc : List Nat} (h : At n lo hi anc) (hl : lo < rt lo hi) :
    parent (rt lo (rt lo hi)) n = .ok (rt lo hi) := by
  have hne := (At.left h hl).ne_root
  obtain ⟨k, i, r⟩ := h.rng
  have hb := r.bounds
  obtain ⟨k', rfl, r'⟩ := r.left hl
  unfold parent
  rw [if_neg hne, r'.rt, parentStep_idx, r.rt]
  have : 2 * i / 2 = i := by omega
  rw [this, show idx k' (2 * i) + n + 64 = (idx k' (2 * i) + n + 63) + 1 by omega]
  rw [r.rt] at hb
  exact parentLoop_lt (by omega)

theorem parentLoop_up {n k i : Nat} (hin : idx k i < n) : ∀ (d fuel k' : Nat), k = k' + 1 + d →
    d < fuel → (0 < d → n < 2 ^ (k' + 1) * (2 ^ d * (2 * i + 1)) + 2 ^ (k' + 1)) →
    parentLoop fuel (parentStep (idx k' (2 ^ d * (2 * i + 1)))) n = .ok (idx k i) := by
  intro d
  induction d with
  | zero =>
    intro fuel k' hk hf _
    obtain ⟨f, rfl⟩ : ∃ f, fuel = f + 1 := ⟨fuel - 1, by omega⟩
    rw [parentStep_idx]
    have : 2 ^ 0 * (2 * i + 1) / 2 = i := by simp; omega
    rw [this, show k' + 1 = k by omega]
    exact parentLoop_lt hin
  | succ d ih =>
    intro fuel k' hk hf hd
    have hd := hd (by omega)
    obtain ⟨f, rfl⟩ : ∃ f, fuel = f + 1 := ⟨fuel - 1, by omega⟩
    rw [parentStep_idx]
    have e : 2 ^ (d + 1) * (2 * i + 1) / 2 = 2 ^ d * (2 * i + 1) := by
      rw [pow_succ, Nat.mul_comm (2 ^ d) 2, Nat.mul_assoc, Nat.mul_div_cancel_left _ (by norm_num)]
    rw [e]
    have e2 : 2 ^ (k' + 1) * (2 ^ (d + 1) * (2 * i + 1)) = 2 ^ (k' + 1 + 1) * (2 ^ d * (2 * i + 1)) := by ring
    rw [e2] at hd
    have hge : idx (k' + 1) (2 ^ d * (2 * i + 1)) ≥ n := by unfold idx; omega
    rw [parentLoop_ge hge]
    refine ih f (k' + 1) (by omega) (by omega) (fun _ => ?_)
    have : 2 ^ (k' + 1) ≤ 2 ^ (k' + 1 + 1) := Nat.pow_le_pow_right (by norm_num) (by omega)
    omega

theorem parent_right {n lo hi : Nat} {anc : List Nat} (h : At n lo hi anc) (hr : rt lo hi + 1 < hi) :
    parent (rt (rt lo hi + 1) hi) n = .ok (rt lo hi) := by
  have hne := (At.right h hr).ne_root
  obtain ⟨k, i, r⟩ := h.rng
  have hb := r.bounds
  obtain ⟨k', d, hk, r', hd⟩ := r.right hr
  unfold parent
  rw [if_neg hne, r'.rt, r.rt]
  rw [r.rt] at hb
  refine parentLoop_up (by omega) d _ k' hk ?_ ?_
  · have := LogMath.lt_idx k i; omega
  · intro hdp
    have := (hd hdp).2
    rw [← r'.hlo]; exact this

theorem _root_.Katie.SearchSpec.At.parent {n lo hi : Nat} {a : Nat} {anc : List Nat} (h : At n lo hi (a :: anc)) :
    parent (rt lo hi) n = .ok a := by
  cases h with
  | left h hl => exact parent_left h hl
  | right h hr => exact parent_right h hr

theorem _root_.Katie.SearchSpec.At.up {n lo hi : Nat} {a : Nat} {anc : List Nat} (h : At n lo hi (a :: anc)) :
    ∃ lo' hi', At n lo' hi' anc ∧ rt lo' hi' = a := by
  cases h with
  | left h hl => exact ⟨_, _, h, rfl⟩
  | right h hr => exact ⟨_, _, h, rfl⟩

theorem anc_unique {n : Nat} : ∀ {anc : List Nat} {lo hi : Nat}, At n lo hi anc →
    ∀ {lo' hi' : Nat} {anc' : List Nat}, At n lo' hi' anc' → rt lo hi = rt lo' hi' → anc = anc' := by
  intro anc
  induction anc with
  | nil =>
    intro lo hi h lo' hi' anc' h' e
    have hn := h.pos
    have : rt lo hi = root n := by
      rw [root_eq hn]; cases h; rfl
    cases anc' with
    | nil => rfl
    | cons b l => exact absurd (e ▸ this) h'.ne_root
  | cons a anc ih =>
    intro lo hi h lo' hi' anc' h' e
    have hn := h.pos
    cases anc' with
    | nil =>
      have : rt lo' hi' = root n := by
        rw [root_eq hn]; cases h'; rfl
      exact absurd (e.trans this) h.ne_root
    | cons b l =>
      have h1 := h.parent
      have h2 := h'.parent
      rw [e, h2] at h1
      obtain rfl := Except.ok.inj h1
      obtain ⟨_, _, h3, e3⟩ := h.up
      obtain ⟨_, _, h4, e4⟩ := h'.up
      rw [ih h3 h4 (by rw [e3, e4])]

/-! ### paths -/

theorem _root_.Katie.SearchSpec.At.len {n lo hi : Nat} {anc : List Nat} (h : At n lo hi anc) :
    anc.length + (hi - lo) ≤ n := by
  induction h with
  | root hn => simp
  | left h hl ih => have := h.bounds; simp; omega
  | right h hr ih => have := h.bounds; simp; omega

theorem rightPathLoop_eq {n x : Nat} : ∀ {anc : List Nat} {lo hi fuel : Nat}, At n lo hi anc →
    anc.length < fuel →
    rightPathLoop fuel x n (root n) (rt lo hi) = .ok (anc.filter (fun y => y > x)) := by
  intro anc
  induction anc with
  | nil =>
    intro lo hi fuel h hf
    obtain ⟨f, rfl⟩ : ∃ f, fuel = f + 1 := ⟨fuel - 1, by simp at hf; omega⟩
    have : rt lo hi = root n := by
      rw [root_eq h.pos]; cases h; rfl
    unfold rightPathLoop
    rw [if_neg (by simp [this])]; rfl
  | cons a anc ih =>
    intro lo hi fuel h hf
    obtain ⟨f, rfl⟩ : ∃ f, fuel = f + 1 := ⟨fuel - 1, by simp at hf; omega⟩
    obtain ⟨lo', hi', h', e⟩ := h.up
    unfold rightPathLoop
    rw [if_pos h.ne_root, h.parent]
    simp only [G.ok_bind]
    rw [← e, ih h' (by simp at hf; omega)]
    simp only [G.ok_bind, G.pure_eq, List.filter_cons, decide_eq_true_eq]

theorem rightDirectPath_eq {n lo hi : Nat} {anc : List Nat} (h : At n lo hi anc) :
    rightDirectPath (rt lo hi) n = .ok (anc.filter (fun y => y > rt lo hi)) := by
  have := h.len
  exact rightPathLoop_eq h (by omega)

/-! ### the infinite tree -/

/-- the next `d` ancestors of `idx k i` in the infinite tree -/
def chain (k i : Nat) : Nat → List Nat
  | 0 => []
  | d + 1 => idx (k + 1) (i / 2) :: chain (k + 1) (i / 2) d

theorem chain_append (d1 d2 : Nat) : ∀ (k i : Nat),
    chain k i (d1 + d2) = chain k i d1 ++ chain (k + d1) (i / 2 ^ d1) d2 := by
  induction d1 with
  | zero => intro k i; simp [chain]
  | succ d ih =>
    intro k i
    rw [show d + 1 + d2 = (d + d2) + 1 by omega]
    simp only [chain, ih, List.cons_append]
    rw [show k + 1 + d = k + (d + 1) by omega, Nat.div_div_eq_div_mul, ← pow_succ']

theorem chain_zero_ge (K : Nat) : ∀ (d : Nat), ∀ y ∈ chain K 0 d, 2 ^ (K + 1) - 1 ≤ y := by
  intro d
  induction d generalizing K with
  | zero => simp [chain]
  | succ d ih =>
    intro y hy
    simp only [chain, List.mem_cons, Nat.zero_div] at hy
    rcases hy with rfl | hy
    · simp [idx]
    · have := ih (K + 1) y hy
      have : 2 ^ (K + 1) ≤ 2 ^ (K + 1 + 1) := Nat.pow_le_pow_right (by norm_num) (by omega)
      omega

/-- a right step skips only nodes outside the tree -/
theorem chain_up {n k i : Nat} (d' : Nat) (hin : idx k i < n) : ∀ (d k' : Nat), k = k' + 1 + d →
    (0 < d → n < 2 ^ (k' + 1) * (2 ^ d * (2 * i + 1)) + 2 ^ (k' + 1)) →
    (chain k' (2 ^ d * (2 * i + 1)) (d + 1 + d')).filter (fun y => y < n) =
      idx k i :: (chain k i d').filter (fun y => y < n) := by
  intro d
  induction d with
  | zero =>
    intro k' hk _
    have : 2 ^ 0 * (2 * i + 1) / 2 = i := by simp; omega
    rw [show 0 + 1 + d' = d' + 1 by omega, chain, this, show k' + 1 = k by omega]
    simp [hin]
  | succ d ih =>
    intro k' hk hd
    have hd := hd (by omega)
    have e : 2 ^ (d + 1) * (2 * i + 1) / 2 = 2 ^ d * (2 * i + 1) := by
      rw [pow_succ, Nat.mul_comm (2 ^ d) 2, Nat.mul_assoc, Nat.mul_div_cancel_left _ (by norm_num)]
    have e2 : 2 ^ (k' + 1) * (2 ^ (d + 1) * (2 * i + 1)) = 2 ^ (k' + 1 + 1) * (2 ^ d * (2 * i + 1)) := by ring
    rw [e2] at hd
    have hge : ¬ idx (k' + 1) (2 ^ d * (2 * i + 1)) < n := by unfold idx; omega
    rw [show d + 1 + 1 + d' = (d + 1 + d') + 1 by omega, chain, e]
    rw [List.filter_cons_of_neg (by simpa using hge)]
    refine ih (k' + 1) (by omega) (fun _ => ?_)
    have : 2 ^ (k' + 1) ≤ 2 ^ (k' + 1 + 1) := Nat.pow_le_pow_right (by norm_num) (by omega)
    omega

theorem Rng.uniq {n lo hi k i k' i' : Nat} (h : Rng n lo hi k i) (h' : Rng n lo hi k' i') : k = k' ∧ i = i' :=
  idx_inj (h.rt.symm.trans h'.rt)

/-- the ancestors in the tree are the ancestors in the infinite tree that exist -/
theorem _root_.Katie.SearchSpec.At.chain {n lo hi : Nat} {anc : List Nat} (h : At n lo hi anc) :
    ∀ k i, Rng n lo hi k i → ∃ d, k + d = Nat.log2 n ∧ anc = (chain k i d).filter (fun y => y < n) := by
  induction h with
  | root hn =>
    intro k i r
    obtain ⟨rfl, rfl⟩ := r.uniq (Rng.root hn)
    exact ⟨0, rfl, rfl⟩
  | @left lo hi anc h hl ih =>
    intro k i r
    obtain ⟨k0, i0, r0⟩ := h.rng
    have hb := r0.bounds
    obtain ⟨d, hd, e⟩ := ih k0 i0 r0
    obtain ⟨k', rfl, r'⟩ := r0.left hl
    obtain ⟨rfl, rfl⟩ := r.uniq r'
    refine ⟨d + 1, by omega, ?_⟩
    rw [SearchTree.chain, show 2 * i0 / 2 = i0 by omega, ← r0.rt,
      List.filter_cons_of_pos (by simp; omega), ← e]
  | @right lo hi anc h hr ih =>
    intro k i r
    obtain ⟨k0, i0, r0⟩ := h.rng
    have hb := r0.bounds
    obtain ⟨d, hd, e⟩ := ih k0 i0 r0
    obtain ⟨k', dd, hk, r', hdd⟩ := r0.right hr
    obtain ⟨rfl, rfl⟩ := r.uniq r'
    refine ⟨dd + 1 + d, by omega, ?_⟩
    rw [r0.rt] at hb
    rw [chain_up d (by omega) dd k hk (by
      intro hp
      have := (hdd hp).2
      rw [← r.hlo]; exact this), ← e, r0.rt]

theorem leftPathLoop_eq {x : Nat} : ∀ (d k i fuel : Nat), k + d = Nat.log2 (x + 1) → i < 2 ^ d → d < fuel →
    leftPathLoop fuel x (root (x + 1)) (idx k i) = .ok ((chain k i d).filter (fun y => y < x)) := by
  intro d
  induction d with
  | zero =>
    intro k i fuel hk hi hf
    obtain ⟨f, rfl⟩ : ∃ f, fuel = f + 1 := ⟨fuel - 1, by omega⟩
    have : i = 0 := by simpa using hi
    subst this
    unfold leftPathLoop
    rw [root_idx (by omega), if_neg (by simp [← hk])]; rfl
  | succ d ih =>
    intro k i fuel hk hi hf
    obtain ⟨f, rfl⟩ : ∃ f, fuel = f + 1 := ⟨fuel - 1, by omega⟩
    unfold leftPathLoop
    have hne : idx k i ≠ root (x + 1) := by
      rw [root_idx (by omega)]
      intro e
      have := (idx_inj e).1
      omega
    rw [if_pos hne]
    simp only [parentStep_idx]
    rw [ih (k + 1) (i / 2) f (by omega) (by rw [pow_succ] at hi; omega) (by omega)]
    simp only [G.ok_bind, G.pure_eq, chain, List.filter_cons, decide_eq_true_eq]

theorem leftDirectPath_eq {n lo hi : Nat} {anc : List Nat} (h : At n lo hi anc) :
    leftDirectPath (rt lo hi) = .ok (anc.filter (fun y => y < rt lo hi)) := by
  obtain ⟨k, i, r⟩ := h.rng
  obtain ⟨d, hd, e⟩ := h.chain k i r
  have hb := r.bounds
  generalize hx : rt lo hi = x at *
  have hxi : x = idx k i := by rw [← hx, r.rt]
  obtain ⟨l1, l2⟩ := log2_spec (m := x + 1) (by omega)
  have hkl : k ≤ Nat.log2 (x + 1) := by
    have : 2 ^ k < 2 ^ (Nat.log2 (x + 1) + 1) := by
      rw [hxi] at l2 ⊢; unfold idx at l2 ⊢; omega
    have := (Nat.pow_lt_pow_iff_right (a := 2) (by norm_num)).1 this
    omega
  have hll : Nat.log2 (x + 1) ≤ Nat.log2 n := by
    have h1 := (log2_spec (m := n) (by omega)).2
    have : 2 ^ Nat.log2 (x + 1) < 2 ^ (Nat.log2 n + 1) := by omega
    have := (Nat.pow_lt_pow_iff_right (a := 2) (by norm_num)).1 this
    omega
  obtain ⟨d1, hd1⟩ : ∃ d1, k + d1 = Nat.log2 (x + 1) := ⟨_, Nat.add_sub_cancel' hkl⟩
  obtain ⟨d2, hd2⟩ : ∃ d2, d = d1 + d2 := ⟨d - d1, by omega⟩
  have hi' : i < 2 ^ d1 := by
    rw [← hd1] at l2
    have e1 : 2 ^ (k + d1 + 1) = 2 ^ (k + 1) * 2 ^ d1 := by rw [← pow_add]; ring_nf
    have e2 : 2 ^ (k + 1) * i < 2 ^ (k + 1) * 2 ^ d1 := by
      rw [← e1]; unfold idx at hxi; omega
    exact Nat.lt_of_mul_lt_mul_left e2
  unfold leftDirectPath
  have hlx : Nat.log2 (x + 1) < x + 64 := by
    have : Nat.log2 (x + 1) < 2 ^ Nat.log2 (x + 1) := Nat.lt_two_pow_self
    omega
  have := leftPathLoop_eq (x := x) d1 k i (x + 64) hd1 hi' (by omega)
  rw [← hxi] at this
  rw [this, e, hd2, chain_append, List.filter_filter, List.filter_append]
  congr 1
  have t2 : (chain (k + d1) (i / 2 ^ d1) d2).filter (fun y => decide (y < x) && decide (y < n)) = [] := by
    rw [List.filter_eq_nil_iff]
    intro y hy
    rw [Nat.div_eq_of_lt hi'] at hy
    have := chain_zero_ge _ _ y hy
    rw [hd1] at this
    simp; omega
  rw [t2, List.append_nil]
  apply List.filter_congr
  intro y _
  by_cases h1 : y < x
  · have : y < n := by omega
    simp [h1, this]
  · simp [h1]

/-! ### the frontier -/

theorem pred64_eq {n : Nat} (h0 : 0 < n) (hn : n < 2 ^ 64) : pred64 n = n - 1 := by
  unfold pred64; omega

theorem walkRight_eq {n : Nat} (hn : n < 2 ^ 64) : ∀ (m lo fuel : Nat) (anc : List Nat), At n lo n anc →
    n - lo ≤ m → m < fuel → ∃ rest lo' anc', walkRight fuel (rt lo n) n = .ok rest ∧
      At n lo' n anc' ∧ rt lo' n = n - 1 ∧ anc'.reverse ++ [n - 1] = anc.reverse ++ rt lo n :: rest ∧
      ∀ y ∈ rest, rt lo n < y := by
  intro m
  induction m with
  | zero => intro lo fuel anc h h1; have := h.bounds; omega
  | succ m ih =>
    intro lo fuel anc h h1 h2
    obtain ⟨f, rfl⟩ : ∃ f, fuel = f + 1 := ⟨fuel - 1, by omega⟩
    have hb := h.bounds
    unfold walkRight
    rw [pred64_eq h.pos hn]
    by_cases hx : rt lo n = n - 1
    · refine ⟨[], lo, anc, ?_, h, hx, by rw [hx], by simp⟩
      rw [if_neg (by simp [hx])]; rfl
    · rw [if_pos hx]
      have hr : rt lo n + 1 < n := by omega
      rw [right_rt h hr]
      simp only [G.ok_bind]
      obtain ⟨rest, lo', anc', hw, hat, he, hp, hgt⟩ := ih _ f _ (At.right h hr) (by omega) (by omega)
      have hb2 := (At.right h hr).bounds
      rw [hw]
      refine ⟨_, lo', anc', rfl, hat, he, ?_, ?_⟩
      · rw [hp]; simp
      · intro y hy
        rcases List.mem_cons.1 hy with rfl | hy
        · omega
        · have := hgt y hy; omega

/-- nodes strictly inside: where an entry lies relative to its ancestors -/
theorem top_right {n : Nat} {x : Nat} : ∀ {lo hi : Nat} {anc : List Nat}, At n lo hi anc → lo ≤ x → x < hi →
    ((∀ y ∈ anc, y < x) ∧ hi = n) ∨
    ∃ pre a lo' anc', anc = pre ++ a :: anc' ∧ At n lo' n anc' ∧ rt lo' n = a ∧ x < a ∧ ∀ y ∈ anc', y < x := by
  intro lo hi anc h
  induction h with
  | root hn => intro _ _; left; simp
  | @left lo hi anc h hl ih =>
    intro h1 h2
    have hb := h.bounds
    right
    rcases ih h1 (by omega) with ⟨ha, rfl⟩ | ⟨pre, a, lo', anc', rfl, hat, e, hx, ha⟩
    · exact ⟨[], _, lo, anc, rfl, h, rfl, h2, ha⟩
    · exact ⟨rt lo hi :: pre, a, lo', anc', rfl, hat, e, hx, ha⟩
  | @right lo hi anc h hr ih =>
    intro h1 h2
    have hb := h.bounds
    rcases ih (by omega) h2 with ⟨ha, rfl⟩ | ⟨pre, a, lo', anc', rfl, hat, e, hx, ha⟩
    · left
      refine ⟨?_, rfl⟩
      intro y hy
      rcases List.mem_cons.1 hy with rfl | hy
      · omega
      · exact ha y hy
    · right
      exact ⟨rt lo hi :: pre, a, lo', anc', rfl, hat, e, hx, ha⟩

theorem frontier_eq {n : Nat} (h0 : 0 < n) (hn : n < 2 ^ 64) :
    ∃ lo anc, At n lo n anc ∧ rt lo n = n - 1 ∧ frontier n = .ok (anc.reverse ++ [n - 1]) := by
  obtain ⟨rest, lo', anc', hw, hat, he, hp, -⟩ := walkRight_eq hn n 0 (n + 1) [] (.root h0) (by omega) (by omega)
  refine ⟨lo', anc', hat, he, ?_⟩
  unfold frontier
  rw [root_eq h0, hw, hp]; rfl

theorem anc_lt {n lo hi : Nat} {anc : List Nat} (h : At n lo hi anc) : ∀ y ∈ anc, y < n := by
  induction h with
  | root => simp
  | left h hl ih =>
    have := h.bounds
    intro y hy
    rcases List.mem_cons.1 hy with rfl | hy
    · omega
    · exact ih y hy
  | right h hr ih =>
    have := h.bounds
    intro y hy
    rcases List.mem_cons.1 hy with rfl | hy
    · omega
    · exact ih y hy

/-- ancestors lie outside the range -/
theorem anc_outside {n lo hi : Nat} {anc : List Nat} (h : At n lo hi anc) : ∀ y ∈ anc, y < lo ∨ hi ≤ y := by
  induction h with
  | root => simp
  | left h hl ih =>
    have := h.bounds
    intro y hy
    rcases List.mem_cons.1 hy with rfl | hy
    · omega
    · have := ih y hy; omega
  | right h hr ih =>
    have := h.bounds
    intro y hy
    rcases List.mem_cons.1 hy with rfl | hy
    · omega
    · have := ih y hy; omega

end Katie.SearchTree
