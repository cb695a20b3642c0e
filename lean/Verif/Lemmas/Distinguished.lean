import Verif.Spec.Distinguished
import Verif.Model.Algorithms
import Verif.Lemmas.SearchTree

/- Lemmas about distinguished log entries. -/

namespace Katie.SearchSpec
open Katie Katie.SearchTree

theorem rt_bounds {lo hi : Nat} (h : lo < hi) : lo ≤ rt lo hi ∧ rt lo hi < hi := by
  have := (log2_spec (m := hi - lo) (by omega)).1
  have := Nat.two_pow_pos (Nat.log2 (hi - lo))
  unfold rt
  omega

theorem DistIn.range {D : Nat → Nat → Prop} {ts : Nat → Nat} {lo hi l r y : Nat}
    (h : DistIn D ts lo hi l r y) : lo < hi → lo ≤ y ∧ y < hi := by
  induction h with
  | here => exact fun h => rt_bounds h
  | left _ hl _ ih => intro h; have := rt_bounds h; have := ih hl; omega
  | right _ hr _ ih => intro h; have := rt_bounds h; have := ih hr; omega

theorem DistIn.d {D : Nat → Nat → Prop} {ts : Nat → Nat} {lo hi l r y : Nat}
    (h : DistIn D ts lo hi l r y) : D l r := by
  cases h <;> assumption

theorem DistIn.right_inv {D : Nat → Nat → Prop} {ts : Nat → Nat} {lo hi l r y : Nat}
    (h : DistIn D ts lo hi l r y) (hy : rt lo hi < y) :
    rt lo hi + 1 < hi ∧ DistIn D ts (rt lo hi + 1) hi (ts (rt lo hi)) r y := by
  cases h with
  | here => omega
  | left _ hl h => have := h.range hl; omega
  | right _ hr h => exact ⟨hr, h⟩

theorem DistIn.left_inv {D : Nat → Nat → Prop} {ts : Nat → Nat} {lo hi l r y : Nat}
    (h : DistIn D ts lo hi l r y) (hy : y < rt lo hi) :
    lo < rt lo hi ∧ DistIn D ts lo (rt lo hi) l (ts (rt lo hi)) y := by
  cases h with
  | here => omega
  | left _ hl h => exact ⟨hl, h⟩
  | right _ hr h => have := h.range hr; omega

/-- left bound of the subtree starting at `lo` -/
def lb (ts : Nat → Nat) (lo : Nat) : Nat := if lo = 0 then 0 else ts (lo - 1)
/-- right bound of the subtree ending before `hi` -/
def rb (ts : Nat → Nat) (n hi : Nat) : Nat := if hi = n then ts (n - 1) else ts hi

theorem lb_mono {ts : Nat → Nat} {n lo lo' : Nat} (ht : GoodTimes ts n) (h : lo ≤ lo') (hn : lo' ≤ n) :
    lb ts lo ≤ lb ts lo' := by
  unfold lb
  split
  · omega
  · rw [if_neg (by omega)]
    exact ht.1 _ _ (by omega) (by omega)

theorem rb_mono {ts : Nat → Nat} {n hi hi' : Nat} (ht : GoodTimes ts n) (h : hi' ≤ hi) (hn : hi ≤ n) (h0 : 0 < n) :
    rb ts n hi' ≤ rb ts n hi := by
  unfold rb
  split_ifs
  · omega
  · omega
  · exact ht.1 _ _ (by omega) (by omega)
  · exact ht.1 _ _ (by omega) (by omega)

theorem rb_lt {ts : Nat → Nat} {n hi : Nat} (ht : GoodTimes ts n) (hn : hi ≤ n) (h0 : 0 < n) :
    rb ts n hi < 2 ^ 64 := by
  unfold rb
  split
  · exact ht.2 _ (by omega)
  · exact ht.2 _ (by omega)

theorem lb_le_rb {ts : Nat → Nat} {n lo hi : Nat} (ht : GoodTimes ts n) (h : lo < hi) (hn : hi ≤ n) :
    lb ts lo ≤ rb ts n hi := by
  unfold lb rb
  split_ifs
  · omega
  · omega
  · exact ht.1 _ _ (by omega) (by omega)
  · exact ht.1 _ _ (by omega) (by omega)

theorem exists_at_sub {n : Nat} : ∀ (m lo hi : Nat) (anc : List Nat), hi - lo ≤ m → At n lo hi anc →
    ∀ x, lo ≤ x → x < hi → ∃ lo' hi' anc', At n lo' hi' anc' ∧ rt lo' hi' = x ∧ lo ≤ lo' ∧ hi' ≤ hi := by
  intro m
  induction m with
  | zero => intro lo hi anc hm h x h1 h2; omega
  | succ m ih =>
    intro lo hi anc hm h x h1 h2
    have hb := h.bounds
    rcases lt_trichotomy x (rt lo hi) with hx | hx | hx
    · obtain ⟨a, b, c, h1, h2, h3, h4⟩ := ih _ _ _ (by omega) (.left h (by omega)) x h1 hx
      exact ⟨a, b, c, h1, h2, h3, by omega⟩
    · exact ⟨lo, hi, anc, h, hx.symm, by omega, by omega⟩
    · obtain ⟨a, b, c, h1, h2, h3, h4⟩ := ih _ _ _ (by omega) (.right h (by omega)) x (by omega) h2
      exact ⟨a, b, c, h1, h2, by omega, by omega⟩

theorem at_sub {n lo hi lo' hi' : Nat} {anc anc' : List Nat} (h : At n lo hi anc) (h' : At n lo' hi' anc')
    (h1 : lo ≤ rt lo' hi') (h2 : rt lo' hi' < hi) : lo ≤ lo' ∧ hi' ≤ hi := by
  obtain ⟨a, b, c, hc, e, h3, h4⟩ := exists_at_sub _ lo hi anc (le_refl _) h _ h1 h2
  obtain ⟨rfl, rfl⟩ := at_unique hc h' e
  exact ⟨h3, h4⟩

/-- closed form of `DistIn` for non-decreasing timestamps -/
theorem distIn_iff {W : Nat} {ts : Nat → Nat} {n : Nat} (ht : GoodTimes ts n) : ∀ (m lo hi : Nat) (anc : List Nat),
    hi - lo ≤ m → At n lo hi anc → ∀ (lo' hi' : Nat) (anc' : List Nat), At n lo' hi' anc' →
    lo ≤ rt lo' hi' → rt lo' hi' < hi →
    (DistIn (Wide W) ts lo hi (lb ts lo) (rb ts n hi) (rt lo' hi') ↔ Wide W (lb ts lo') (rb ts n hi')) := by
  intro m
  induction m with
  | zero => intro lo hi anc hm h lo' hi' anc' h' h1 h2; omega
  | succ m ih =>
    intro lo hi anc hm h lo' hi' anc' h' h1 h2
    have hb := h.bounds
    have hpos := h.pos
    have hup : Wide W (lb ts lo') (rb ts n hi') → Wide W (lb ts lo) (rb ts n hi) := by
      intro hw
      obtain ⟨h3, h4⟩ := at_sub h h' h1 h2
      have hb' := h'.bounds
      have := lb_mono ht h3 (by omega)
      have := rb_mono ht h4 (by omega) hpos
      unfold Wide at *
      omega
    rcases lt_trichotomy (rt lo' hi') (rt lo hi) with hx | hx | hx
    · have := ih lo (rt lo hi) _ (by omega) (.left h (by omega)) lo' hi' anc' h' h1 hx
      have e : rb ts n (rt lo hi) = ts (rt lo hi) := by unfold rb; rw [if_neg (by omega)]
      rw [e] at this
      constructor
      · intro hd; exact this.1 (hd.left_inv hx).2
      · intro hw; exact .left (hup hw) (by omega) (this.2 hw)
    · obtain ⟨rfl, rfl⟩ := at_unique h' h hx
      constructor
      · intro hd; exact hd.d
      · intro hw; exact .here hw
    · have := ih (rt lo hi + 1) hi _ (by omega) (.right h (by omega)) lo' hi' anc' h' (by omega) h2
      have e : lb ts (rt lo hi + 1) = ts (rt lo hi) := by unfold lb; rw [if_neg (by omega)]; rfl
      rw [e] at this
      constructor
      · intro hd; exact this.1 (hd.right_inv hx).2
      · intro hw; exact .right (hup hw) (by omega) (this.2 hw)

theorem distinguished_iff {W : Nat} {ts : Nat → Nat} {n lo hi : Nat} {anc : List Nat} (ht : GoodTimes ts n)
    (h : At n lo hi anc) :
    Distinguished (Wide W) ts n (rt lo hi) ↔ Wide W (lb ts lo) (rb ts n hi) := by
  have hb := h.bounds
  have := distIn_iff (W := W) ht n 0 n [] (by omega) (.root h.pos) lo hi anc h (by omega) (by omega)
  have e1 : lb ts 0 = 0 := rfl
  have e2 : rb ts n n = ts (n - 1) := by simp [rb]
  rw [e1, e2] at this
  rw [← this]
  exact ⟨fun h => h.2, fun h' => ⟨h.pos, h'⟩⟩

theorem Distinguished.lt {D : Nat → Nat → Prop} {ts : Nat → Nat} {n y : Nat} (h : Distinguished D ts n y) : y < n :=
  (h.2.range h.1).2

/-- The test of the code agrees with `Wide` on intervals that are not inverted. -/
theorem isDistinguished_iff {cfg : Config} {l r : Nat} (h : l ≤ r) (hr : r < 2 ^ 64) :
    cfg.isDistinguished l r = true ↔ Wide cfg.rmw l r := by
  unfold Config.isDistinguished Wide sub64
  rw [decide_eq_true_iff]
  omega

theorem DistIn.congr {D D' : Nat → Nat → Prop} {ts : Nat → Nat} {n : Nat} (ht : GoodTimes ts n)
    (hD : ∀ l r, l ≤ r → r < 2 ^ 64 → (D l r ↔ D' l r)) {y : Nat} : ∀ (m lo hi : Nat) (anc : List Nat),
    hi - lo ≤ m → At n lo hi anc → DistIn D ts lo hi (lb ts lo) (rb ts n hi) y →
    DistIn D' ts lo hi (lb ts lo) (rb ts n hi) y := by
  intro m
  induction m with
  | zero => intro lo hi anc hm h; have := h.bounds; omega
  | succ m ih =>
    intro lo hi anc hm h hd
    have hb := h.bounds
    have hd' := (hD _ _ (lb_le_rb ht (by omega) hb.2.2) (rb_lt ht hb.2.2 h.pos)).1 hd.d
    rcases lt_trichotomy y (rt lo hi) with hx | hx | hx
    · obtain ⟨hl, h2⟩ := hd.left_inv hx
      have e : rb ts n (rt lo hi) = ts (rt lo hi) := by unfold rb; rw [if_neg (by omega)]
      rw [← e] at h2
      have := ih _ _ _ (by omega) (.left h hl) h2
      rw [e] at this
      exact .left hd' hl this
    · rw [hx]; exact .here hd'
    · obtain ⟨hl, h2⟩ := hd.right_inv hx
      have e : lb ts (rt lo hi + 1) = ts (rt lo hi) := by unfold lb; rw [if_neg (by omega)]; rfl
      rw [← e] at h2
      have := ih _ _ _ (by omega) (.right h hl) h2
      rw [e] at this
      exact .right hd' hl this

/-- For non-decreasing timestamps the code's test and the plain comparison define the same entries. -/
theorem distinguished_code_iff {cfg : Config} {ts : Nat → Nat} {n y : Nat} (ht : GoodTimes ts n) :
    Distinguished (fun l r => cfg.isDistinguished l r = true) ts n y ↔ Distinguished (Wide cfg.rmw) ts n y := by
  constructor
  · rintro ⟨h0, h⟩
    refine ⟨h0, ?_⟩
    have e2 : rb ts n n = ts (n - 1) := by simp [rb]
    have := DistIn.congr (D' := Wide cfg.rmw) ht (fun l r h1 h2 => isDistinguished_iff h1 h2) n 0 n [] (by omega) (.root h0)
      (y := y) (by rw [e2]; exact h)
    rw [e2] at this; exact this
  · rintro ⟨h0, h⟩
    refine ⟨h0, ?_⟩
    have e2 : rb ts n n = ts (n - 1) := by simp [rb]
    have := DistIn.congr (D' := fun l r => cfg.isDistinguished l r = true) ht
      (fun l r h1 h2 => (isDistinguished_iff h1 h2).symm) n 0 n [] (by omega) (.root h0)
      (y := y) (by rw [e2]; exact h)
    rw [e2] at this; exact this

end Katie.SearchSpec

namespace Katie.Alg
open Katie Katie.SearchTree Katie.SearchSpec Prog

/-! ### running programs -/

theorem eval_pure {α : Type} (A : (q : Req) → G q.Resp) (a : α) : eval A (pure a) = .ok a := rfl
theorem eval_ret {α : Type} (A : (q : Req) → G q.Resp) (r : G α) : eval A (.ret r) = r := rfl
theorem eval_lift {α : Type} (A : (q : Req) → G q.Resp) (r : G α) : eval A (lift r) = r := rfl
theorem eval_fail {α : Type} (A : (q : Req) → G q.Resp) (m : String) : eval A (fail m : Prog α) = goErr m := rfl
theorem eval_call (A : (q : Req) → G q.Resp) (q : Req) : eval A (call q) = A q := rfl

theorem eval_bind {α β : Type} (A : (q : Req) → G q.Resp) (p : Prog α) (f : α → Prog β) :
    eval A (p >>= f) = (eval A p >>= fun a => eval A (f a)) := by
  show eval A (p.bind f) = _
  induction p with
  | ret r => cases r <;> rfl
  | op q k ih => exact ih (A q)

theorem eval_attempt_ok {α : Type} (A : (q : Req) → G q.Resp) (p : Prog α) (a : α) (h : eval A p = .ok a) :
    eval A p.attempt = .ok (.ok a) := by
  induction p with
  | ret r => change r = _ at h; subst h; rfl
  | op q k ih => exact ih (A q) h

theorem eval_ite {α : Type} (A : (q : Req) → G q.Resp) (c : Prop) [Decidable c] (p q : Prog α) :
    eval A (if c then p else q) = if c then eval A p else eval A q := by
  split <;> rfl

/-- the provider answers timestamp requests with `ts` -/
def TsOk (A : (q : Req) → G q.Resp) (ts : Nat → Nat) (n : Nat) : Prop := ∀ x, x < n → A (.ts x) = .ok (ts x)

theorem eval_getTs {A : (q : Req) → G q.Resp} {ts : Nat → Nat} {n x : Nat} (h : TsOk A ts n) (hx : x < n) :
    eval A (getTs x) = .ok (ts x) := h x hx

theorem noRightChild_iff {n lo hi : Nat} {anc : List Nat} (h : At n lo hi anc) :
    noRightChild (rt lo hi) n = true ↔ ¬ rt lo hi + 1 < hi := by
  obtain ⟨k, i, r⟩ := h.rng
  have hb := r.bounds
  have h1 := r.hlo; have h2 := r.idx; have h3 := r.rt; have h4 := r.hhi; have h5 := r.hx
  unfold noRightChild
  rw [Bool.or_eq_true, LogMath.isLeaf_iff, beq_iff_eq]
  rw [h3] at hb ⊢
  rcases k with _ | k
  · simp only [zero_add, pow_one, pow_zero] at h1 h2 h4 h5; omega
  · have e1 : 2 ^ (k + 1) = 2 * 2 ^ k := by ring
    have e2 : 2 ^ (k + 1 + 1) * i = 2 * (2 * 2 ^ k * i) := by ring
    have e3 : 2 ^ (k + 1 + 1) = 2 * (2 * 2 ^ k) := by ring
    have := Nat.two_pow_pos k
    omega

theorem noLeftChild_iff {n lo hi : Nat} {anc : List Nat} (h : At n lo hi anc) :
    noLeftChild (rt lo hi) = true ↔ lo = rt lo hi := by
  obtain ⟨k, i, r⟩ := h.rng
  have hb := r.bounds
  have h1 := r.hlo; have h2 := r.idx; have h3 := r.rt
  unfold noLeftChild
  rw [LogMath.isLeaf_iff]
  rw [h3] at hb ⊢
  rcases k with _ | k
  · simp only [zero_add, pow_one, pow_zero] at h1 h2; omega
  · have e1 : 2 ^ (k + 1) = 2 * 2 ^ k := by ring
    have e2 : 2 ^ (k + 1 + 1) * i = 2 * (2 * 2 ^ k * i) := by ring
    have := Nat.two_pow_pos k
    omega

/-! ### RightmostDistinguished -/

theorem rightmostLoop_eval {cfg : Config} {A : (q : Req) → G q.Resp} {ts : Nat → Nat} {n : Nat} (hA : TsOk A ts n)
    (rm : Nat) : ∀ (m lo l fuel : Nat) (anc : List Nat), At n lo n anc → n - lo ≤ m → m ≤ fuel →
    cfg.isDistinguished l rm = true →
    ∃ x, eval A (rightmostLoop cfg n rm fuel (rt lo n)) = .ok (some x) ∧
      DistIn (fun l r => cfg.isDistinguished l r = true) ts lo n l rm x ∧
      ∀ y, DistIn (fun l r => cfg.isDistinguished l r = true) ts lo n l rm y → y ≤ x := by
  intro m
  induction m with
  | zero => intro lo l fuel anc h h1; have := h.bounds; omega
  | succ m ih =>
    intro lo l fuel anc h h1 h2 hd
    obtain ⟨f, rfl⟩ : ∃ f, fuel = f + 1 := ⟨fuel - 1, by omega⟩
    have hb := h.bounds
    unfold rightmostLoop
    by_cases hx : rt lo n = n - 1
    · rw [if_pos hx]
      refine ⟨rt lo n, rfl, .here hd, ?_⟩
      intro y hy
      have := hy.range (by omega); omega
    · rw [if_neg hx, eval_bind, eval_getTs hA (by omega)]
      simp only [G.ok_bind]
      rw [eval_ite]
      by_cases hd2 : cfg.isDistinguished (ts (rt lo n)) rm = true
      · rw [if_neg (by simp [hd2]), eval_bind, eval_lift, right_rt h (by omega)]
        simp only [G.ok_bind]
        obtain ⟨x, hx1, hx2, hx3⟩ := ih (rt lo n + 1) (ts (rt lo n)) f _ (.right h (by omega)) (by omega) (by omega) hd2
        refine ⟨x, hx1, .right hd (by omega) hx2, ?_⟩
        intro y hy
        by_cases hyr : rt lo n < y
        · exact hx3 y (hy.right_inv hyr).2
        · have := hx2.range (by omega); omega
      · rw [if_pos (by simp [hd2])]
        refine ⟨rt lo n, rfl, .here hd, ?_⟩
        intro y hy
        by_contra hlt
        exact hd2 (hy.right_inv (by omega)).2.d

theorem rightmostDistinguished_eval {cfg : Config} {A : (q : Req) → G q.Resp} {ts : Nat → Nat} {n : Nat}
    (hA : TsOk A ts n) : ∃ r, eval A (rightmostDistinguished cfg n) = .ok r ∧
      IsGreatest' (Distinguished (fun l r => cfg.isDistinguished l r = true) ts n) r := by
  unfold rightmostDistinguished
  by_cases h0 : n = 0
  · rw [if_pos h0]; exact ⟨none, rfl, fun y hy => by have := hy.1; omega⟩
  · rw [if_neg h0, eval_bind, eval_getTs hA (by omega)]
    simp only [G.ok_bind]
    rw [eval_ite]
    by_cases hd : cfg.isDistinguished 0 (ts (n - 1)) = true
    · rw [if_neg (by simp [hd]), root_eq (by omega)]
      obtain ⟨x, h1, h2, h3⟩ := rightmostLoop_eval (cfg := cfg) hA (ts (n - 1)) n 0 0 n [] (.root (by omega)) (by omega) (by omega) hd
      exact ⟨some x, h1, ⟨by omega, h2⟩, fun y hy => h3 y hy.2⟩
    · rw [if_pos (by simp [hd])]
      exact ⟨none, rfl, fun y hy => hd hy.2.d⟩

/-! ### PreviousRightmost -/

theorem previousLoop_eval {cfg : Config} {A : (q : Req) → G q.Resp} {ts : Nat → Nat} {n : Nat} (hA : TsOk A ts n)
    (hi r0 : Nat) : ∀ (m lo l fuel : Nat) (anc : List Nat), At n lo hi anc → hi - lo ≤ m → m ≤ fuel →
    cfg.isDistinguished l r0 = true →
    ∃ x, eval A (previousLoop cfg n r0 fuel (rt lo hi)) = .ok (some x) ∧
      DistIn (fun l r => cfg.isDistinguished l r = true) ts lo hi l r0 x ∧
      ∀ y, DistIn (fun l r => cfg.isDistinguished l r = true) ts lo hi l r0 y → y ≤ x := by
  intro m
  induction m with
  | zero => intro lo l fuel anc h h1; have := h.bounds; omega
  | succ m ih =>
    intro lo l fuel anc h h1 h2 hd
    obtain ⟨f, rfl⟩ : ∃ f, fuel = f + 1 := ⟨fuel - 1, by omega⟩
    have hb := h.bounds
    have hnr := noRightChild_iff h
    unfold previousLoop
    by_cases hx : noRightChild (rt lo hi) n = true
    · rw [if_pos hx]
      refine ⟨rt lo hi, rfl, .here hd, ?_⟩
      intro y hy
      have := hy.range (by omega)
      have := hnr.1 hx
      omega
    · have hr : rt lo hi + 1 < hi := by by_contra hc; exact hx (hnr.2 hc)
      rw [if_neg hx, eval_bind, eval_getTs hA (by omega)]
      simp only [G.ok_bind]
      rw [eval_ite]
      by_cases hd2 : cfg.isDistinguished (ts (rt lo hi)) r0 = true
      · rw [if_neg (by simp [hd2]), eval_bind, eval_lift, right_rt h (by omega)]
        simp only [G.ok_bind]
        obtain ⟨x, hx1, hx2, hx3⟩ := ih (rt lo hi + 1) (ts (rt lo hi)) f _ (.right h (by omega)) (by omega) (by omega) hd2
        refine ⟨x, hx1, .right hd (by omega) hx2, ?_⟩
        intro y hy
        by_cases hyr : rt lo hi < y
        · exact hx3 y (hy.right_inv hyr).2
        · have := hx2.range (by omega); omega
      · rw [if_pos (by simp [hd2])]
        refine ⟨rt lo hi, rfl, .here hd, ?_⟩
        intro y hy
        by_contra hlt
        exact hd2 (hy.right_inv (by omega)).2.d

/-- the parent of a node on the right edge is the entry before its range -/
theorem frontier_parent {n lo p : Nat} {anc : List Nat} (h : At n lo n (p :: anc)) : lo = p + 1 := by
  cases hc : h with
  | left h hl =>
    exfalso
    have := h.bounds; omega
  | right h hr => rfl

theorem previousRightmost_eval {cfg : Config} {A : (q : Req) → G q.Resp} {ts : Nat → Nat} {n : Nat}
    (hA : TsOk A ts n) (ht : GoodTimes ts n) : ∃ r, eval A (previousRightmost cfg n) = .ok r ∧
      IsGreatest' (fun y => Distinguished (Wide cfg.rmw) ts n y ∧ y < n - 1) r := by
  unfold previousRightmost
  obtain ⟨r, hr, hg⟩ := rightmostDistinguished_eval (cfg := cfg) hA
  rw [eval_bind, hr]
  simp only [G.ok_bind]
  cases r with
  | none => exact ⟨none, rfl, fun y hy => hg y ((distinguished_code_iff ht).2 hy.1)⟩
  | some x =>
    obtain ⟨hx, hmax⟩ := hg
    rw [distinguished_code_iff ht] at hx
    have hxn := hx.lt
    have hmax' : ∀ y, Distinguished (Wide cfg.rmw) ts n y → y ≤ x := fun y hy => hmax y ((distinguished_code_iff ht).2 hy)
    simp only []
    rw [eval_ite]
    by_cases hxl : x = n - 1
    · rw [if_neg (by simp [hxl])]
      have h0 : 0 < n := hx.1
      obtain ⟨lo, hi, anc, h, e⟩ := exists_at n 0 n [] (by omega) (.root h0) (n - 1) (by omega) (by omega)
      have hb := h.bounds
      have hhi : hi = n := by omega
      subst hhi
      rw [← e] at hxl
      subst hxl
      have hw := (distinguished_iff ht h).1 hx
      have erb : rb ts hi hi = ts (hi - 1) := by simp [rb]
      rw [erb] at hw
      -- parent
      have hpar : eval A (do
          let p ← if rt lo hi ≠ root hi then (do let p ← lift (parent (rt lo hi) hi); pure (some p)) else pure none
          let left0 ← parentTs p
          let right0 ← getTs (rt lo hi)
          if ¬ noLeftChild (rt lo hi) ∧ cfg.isDistinguished left0 right0 then do
            let out ← lift (LogMath.left (rt lo hi))
            previousLoop cfg hi right0 hi out
          else pure p) =
          (if ¬ noLeftChild (rt lo hi) ∧ cfg.isDistinguished (lb ts lo) (ts (rt lo hi)) then
            eval A (do
              let out ← lift (LogMath.left (rt lo hi))
              previousLoop cfg hi (ts (rt lo hi)) hi out)
          else .ok (if lo = 0 then none else some (lo - 1))) := by
        cases anc with
        | nil =>
          have hl0 : lo = 0 := by cases h; rfl
          subst hl0
          rw [if_neg (by rw [root_eq h0]; simp)]
          rw [eval_bind, eval_pure]; simp only [G.ok_bind]
          rw [eval_bind]; unfold parentTs; rw [eval_pure]; simp only [G.ok_bind]
          rw [eval_bind, eval_getTs hA (by omega)]; simp only [G.ok_bind]
          rw [eval_ite]
          rfl
        | cons p anc =>
          have hlp := frontier_parent h
          have hne := h.ne_root
          rw [if_pos hne]
          rw [eval_bind, eval_bind, eval_lift, h.parent]; simp only [G.ok_bind]
          rw [eval_pure]; simp only [G.ok_bind]
          rw [eval_bind]; unfold parentTs; simp only []; rw [eval_getTs hA (by omega)]; simp only [G.ok_bind]
          rw [eval_bind, eval_getTs hA (by omega)]; simp only [G.ok_bind]
          rw [eval_ite]
          subst hlp
          rfl
      rw [hpar]
      have hle : lb ts lo ≤ ts (hi - 1) := by have := lb_le_rb ht (lo := lo) (hi := hi) (by omega) (by omega); rwa [erb] at this
      have hcode : cfg.isDistinguished (lb ts lo) (ts (rt lo hi)) = true := by
        rw [e]; exact (isDistinguished_iff hle (ht.2 _ (by omega))).2 hw
      have hnl := noLeftChild_iff h
      by_cases hlo : lo = rt lo hi
      · rw [if_neg (by rw [hnl.2 hlo]; simp)]
        by_cases hl0 : lo = 0
        · rw [if_pos hl0]
          refine ⟨none, rfl, ?_⟩
          rintro y ⟨-, hy⟩; omega
        · rw [if_neg hl0]
          refine ⟨some (lo - 1), rfl, ⟨?_, by omega⟩, ?_⟩
          · cases anc with
            | nil => cases h; omega
            | cons p anc =>
              have hlp := frontier_parent h
              obtain ⟨lo', hi', h', e'⟩ := h.up
              have hb' := h'.bounds
              have : lo - 1 = rt lo' hi' := by omega
              rw [this, distinguished_iff ht h']
              have hs : lo' ≤ lo ∧ hi ≤ hi' := by
                cases h with
                | left h hl => have := h.bounds; omega
                | right h hr2 =>
                  obtain ⟨rfl, rfl⟩ := at_unique h' h e'
                  omega
              have h1 := lb_mono ht (n := hi) hs.1 (by omega)
              have h2 := rb_mono ht (n := hi) hs.2 hb'.2.2 h0
              rw [erb] at h2
              unfold Wide at *
              omega
          · rintro y ⟨-, hy⟩; omega
      · rw [if_pos ⟨by rw [hnl]; exact hlo, hcode⟩]
        rw [eval_bind, eval_lift, left_rt h, if_pos (by omega)]
        simp only [G.ok_bind]
        have hL : At hi lo (rt lo hi) (rt lo hi :: anc) := .left h (by omega)
        obtain ⟨z, hz1, hz2, hz3⟩ := previousLoop_eval (cfg := cfg) hA (rt lo hi) (ts (rt lo hi)) hi lo (lb ts lo) hi _ hL
          (by omega) (by omega) hcode
        refine ⟨some z, hz1, ?_, ?_⟩
        · have hzr := hz2.range (by omega)
          obtain ⟨a, b, c, hc, ec⟩ := exists_at hi 0 hi [] (by omega) (.root h0) z (by omega) (by omega)
          refine ⟨?_, by omega⟩
          have erb2 : rb ts hi (rt lo hi) = ts (rt lo hi) := by unfold rb; rw [if_neg (by omega)]
          rw [← ec, distinguished_iff ht hc]
          rw [← erb2] at hz2
          have := DistIn.congr (D' := Wide cfg.rmw) ht (fun l r h1 h2 => isDistinguished_iff h1 h2) _ _ _ _ (le_refl _) hL hz2
          rw [← ec] at this hzr
          exact (distIn_iff ht _ _ _ _ (le_refl _) hL a b c hc hzr.1 hzr.2).1 this
        · rintro y ⟨hy, hy2⟩
          have hzr := hz2.range (by omega)
          by_cases hyl : y < lo
          · omega
          · apply hz3
            obtain ⟨a, b, c, hc, ec⟩ := exists_at hi 0 hi [] (by omega) (.root h0) y (by omega) (by omega)
            have erb2 : rb ts hi (rt lo hi) = ts (rt lo hi) := by unfold rb; rw [if_neg (by omega)]
            rw [← ec, distinguished_iff ht hc] at hy
            have := (distIn_iff ht _ _ _ _ (le_refl _) hL a b c hc (by omega) (by omega)).2 hy
            have := DistIn.congr (D' := fun l r => cfg.isDistinguished l r = true) ht (fun l r h1 h2 => (isDistinguished_iff h1 h2).symm) _ _ _ _ (le_refl _) hL this
            rw [erb2, ec] at this
            exact this
    · rw [if_pos hxl]
      exact ⟨some x, rfl, ⟨hx, by omega⟩, fun y hy => hmax' y hy.1⟩

end Katie.Alg
