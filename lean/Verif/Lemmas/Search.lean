import Verif.Spec.Search
import Verif.Spec.HonestLog
import Verif.Lemmas.Distinguished

/- Lemmas for the search algorithms on an honest log. -/

namespace Katie.Alg
open Katie Katie.SearchTree Katie.SearchSpec Prog

theorem honest_ts {ts : Nat → Nat} {g : Nat → Int} {stop : Nat → Int → Bool} {n : Nat} : TsOk (honest ts g stop) ts n :=
  fun _ _ => rfl

theorem eval_search {ts : Nat → Nat} {g : Nat → Int} {stop : Nat → Int → Bool} {x v : Nat} {om : Bool} :
    eval (honest ts g stop) (getSearch x v om) =
      .ok (if g x < (v : Int) then -1 else if g x > (v : Int) then 1 else 0) := rfl

/-! ### GreatestVersionSearch -/

section
variable {ts : Nat → Nat} {g : Nat → Int} {stop : Nat → Int → Bool} {n : Nat}

/-- the claimed version is wrong -/
theorem greatestLoop_wrong (hg : Grows g n) {v : Nat} (hv : g (n - 1) ≠ v) :
    ∀ (m lo fuel : Nat) (anc : List Nat) (term : Option Nat), At n lo n anc → n - lo ≤ m → m ≤ fuel →
    Errs (eval (honest ts g stop) (greatestLoop v n fuel (rt lo n) term)) ∧
    (v = 0 → g (n - 1) < 0 → eval (honest ts g stop) (greatestLoop v n fuel (rt lo n) term) = goErr errLabelNotFound) := by
  intro m
  induction m with
  | zero => intro lo fuel anc term h h1; have := h.bounds; omega
  | succ m ih =>
    intro lo fuel anc term h h1 h2
    obtain ⟨f, rfl⟩ : ∃ f, fuel = f + 1 := ⟨fuel - 1, by omega⟩
    have hb := h.bounds
    have hgm := hg (rt lo n) (n - 1) (by omega) (by omega)
    unfold greatestLoop
    rw [eval_bind, eval_search]
    simp only [G.ok_bind]
    rw [eval_ite]
    by_cases h1' : g (rt lo n) > (v : Int)
    · rw [if_neg (by omega : ¬ g (rt lo n) < (v : Int)), if_pos h1']
      refine ⟨⟨_, rfl⟩, ?_⟩
      intro h0 hneg; omega
    · rw [if_neg h1']
      rw [if_neg (by split <;> omega)]
      rw [eval_ite]
      by_cases hx : rt lo n = n - 1
      · rw [if_neg (by simp [hx])]
        have hlt : g (rt lo n) < (v : Int) := by rw [hx] at h1' ⊢; omega
        rw [if_pos hlt, eval_ite]
        by_cases hv0 : v = 0
        · rw [if_pos ⟨hv0, rfl⟩]
          exact ⟨⟨_, rfl⟩, fun _ _ => rfl⟩
        · rw [if_neg (by tauto), eval_ite, if_pos (by decide)]
          exact ⟨⟨_, rfl⟩, fun h => absurd h hv0⟩
      · rw [if_pos hx, eval_bind, eval_lift, right_rt h (by omega)]
        simp only [G.ok_bind]
        exact ih _ f _ _ (.right h (by omega)) (by omega) (by omega)

/-- a terminal entry was already found -/
theorem greatestLoop_found (hg : Grows g n) {v : Nat} (hv : g (n - 1) = v) (t : Nat) :
    ∀ (m lo fuel : Nat) (anc : List Nat), At n lo n anc → n - lo ≤ m → m ≤ fuel → g (rt lo n) = v →
    eval (honest ts g stop) (greatestLoop v n fuel (rt lo n) (some t)) = .ok t := by
  intro m
  induction m with
  | zero => intro lo fuel anc h h1; have := h.bounds; omega
  | succ m ih =>
    intro lo fuel anc h h1 h2 hgx
    obtain ⟨f, rfl⟩ : ∃ f, fuel = f + 1 := ⟨fuel - 1, by omega⟩
    have hb := h.bounds
    unfold greatestLoop
    rw [eval_bind, eval_search]
    simp only [G.ok_bind]
    rw [if_neg (by omega : ¬ g (rt lo n) < (v : Int)), if_neg (by omega : ¬ g (rt lo n) > (v : Int))]
    rw [eval_ite, if_neg (by decide), eval_ite]
    by_cases hx : rt lo n = n - 1
    · rw [if_neg (by simp [hx]), eval_ite, if_neg (by simp), eval_ite, if_neg (by simp)]
      simp [eval_pure]
    · rw [if_pos hx, eval_bind, eval_lift, right_rt h (by omega)]
      simp only [G.ok_bind]
      have hb2 := (At.right h (by omega : rt lo n + 1 < n)).bounds
      have := ih _ f _ (.right h (by omega)) (by omega) (by omega) (by
        have h3 := hg (rt lo n) (rt (rt lo n + 1) n) (by omega) (by omega)
        have h4 := hg (rt (rt lo n + 1) n) (n - 1) (by omega) (by omega)
        omega)
      simpa using this

/-- entries of the right edge between a node and its right child do not exist -/
theorem onFrontier_next {n lo y : Nat} {anc : List Nat} (h : At n lo n anc) (hr : rt lo n + 1 < n)
    (hy : OnFrontier n y) (h1 : rt lo n < y) : rt (rt lo n + 1) n ≤ y := by
  obtain ⟨lo', anc', ha, e⟩ := hy
  have hR := At.right h hr
  have hb := hR.bounds
  have hb' := ha.bounds
  by_contra hlt
  have hs := at_sub hR ha (by omega) (by omega)
  have hs2 := at_sub ha hR (by omega) (by omega)
  have : lo' = rt lo n + 1 := by omega
  subst this
  omega

theorem greatestLoop_right (hg : Grows g n) {v : Nat} (hv : g (n - 1) = v) :
    ∀ (m lo fuel : Nat) (anc : List Nat), At n lo n anc → n - lo ≤ m → m ≤ fuel →
    ∃ x, eval (honest ts g stop) (greatestLoop v n fuel (rt lo n) none) = .ok x ∧
      OnFrontier n x ∧ rt lo n ≤ x ∧ g x = v ∧ ∀ y, OnFrontier n y → rt lo n ≤ y → y < x → g y < v := by
  intro m
  induction m with
  | zero => intro lo fuel anc h h1; have := h.bounds; omega
  | succ m ih =>
    intro lo fuel anc h h1 h2
    obtain ⟨f, rfl⟩ : ∃ f, fuel = f + 1 := ⟨fuel - 1, by omega⟩
    have hb := h.bounds
    have hgm := hg (rt lo n) (n - 1) (by omega) (by omega)
    by_cases hgx : g (rt lo n) = v
    · refine ⟨rt lo n, ?_, ⟨lo, anc, h, rfl⟩, le_refl _, hgx, fun y _ h1 h2 => by omega⟩
      unfold greatestLoop
      rw [eval_bind, eval_search]
      simp only [G.ok_bind]
      rw [if_neg (by omega : ¬ g (rt lo n) < (v : Int)), if_neg (by omega : ¬ g (rt lo n) > (v : Int))]
      rw [eval_ite, if_neg (by decide), eval_ite]
      by_cases hx : rt lo n = n - 1
      · rw [if_neg (by simp [hx]), eval_ite, if_neg (by simp), eval_ite, if_neg (by simp)]
        simp [eval_pure]
      · rw [if_pos hx, eval_bind, eval_lift, right_rt h (by omega)]
        simp only [G.ok_bind]
        have hb2 := (At.right h (by omega : rt lo n + 1 < n)).bounds
        have := greatestLoop_found (ts := ts) (stop := stop) hg hv (rt lo n) _ _ f _ (.right h (by omega)) (le_refl _) (by omega) (by
          have h3 := hg (rt lo n) (rt (rt lo n + 1) n) (by omega) (by omega)
          have h4 := hg (rt (rt lo n + 1) n) (n - 1) (by omega) (by omega)
          omega)
        simpa using this
    · have hlt : g (rt lo n) < (v : Int) := by omega
      have hx : rt lo n ≠ n - 1 := by intro e; rw [e] at hgx; exact hgx hv
      unfold greatestLoop
      rw [eval_bind, eval_search]
      simp only [G.ok_bind]
      rw [if_pos hlt]
      rw [eval_ite, if_neg (by decide), eval_ite, if_pos hx, eval_bind, eval_lift, right_rt h (by omega)]
      simp only [G.ok_bind]
      rw [if_neg (by simp)]
      obtain ⟨x, h3, h4, h5, h6, h7⟩ := ih _ f _ (.right h (by omega)) (by omega) (by omega)
      have hb2 := (At.right h (by omega : rt lo n + 1 < n)).bounds
      refine ⟨x, h3, h4, by omega, h6, ?_⟩
      intro y hy hy1 hy2
      by_cases e : y = rt lo n
      · rw [e]; exact hlt
      · exact h7 y hy (onFrontier_next h (by omega) hy (by omega)) hy2

end

/-- the rightmost distinguished entry lies on the right edge -/
theorem greatest_onFrontier {W n x : Nat} {ts : Nat → Nat} (ht : GoodTimes ts n)
    (h : IsGreatest' (Distinguished (Wide W) ts n) (some x)) : OnFrontier n x := by
  obtain ⟨hx, hmax⟩ := h
  have hlt := hx.lt
  obtain ⟨lo, hi, anc, ha, e⟩ := exists_at n 0 n [] (by omega) (.root hx.1) x (by omega) hlt
  have hb := ha.bounds
  by_cases hn : hi = n
  · subst hn; exact ⟨lo, anc, ha, e⟩
  · exfalso
    rcases top_right ha (x := x) (by omega) (by omega) with ⟨-, h2⟩ | ⟨pre, a, lo', anc', rfl, hat, hra, hxa, hlt'⟩
    · exact hn h2
    · have hd : Distinguished (Wide W) ts n a := by
        rw [← hra, distinguished_iff ht hat]
        rw [← e, distinguished_iff ht ha] at hx
        have hs : lo' ≤ lo := by
          by_contra hc
          -- `lo' - 1` is an ancestor of the node on the right edge, hence smaller than `x`
          have hb' := hat.bounds
          cases anc' with
          | nil => cases hat; omega
          | cons p rest =>
            have hp := frontier_parent hat
            have h1 := hlt' p (by simp)
            have h2 := anc_outside ha p (by simp)
            omega
        have h1 := lb_mono ht hs (by omega)
        have h2 := rb_mono ht (n := n) (hi := n) (hi' := hi) hb.2.2 (le_refl _) ha.pos
        unfold Wide at *
        omega
      have := hmax a hd
      omega

/-- starting point of a greatest-version search -/
theorem greatestVersionSearch_eval {cfg : Config} {ts : Nat → Nat} {g : Nat → Int} {stop : Nat → Int → Bool} {n v : Nat}
    (h0 : 0 < n) (ht : GoodTimes ts n) : ∃ start anc lo, IsNode n start lo n anc ∧
      (∀ d, IsGreatest' (Distinguished (Wide cfg.rmw) ts n) d → start = d.getD (rt 0 n)) ∧
      eval (honest ts g stop) (greatestVersionSearch cfg v n) =
        eval (honest ts g stop) (greatestLoop v n n start none) := by
  obtain ⟨r, hr, hg⟩ := rightmostDistinguished_eval (cfg := cfg) (honest_ts (ts := ts) (g := g) (stop := stop) (n := n))
  have hg' : IsGreatest' (Distinguished (Wide cfg.rmw) ts n) r := by
    cases r with
    | none => exact fun y hy => hg y ((distinguished_code_iff ht).2 hy)
    | some x => exact ⟨(distinguished_code_iff ht).1 hg.1, fun y hy => hg.2 y ((distinguished_code_iff ht).2 hy)⟩
  have hun : ∀ d, IsGreatest' (Distinguished (Wide cfg.rmw) ts n) d → d = r := by
    intro d hd
    cases d with
    | none => cases r with
      | none => rfl
      | some x => exact absurd hg'.1 (hd x)
    | some y => cases r with
      | none => exact absurd hd.1 (hg' y)
      | some x => have := hd.2 x hg'.1; have := hg'.2 y hd.1; simp; omega
  have hev : eval (honest ts g stop) (greatestVersionSearch cfg v n) =
      eval (honest ts g stop) (greatestLoop v n n (r.getD (rt 0 n)) none) := by
    unfold greatestVersionSearch
    rw [if_neg (by omega), eval_bind, eval_attempt_ok _ _ _ hr]
    simp only [G.ok_bind]
    rw [root_eq h0]
  cases r with
  | none =>
    exact ⟨rt 0 n, [], 0, ⟨.root h0, rfl⟩, fun d hd => by rw [hun d hd]; rfl, hev⟩
  | some x =>
    obtain ⟨lo, anc, h⟩ := greatest_onFrontier ht hg'
    exact ⟨x, anc, lo, h, fun d hd => by rw [hun d hd]; rfl, hev⟩

/-! ### FixedVersionSearch -/

section
variable {cfg : Config} {ts : Nat → Nat} {g : Nat → Int} {stop : Nat → Int → Bool} {n : Nat}

theorem isExpired_iff (ht : GoodTimes ts n) {y : Nat} (hy : y < n) :
    cfg.isExpired (ts y) (ts (n - 1)) = true ↔ Expired cfg ts n y := by
  have h1 := ht.1 y (n - 1) (by omega) (by omega)
  have h2 := ht.2 (n - 1) (by omega)
  unfold Config.isExpired Expired sub64
  split
  · simp [*]
  · rw [decide_eq_true_iff]
    constructor
    · intro h; exact ⟨by assumption, by omega⟩
    · rintro ⟨-, h⟩; omega

theorem _root_.Katie.SearchSpec.Expired.mono (ht : GoodTimes ts n) {i j : Nat} (hij : i ≤ j) (hj : j < n) (h : Expired cfg ts n j) :
    Expired cfg ts n i := by
  have := ht.1 i j hij hj
  exact ⟨h.1, by have := h.2; omega⟩

theorem not_expired_last (h0 : 0 < n) : ¬ Expired cfg ts n (n - 1) := by
  rintro ⟨h1, h2⟩; omega

/-- If `y` is distinguished, so is every entry whose subtree contains it. -/
theorem dist_up {W lo hi y : Nat} {anc : List Nat} (ht : GoodTimes ts n) (h : At n lo hi anc) (h1 : lo ≤ y) (h2 : y < hi)
    (hd : Distinguished (Wide W) ts n y) : Distinguished (Wide W) ts n (rt lo hi) := by
  have hb := h.bounds
  obtain ⟨a, b, c, hc, e, h3, h4⟩ := exists_at_sub _ _ _ _ (le_refl _) h y h1 h2
  rw [← e, distinguished_iff ht hc] at hd
  rw [distinguished_iff ht h]
  have h5 := lb_mono ht h3 (by have := hc.bounds; omega)
  have h6 := rb_mono ht h4 hb.2.2 h.pos
  unfold Wide at *
  omega

/-- Between `y` and the subtree over `[lo, hi)` to its right there is an ancestor of the subtree (or `y`
itself is one) that is distinguished if `y` is. -/
theorem anc_between {W lo hi : Nat} {anc : List Nat} (ht : GoodTimes ts n) (h : At n lo hi anc) :
    ∀ y, y < lo → ∃ c ∈ anc, y ≤ c ∧ c < lo ∧
      (Distinguished (Wide W) ts n y → Distinguished (Wide W) ts n c) := by
  induction h with
  | root => intro y hy; omega
  | left h hl ih =>
    intro y hy
    obtain ⟨c, h1, h2⟩ := ih y hy
    exact ⟨c, by simp [h1], h2⟩
  | @right lo hi anc h hr ih =>
    intro y hy
    have hb := h.bounds
    by_cases hlo : y < lo
    · obtain ⟨c, h1, h2, h3, h4⟩ := ih y hlo
      exact ⟨c, by simp [h1], h2, by omega, h4⟩
    · exact ⟨rt lo hi, by simp, by omega, by omega, dist_up ht h (by omega) (by omega)⟩

/-- the range's right neighbour is an ancestor -/
theorem anc_hi {lo hi : Nat} {anc : List Nat} (h : At n lo hi anc) : hi < n → hi ∈ anc := by
  induction h with
  | root => intro h; omega
  | left h hl ih => intro _; simp
  | right h hr ih => intro hh; simp [ih hh]

/-- how a search for version `t` may end -/
def FixedResult (cfg : Config) (ts : Nat → Nat) (g : Nat → Int) (n t : Nat) (r : G Nat) : Prop :=
  (∃ p, r = .ok p ∧ Terminal cfg ts g n t p ∧
    ((∀ lo hi anc, IsNode n p lo hi anc → ∀ y ∈ anc, ¬ Expired cfg ts n y) ∨ ∃ y, y ≤ p ∧ Live cfg ts n y)) ∨
  (r = goErr errLabelNotFound ∧ g (n - 1) < t) ∨
  (r = goErr errLabelExpired ∧ ∃ p, Terminal cfg ts g n t p ∧ Expired cfg ts n 0 ∧ ∀ y, y < p → ¬ Live cfg ts n y)

/-- invariant of the loop of `FixedVersionSearch` -/
structure FixedInv (cfg : Config) (ts : Nat → Nat) (g : Nat → Int) (n t lo hi : Nat) (anc : List Nat) (s : FixedState) :
    Prop where
  x : s.x = rt lo hi
  l : s.left = lb ts lo
  r : s.right = rb ts n hi
  below : ∀ y, y < lo → Expired cfg ts n y ∨ g y < t
  term : s.terminal = if hi = n then none else some hi
  hi : hi < n → ¬ Expired cfg ts n hi ∧ (t : Int) < g hi
  exp : s.expired = true ↔ ∃ y ∈ anc, Expired cfg ts n y
  dist : ∀ y, y ∈ s.distinguished ↔ y ∈ anc ∧ Live cfg ts n y

/-- the end of the search when no entry with greatest version `t` was met: `b` is the first unexpired entry
containing `t`, and the path to it was `path` -/
theorem fixedFinish_eval (ht : GoodTimes ts n) (h0 : 0 < n) {t b : Nat} {path : List Nat} {exp : Bool} {ds : List Nat}
    (hb : b ≤ n) (hbelow : ∀ y, y < b → Expired cfg ts n y ∨ g y < t)
    (hhi : b < n → ¬ Expired cfg ts n b ∧ (t : Int) < g b)
    (hexp : exp = true ↔ ∃ y ∈ path, Expired cfg ts n y)
    (hpath : ∀ y ∈ path, y < n)
    (hanc : b < n → ∀ lo hi anc, IsNode n b lo hi anc → ∀ y ∈ anc, y ∈ path)
    (hds : ∀ y, y ∈ ds ↔ y ∈ path ∧ Live cfg ts n y)
    (hbet : ∀ y, y < b → ∃ c ∈ path, y ≤ c ∧ c < b ∧
      (Distinguished (Wide cfg.rmw) ts n y → Distinguished (Wide cfg.rmw) ts n c)) :
    FixedResult cfg ts g n t (eval (honest ts g stop) (fixedFinish t (if b = n then none else some b) exp ds)) := by
  by_cases hbn : b = n
  · rw [if_pos hbn]
    right; left
    refine ⟨rfl, ?_⟩
    rcases hbelow (n - 1) (by omega) with h | h
    · exact absurd h (not_expired_last h0)
    · exact h
  · rw [if_neg hbn]
    have hlt : b < n := by omega
    obtain ⟨hne, hgt⟩ := hhi hlt
    have hterm : Terminal cfg ts g n t b := by
      refine ⟨hlt, by unfold Contains; omega, hne, Or.inr ?_⟩
      intro y hy hc
      rcases hbelow y hy with h | h
      · exact h
      · unfold Contains at hc; omega
    unfold fixedFinish
    simp only []
    rw [eval_ite]
    by_cases hc : exp = true ∧ ¬ ds.any (fun y => decide (y < b)) = true
    · rw [if_pos hc]
      right; right
      refine ⟨rfl, b, hterm, ?_, ?_⟩
      · obtain ⟨y, hy, hye⟩ := hexp.1 hc.1
        exact hye.mono ht (by omega) (hpath y hy)
      · intro y hy hlive
        apply hc.2
        obtain ⟨c, hcp, h1, h2, h3⟩ := hbet y hy
        rw [List.any_eq_true]
        refine ⟨c, (hds c).2 ⟨hcp, h3 hlive.1, ?_⟩, by simp [h2]⟩
        intro he
        exact hlive.2 (he.mono ht h1 (by omega))
    · rw [if_neg hc]
      left
      refine ⟨b, ?_, hterm, ?_⟩
      · rw [eval_bind]
        have : eval (honest ts g stop) (getIncl b [t]) = .ok () := by
          show honest ts g stop (.incl b [t]) = _
          unfold honest
          simp only []
          rw [if_pos (by simp; omega)]; rfl
        rw [this]; rfl
      · by_cases he : exp = true
        · right
          have : ds.any (fun y => decide (y < b)) = true := by
            by_contra hcc; exact hc ⟨he, hcc⟩
          rw [List.any_eq_true] at this
          obtain ⟨y, hy, hyb⟩ := this
          exact ⟨y, by simp at hyb; omega, ((hds y).1 hy).2⟩
        · left
          intro lo hi anc hnode y hy hye
          exact he (hexp.2 ⟨y, hanc hlt lo hi anc hnode y hy, hye⟩)

theorem fixedLoop_eval (ht : GoodTimes ts n) (hg : Grows g n) {t : Nat} :
    ∀ (m lo hi fuel : Nat) (anc : List Nat) (s : FixedState), At n lo hi anc → hi - lo ≤ m → m ≤ fuel →
    FixedInv cfg ts g n t lo hi anc s →
    FixedResult cfg ts g n t (eval (honest ts g stop) (fixedLoop cfg t n (ts (n - 1)) fuel s)) := by
  intro m
  induction m with
  | zero => intro lo hi fuel anc s h h1; have := h.bounds; omega
  | succ m ih =>
    intro lo hi fuel anc s h h1 h2 hi'
    obtain ⟨f, rfl⟩ : ∃ f, fuel = f + 1 := ⟨fuel - 1, by omega⟩
    have hb := h.bounds
    have h0 := h.pos
    have hnr := noRightChild_iff h
    have hnl := noLeftChild_iff h
    obtain ⟨x, term, exp, l, r, ds⟩ := s
    have hx := hi'.x; have hl := hi'.l; have hr := hi'.r; have hbelow := hi'.below; have hterm := hi'.term
    have hhi := hi'.hi; have hexp := hi'.exp; have hdist := hi'.dist
    clear hi'
    simp only at hx hl hr hterm hexp hdist
    subst hx hl hr hterm
    have hancs : ∀ y ∈ rt lo hi :: anc, y < n := by
      intro y hy
      rcases List.mem_cons.1 hy with rfl | hy
      · omega
      · exact anc_lt h y hy
    have elb : lb ts (rt lo hi + 1) = ts (rt lo hi) := by unfold lb; rw [if_neg (by omega)]; rfl
    have erb : rb ts n (rt lo hi) = ts (rt lo hi) := by unfold rb; rw [if_neg (by omega)]
    -- what lies between an entry left of `hi` and the end of the path
    have hbet : ∀ b, b = hi ∧ rt lo hi + 1 = hi ∨ b = rt lo hi ∧ lo = rt lo hi → ∀ y, y < b →
        ∃ c ∈ rt lo hi :: anc, y ≤ c ∧ c < b ∧
        (Distinguished (Wide cfg.rmw) ts n y → Distinguished (Wide cfg.rmw) ts n c) := by
      intro b hb1 y hy
      by_cases hyl : y < lo
      · obtain ⟨c, h1, h2, h3, h4⟩ := anc_between (W := cfg.rmw) ht h y hyl
        exact ⟨c, by simp [h1], h2, by omega, h4⟩
      · rcases hb1 with ⟨rfl, hb2⟩ | ⟨rfl, hb2⟩
        · exact ⟨rt lo b, by simp, by omega, by omega, dist_up ht h (by omega) (by omega)⟩
        · omega
    have hanc : ∀ b, b < n → (b = hi ∨ b = rt lo hi) → ∀ lo' hi' anc', IsNode n b lo' hi' anc' → ∀ y ∈ anc', y ∈ rt lo hi :: anc := by
      intro b hbn hb1 lo' hi' anc' hnode y hy
      rcases hb1 with rfl | rfl
      · -- `hi` is an ancestor of this subtree, its ancestors too
        have hm := anc_hi h hbn
        obtain ⟨hn1, hn2⟩ := hnode
        have : ∀ {lo hi : Nat} {anc : List Nat}, At n lo hi anc → ∀ b ∈ anc, ∀ lo' hi' anc', At n lo' hi' anc' → rt lo' hi' = b →
            ∀ y ∈ anc', y ∈ anc := by
          intro lo hi anc h
          induction h with
          | root => intro b hb; simp at hb
          | @left lo hi anc h hl ih =>
            intro b hb lo' hi' anc' hn1 hn2 y hy
            rcases List.mem_cons.1 hb with rfl | hb
            · rw [anc_unique hn1 h hn2] at hy; simp [hy]
            · have := ih b hb lo' hi' anc' hn1 hn2 y hy; simp [this]
          | @right lo hi anc h hl ih =>
            intro b hb lo' hi' anc' hn1 hn2 y hy
            rcases List.mem_cons.1 hb with rfl | hb
            · rw [anc_unique hn1 h hn2] at hy; simp [hy]
            · have := ih b hb lo' hi' anc' hn1 hn2 y hy; simp [this]
        have := this h b hm lo' hi' anc' hn1 hn2 y hy
        simp [this]
      · rw [anc_unique hnode.1 h hnode.2] at hy
        simp [hy]
    unfold fixedLoop
    simp only []
    rw [eval_bind, eval_getTs honest_ts (show rt lo hi < n by omega)]
    simp only [G.ok_bind]
    rw [eval_ite]
    by_cases hex : Expired cfg ts n (rt lo hi)
    · rw [if_pos ((isExpired_iff ht (by omega)).2 hex), eval_ite]
      have hexp' : true = true ↔ ∃ y ∈ rt lo hi :: anc, Expired cfg ts n y := by
        simp only [true_iff]
        exact ⟨_, by simp, hex⟩
      have hdist' : ∀ y, y ∈ ds ↔ y ∈ rt lo hi :: anc ∧ Live cfg ts n y := by
        intro y
        rw [hdist]
        constructor
        · rintro ⟨h1, h2⟩; exact ⟨by simp [h1], h2⟩
        · rintro ⟨h1, h2⟩
          refine ⟨?_, h2⟩
          rcases List.mem_cons.1 h1 with rfl | h1
          · exact absurd hex h2.2
          · exact h1
      have hbelow' : ∀ y, y < rt lo hi + 1 → Expired cfg ts n y ∨ g y < t :=
        fun y hy => Or.inl (hex.mono ht (by omega) (by omega))
      by_cases hr : rt lo hi + 1 < hi
      · rw [if_neg (by rw [hnr]; omega), eval_bind, eval_lift, right_rt h hr]
        simp only [G.ok_bind]
        refine ih _ _ f _ _ (.right h hr) (by omega) (by omega) ⟨rfl, elb.symm, rfl, hbelow', rfl, hhi, hexp', hdist'⟩
      · have e : rt lo hi + 1 = hi := by omega
        rw [if_pos (by rw [hnr]; omega)]
        rw [e] at hbelow'
        exact fixedFinish_eval ht h0 hb.2.2 hbelow' hhi hexp' hancs (fun hh => hanc hi hh (Or.inl rfl)) hdist'
          (hbet hi (Or.inl ⟨rfl, e⟩))
    · rw [if_neg (by rw [isExpired_iff ht (by omega)]; exact hex)]
      have hexp' : exp = true ↔ ∃ y ∈ rt lo hi :: anc, Expired cfg ts n y := by
        rw [hexp]
        constructor
        · rintro ⟨y, h1, h2⟩; exact ⟨y, by simp [h1], h2⟩
        · rintro ⟨y, h1, h2⟩
          rcases List.mem_cons.1 h1 with rfl | h1
          · exact absurd h2 hex
          · exact ⟨y, h1, h2⟩
      obtain ⟨ds', hds'⟩ : ∃ ds', ds' = (if cfg.isDistinguished (lb ts lo) (rb ts n hi) = true then ds ++ [rt lo hi] else ds) := ⟨_, rfl⟩
      rw [← hds']
      have hdist' : ∀ y, y ∈ ds' ↔ y ∈ rt lo hi :: anc ∧ Live cfg ts n y := by
        intro y
        have hd : cfg.isDistinguished (lb ts lo) (rb ts n hi) = true ↔ Distinguished (Wide cfg.rmw) ts n (rt lo hi) := by
          rw [distinguished_iff ht h]
          exact isDistinguished_iff (lb_le_rb ht (by omega) hb.2.2) (rb_lt ht hb.2.2 h0)
        rw [hds']
        by_cases hc : cfg.isDistinguished (lb ts lo) (rb ts n hi) = true
        · rw [if_pos hc, List.mem_append, hdist]
          constructor
          · rintro (⟨h1, h2⟩ | h1)
            · exact ⟨by simp [h1], h2⟩
            · rw [List.mem_singleton] at h1
              subst h1
              exact ⟨by simp, hd.1 hc, hex⟩
          · rintro ⟨h1, h2⟩
            rcases List.mem_cons.1 h1 with rfl | h1
            · right; simp
            · left; exact ⟨h1, h2⟩
        · rw [if_neg hc, hdist]
          constructor
          · rintro ⟨h1, h2⟩; exact ⟨by simp [h1], h2⟩
          · rintro ⟨h1, h2⟩
            rcases List.mem_cons.1 h1 with rfl | h1
            · exact absurd (hd.2 h2.1) hc
            · exact ⟨h1, h2⟩
      rw [eval_bind, eval_search]
      simp only [G.ok_bind]
      rcases lt_trichotomy (g (rt lo hi)) (t : Int) with hgx | hgx | hgx
      · rw [if_pos hgx, eval_ite, if_pos rfl, eval_ite]
        rw [if_neg (show ¬ ((-1 : Int) ≥ 0 ∧ _) by rintro ⟨h, -⟩; exact absurd h (by decide))]
        have hbelow' : ∀ y, y < rt lo hi + 1 → Expired cfg ts n y ∨ g y < t := by
          intro y hy
          have := hg y (rt lo hi) (by omega) (by omega)
          right; omega
        by_cases hr : rt lo hi + 1 < hi
        · rw [if_neg (by rw [hnr]; omega), eval_bind, eval_lift, right_rt h hr]
          simp only [G.ok_bind]
          refine ih _ _ f _ _ (.right h hr) (by omega) (by omega) ⟨rfl, elb.symm, rfl, hbelow', rfl, hhi, hexp', hdist'⟩
        · have e : rt lo hi + 1 = hi := by omega
          rw [if_pos (by rw [hnr]; omega)]
          rw [e] at hbelow'
          exact fixedFinish_eval ht h0 hb.2.2 hbelow' hhi hexp' hancs (fun hh => hanc hi hh (Or.inl rfl)) hdist'
            (hbet hi (Or.inl ⟨rfl, e⟩))
      · rw [if_neg (show ¬ g (rt lo hi) < (t : Int) by omega), if_neg (show ¬ g (rt lo hi) > (t : Int) by omega)]
        rw [eval_ite, if_neg (by decide), eval_ite, if_neg (by decide), eval_ite]
        have hT : Terminal cfg ts g n t (rt lo hi) := ⟨by omega, by unfold Contains; omega, hex, Or.inl hgx⟩
        by_cases he : exp = true
        · rw [if_neg (by simp [he]), eval_ite]
          by_cases ha : ds'.any (fun y => decide (y ≤ rt lo hi)) = true
          · rw [if_pos ha]
            left
            refine ⟨_, rfl, hT, Or.inr ?_⟩
            rw [List.any_eq_true] at ha
            obtain ⟨y, hy, hyb⟩ := ha
            exact ⟨y, by simpa using hyb, ((hdist' y).1 hy).2⟩
          · rw [if_neg ha]
            right; right
            refine ⟨rfl, _, hT, ?_, ?_⟩
            · obtain ⟨y, hy, hye⟩ := hexp'.1 he
              exact hye.mono ht (by omega) (hancs y hy)
            · intro y hy hlive
              apply ha
              rw [List.any_eq_true]
              by_cases hyl : y < lo
              · obtain ⟨c, h1, h2, h3, h4⟩ := anc_between (W := cfg.rmw) ht h y hyl
                refine ⟨c, (hdist' c).2 ⟨by simp [h1], h4 hlive.1, ?_⟩, by simp; omega⟩
                intro hce; exact hlive.2 (hce.mono ht h2 (by omega))
              · refine ⟨rt lo hi, (hdist' _).2 ⟨by simp, dist_up ht h (by omega) (by omega) hlive.1, hex⟩, by simp⟩
        · rw [if_pos he]
          left
          refine ⟨_, rfl, hT, Or.inl ?_⟩
          intro lo' hi' anc' hnode y hy hye
          rw [anc_unique hnode.1 h hnode.2] at hy
          exact he (hexp'.2 ⟨y, by simp [hy], hye⟩)
      · rw [if_neg (show ¬ g (rt lo hi) < (t : Int) by omega), if_pos hgx]
        have hall : (if hi = n then none else some hi : Option Nat).all (fun t => decide (rt lo hi < t)) = true := by
          split
          · rfl
          · simp; omega
        have hcond : (1 : Int) ≥ 0 ∧ (if hi = n then none else some hi : Option Nat).all (fun t => decide (rt lo hi < t)) = true :=
          ⟨by decide, hall⟩
        simp only [if_pos hcond]
        rw [eval_ite, if_neg (by decide), eval_ite, if_pos trivial, eval_ite]
        have hhi' : rt lo hi < n → ¬ Expired cfg ts n (rt lo hi) ∧ (t : Int) < g (rt lo hi) := fun _ => ⟨hex, hgx⟩
        have hterm' : some (rt lo hi) = if rt lo hi = n then none else some (rt lo hi) := by
          rw [if_neg (by omega)]
        by_cases hl : lo < rt lo hi
        · rw [if_neg (by rw [hnl]; omega), eval_bind, eval_lift, left_rt h, if_pos hl]
          simp only [G.ok_bind]
          refine ih _ _ f _ _ (.left h hl) (by omega) (by omega) ⟨rfl, rfl, erb.symm, hbelow, hterm', hhi', hexp', hdist'⟩
        · have e : lo = rt lo hi := by omega
          rw [if_pos (by rw [hnl]; exact e), hterm']
          refine fixedFinish_eval ht h0 (by omega) (fun y hy => hbelow y (by omega)) hhi' hexp' hancs
            (fun hh => hanc _ hh (Or.inr rfl)) hdist' (hbet _ (Or.inr ⟨rfl, e⟩))

theorem fixedVersionSearch_eval (ht : GoodTimes ts n) (hg : Grows g n) (h0 : 0 < n) (t : Nat) :
    FixedResult cfg ts g n t (eval (honest ts g stop) (fixedVersionSearch cfg t n)) := by
  unfold fixedVersionSearch
  rw [if_neg (by omega), eval_bind, eval_getTs honest_ts (show n - 1 < n by omega)]
  simp only [G.ok_bind]
  have erb : rb ts n n = ts (n - 1) := by simp [rb]
  refine fixedLoop_eval ht hg n 0 n n [] _ (.root h0) (by omega) (by omega) ⟨root_eq h0, rfl, erb.symm, ?_, by simp, ?_, by simp, by simp⟩
  · intro y hy; omega
  · intro h; omega

end

end Katie.Alg
