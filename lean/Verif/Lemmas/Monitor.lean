import Verif.Spec.Monitor
import Verif.Lemmas.Trace
import Verif.Lemmas.Search

/- Lemmas about contact monitoring. -/

namespace Katie.Alg
open Katie Katie.SearchTree Katie.SearchSpec Prog

/-! ### ancestors to the right -/

theorem rightAnc_iff {n lo hi y : Nat} {anc : List Nat} (h : At n lo hi anc) :
    RightAnc n (rt lo hi) y ↔ y ∈ anc ∧ rt lo hi < y := by
  constructor
  · rintro ⟨lo', hi', anc', ⟨h', e⟩, hy⟩
    rw [anc_unique h' h e] at hy; exact hy
  · intro hy; exact ⟨lo, hi, anc, ⟨h, rfl⟩, hy⟩

/-- ancestors right of a range, from near to far, are increasing and right of the range -/
theorem rpath_sorted {n lo hi x : Nat} {anc : List Nat} (h : At n lo hi anc) (h1 : lo ≤ x) (h2 : x < hi) :
    (anc.filter (fun y => y > x)).Pairwise (· < ·) ∧ ∀ y ∈ anc, y > x → hi ≤ y := by
  induction h with
  | root => simp
  | @left lo hi anc h hl ih =>
    have hb := h.bounds
    obtain ⟨i1, i2⟩ := ih h1 (by omega)
    constructor
    · rw [List.filter_cons_of_pos (by simpa using h2), List.pairwise_cons]
      refine ⟨?_, i1⟩
      intro y hy
      rw [List.mem_filter] at hy
      have := i2 y hy.1 (by simpa using hy.2)
      omega
    · intro y hy hgt
      rcases List.mem_cons.1 hy with rfl | hy
      · exact le_refl _
      · have := i2 y hy hgt; omega
  | @right lo hi anc h hr ih =>
    have hb := h.bounds
    obtain ⟨i1, i2⟩ := ih (by omega) h2
    constructor
    · rw [List.filter_cons_of_neg (by simp; omega)]; exact i1
    · intro y hy hgt
      rcases List.mem_cons.1 hy with rfl | hy
      · omega
      · exact i2 y hy hgt

/-- The ancestors of a node are a prefix of smaller nodes, the ancestor, and the ancestors of the ancestor. -/
theorem anc_split {n lo hi y : Nat} {anc : List Nat} (h : At n lo hi anc) (hy : y ∈ anc) :
    ∃ pre anc2 lo2 hi2, anc = pre ++ y :: anc2 ∧ At n lo2 hi2 anc2 ∧ rt lo2 hi2 = y := by
  induction h with
  | root => simp at hy
  | @left lo hi anc h hl ih =>
    rcases List.mem_cons.1 hy with rfl | hy
    · exact ⟨[], anc, lo, hi, rfl, h, rfl⟩
    · obtain ⟨pre, anc2, lo2, hi2, rfl, h2⟩ := ih hy
      exact ⟨_ :: pre, anc2, lo2, hi2, rfl, h2⟩
  | @right lo hi anc h hl ih =>
    rcases List.mem_cons.1 hy with rfl | hy
    · exact ⟨[], anc, lo, hi, rfl, h, rfl⟩
    · obtain ⟨pre, anc2, lo2, hi2, rfl, h2⟩ := ih hy
      exact ⟨_ :: pre, anc2, lo2, hi2, rfl, h2⟩

theorem _root_.Katie.SearchSpec.RightAnc.lt {n x y : Nat} (h : RightAnc n x y) : x < y := by
  obtain ⟨_, _, _, _, _, h⟩ := h; exact h

theorem _root_.Katie.SearchSpec.RightAnc.lt_n {n x y : Nat} (h : RightAnc n x y) : y < n := by
  obtain ⟨_, _, _, h1, h2, h⟩ := h; exact anc_lt h1.1 y h2

theorem _root_.Katie.SearchSpec.RightUp.le {n x y : Nat} (h : RightUp n x y) : x ≤ y := by
  rcases h with rfl | h
  · exact le_refl _
  · exact h.lt.le

theorem _root_.Katie.SearchSpec.RightAnc.trans {n x y z : Nat} (h1 : RightAnc n x y) (h2 : RightAnc n y z) : RightAnc n x z := by
  obtain ⟨lo, hi, anc, ⟨h, rfl⟩, hy, hxy⟩ := h1
  obtain ⟨pre, anc2, lo2, hi2, rfl, ha, e⟩ := anc_split h hy
  have := h2.lt
  rw [← e, rightAnc_iff ha] at h2
  exact ⟨lo, hi, _, ⟨h, rfl⟩, by simp [h2.1], by omega⟩

theorem _root_.Katie.SearchSpec.RightUp.trans {n x y z : Nat} (h1 : RightUp n x y) (h2 : RightUp n y z) : RightUp n x z := by
  rcases h1 with rfl | h1
  · exact h2
  · rcases h2 with rfl | h2
    · exact Or.inr h1
    · exact Or.inr (h1.trans h2)

/-- of two ancestors to the right, the greater one is an ancestor of the smaller one -/
theorem _root_.Katie.SearchSpec.RightAnc.linear {n x y z : Nat} (h1 : RightAnc n x y) (h2 : RightAnc n x z) (h : y < z) : RightAnc n y z := by
  obtain ⟨lo, hi, anc, ⟨ha, rfl⟩, hy, hxy⟩ := h1
  obtain ⟨pre, anc2, lo2, hi2, rfl, ha2, e⟩ := anc_split ha hy
  have hs := (rpath_sorted ha ha.bounds.1 ha.bounds.2.1).1
  have h2' := (rightAnc_iff ha).1 h2
  rw [← e, rightAnc_iff ha2, e]
  refine ⟨?_, h⟩
  rcases List.mem_append.1 h2'.1 with hz | hz
  · exfalso
    rw [List.filter_append, List.filter_cons_of_pos (by simpa using hxy), List.pairwise_append] at hs
    have := hs.2.2 z (by rw [List.mem_filter]; exact ⟨hz, by simpa using h2'.2⟩) y (by simp)
    omega
  · rcases List.mem_cons.1 hz with rfl | hz
    · omega
    · exact hz

theorem _root_.Katie.SearchSpec.NoDist.up {W n x y : Nat} {ts : Nat → Nat} (h : NoDist W ts n x) (hy : RightUp n x y) : NoDist W ts n y :=
  fun d hd => h d (hy.trans hd)

theorem _root_.Katie.SearchSpec.Top.unique {n x t t' : Nat} (h : Top n x t) (h' : Top n x t') : t = t' := by
  have := h.2 t' h'.1; have := h'.2 t h.1; omega

theorem exists_top {n x : Nat} (hx : x < n) : ∃ t, Top n x t := by
  have key : ∀ k, ∀ y, RightUp n x y → n - y ≤ k → ∃ t, Top n x t := by
    intro k
    induction k with
    | zero =>
      intro y hy hk
      exfalso
      rcases hy with rfl | hy
      · omega
      · have := hy.lt_n; omega
    | succ k ih =>
      intro y hy hk
      by_cases h : ∃ z, RightUp n x z ∧ y < z
      · obtain ⟨z, h1, h2⟩ := h
        exact ih z h1 (by omega)
      · exact ⟨y, hy, fun z hz => Nat.le_of_not_lt fun hlt => h ⟨z, hz, hlt⟩⟩
  exact key _ x (Or.inl rfl) (le_refl _)

theorem _root_.Katie.SearchSpec.Top.up {n x y t : Nat} (h : Top n x t) (hy : RightUp n x y) : Top n y t := by
  refine ⟨?_, fun z hz => h.2 z (hy.trans hz)⟩
  have := h.2 y hy
  rcases hy with rfl | hy
  · exact h.1
  · rcases h.1 with rfl | ht
    · have := hy.lt; omega
    · by_cases e : t = y
      · exact Or.inl e
      · exact Or.inr (hy.linear ht (by omega))

/-! ### distinguishedAncestor -/

theorem distAncLoop_runs {m : Monitor} {ts : Nat → Nat} {target : Nat} (ht : GoodTimes ts m.treeSize)
    {loT hiT : Nat} {ancT : List Nat} (hT : IsNode m.treeSize target loT hiT ancT) :
    ∀ (fuel lo hi : Nat) (anc : List Nat) (tr : List Ev) (r : Option Nat), At m.treeSize lo hi anc → lo ≤ target → target < hi →
    (∀ a ∈ anc, Distinguished (Wide m.cfg.rmw) ts m.treeSize a) → TsTrace tr ts →
    Runs (distAncLoop m target fuel (rt lo hi) (lb ts lo) (rb ts m.treeSize hi) (if hi = m.treeSize then none else some hi)) tr (.ok r) →
    IsLeast' (fun d => RightUp m.treeSize target d ∧ Distinguished (Wide m.cfg.rmw) ts m.treeSize d) r := by
  obtain ⟨hAt, eT⟩ := hT
  intro fuel
  induction fuel with
  | zero => intro lo hi anc tr r h h1 h2 hd htr hr; unfold distAncLoop at hr; cases hr
  | succ fuel ih =>
    intro lo hi anc tr r h h1 h2 hd htr hr
    have hb := h.bounds
    have hdc : m.cfg.isDistinguished (lb ts lo) (rb ts m.treeSize hi) = true ↔ Distinguished (Wide m.cfg.rmw) ts m.treeSize (rt lo hi) := by
      rw [distinguished_iff ht h]
      exact isDistinguished_iff (lb_le_rb ht (by omega) hb.2.2) (rb_lt ht hb.2.2 h.pos)
    -- ancestors of the target right of it lie in the range or not left of `hi`
    have hsplit : ∀ d, RightUp m.treeSize target d → lo ≤ d ∧ (d < hi ∨ hi ≤ d) := by
      intro d hd'; have := hd'.le; omega
    have hhi : hi < m.treeSize → RightUp m.treeSize target hi ∧ Distinguished (Wide m.cfg.rmw) ts m.treeSize hi := by
      intro hlt
      have hm := anc_hi h hlt
      refine ⟨?_, hd hi hm⟩
      right
      refine ⟨loT, hiT, ancT, ⟨hAt, eT⟩, ?_, h2⟩
      -- the range of the target lies in this one, so its ancestors include those of this one
      have : ∀ (k lo hi : Nat) (anc : List Nat), hi - lo ≤ k → At m.treeSize lo hi anc → lo ≤ target → target < hi → ∀ a ∈ anc, a ∈ ancT := by
        intro k
        induction k with
        | zero => intro lo hi anc hk h h1 h2; omega
        | succ k ihk =>
          intro lo hi anc hk h h1 h2 a ha
          have hb := h.bounds
          rcases lt_trichotomy target (rt lo hi) with hx | hx | hx
          · exact ihk _ _ _ (by omega) (.left h (by omega)) h1 hx a (by simp [ha])
          · rw [anc_unique hAt h (by rw [eT, hx])]; exact ha
          · exact ihk _ _ _ (by omega) (.right h (by omega)) (by omega) h2 a (by simp [ha])
      exact this _ lo hi anc (le_refl _) h h1 h2 hi hm
    unfold distAncLoop at hr
    rw [runs_ite] at hr
    rcases hr with ⟨hnd, hr⟩ | ⟨hdd, hr⟩
    · obtain ⟨-, hr⟩ := runs_pure.1 hr
      have hr := Except.ok.inj hr
      subst hr
      have hno : ∀ d, lo ≤ d → d < hi → ¬ Distinguished (Wide m.cfg.rmw) ts m.treeSize d := by
        intro d hd1 hd2 hdist
        exact hnd (hdc.2 (dist_up ht h hd1 hd2 hdist))
      by_cases e : hi = m.treeSize
      · rw [if_pos e]
        rintro d ⟨hd1, hd2⟩
        have := hd2.lt
        exact hno d (hsplit d hd1).1 (by omega) hd2
      · rw [if_neg e]
        refine ⟨hhi (by omega), ?_⟩
        rintro d ⟨hd1, hd2⟩
        by_contra hlt
        exact hno d (hsplit d hd1).1 (by omega) hd2
    · have hdist : Distinguished (Wide m.cfg.rmw) ts m.treeSize (rt lo hi) := hdc.1 (by simpa using hdd)
      have hd' : ∀ a ∈ rt lo hi :: anc, Distinguished (Wide m.cfg.rmw) ts m.treeSize a := by
        intro a ha
        rcases List.mem_cons.1 ha with rfl | ha
        · exact hdist
        · exact hd a ha
      simp only [] at hr
      rw [runs_ite] at hr
      rcases hr with ⟨he, hr⟩ | ⟨hne, hr⟩
      · obtain ⟨-, hr⟩ := runs_pure.1 hr
        have hr := Except.ok.inj hr
        subst hr
        rw [if_pos (by omega)]
        refine ⟨⟨Or.inl he, hdist⟩, ?_⟩
        rintro d ⟨hd1, hd2⟩
        have := hd1.le; omega
      · obtain ⟨a, t1, t2, rfl, hg, hr⟩ := runs_bind_ok.1 hr
        have hga := runs_getTs htr.left hg
        subst hga
        rw [runs_ite] at hr
        rcases hr with ⟨hgt, hr⟩ | ⟨hngt, hr⟩
        · obtain ⟨c, t3, t4, rfl, hl, hr⟩ := runs_bind_ok.1 hr
          obtain ⟨-, hl⟩ := runs_lift.1 hl
          rw [left_rt h, if_pos (by omega)] at hl
          have hl := Except.ok.inj hl
          subst hl
          have erb : rb ts m.treeSize (rt lo hi) = ts (rt lo hi) := by unfold rb; rw [if_neg (by omega)]
          refine ih lo (rt lo hi) _ _ r (.left h (by omega)) h1 (by omega) hd' htr.right.right ?_
          rw [erb, if_neg (by omega)]
          rw [if_pos (by omega)] at hr
          exact hr
        · obtain ⟨c, t3, t4, rfl, hl, hr⟩ := runs_bind_ok.1 hr
          obtain ⟨-, hl⟩ := runs_lift.1 hl
          rw [right_rt h (by omega)] at hl
          have hl := Except.ok.inj hl
          subst hl
          have elb : lb ts (rt lo hi + 1) = ts (rt lo hi) := by unfold lb; rw [if_neg (by omega)]; rfl
          refine ih (rt lo hi + 1) hi _ _ r (.right h (by omega)) (by omega) h2 hd' htr.right.right ?_
          rw [elb]
          rw [if_neg (by omega)] at hr
          exact hr

theorem distinguishedAncestor_runs {m : Monitor} {ts : Nat → Nat} {x : Nat} (ht : GoodTimes ts m.treeSize)
    (hrm : m.rightmost = ts (m.treeSize - 1)) (hx : x < m.treeSize) {tr : List Ev} {r : Option Nat} (htr : TsTrace tr ts)
    (hr : Runs (distinguishedAncestor m x) tr (.ok r)) :
    IsLeast' (fun d => RightUp m.treeSize x d ∧ Distinguished (Wide m.cfg.rmw) ts m.treeSize d) r := by
  obtain ⟨lo, hi, anc, h, e⟩ := exists_at m.treeSize 0 m.treeSize [] (by omega) (.root (by omega)) x (by omega) hx
  have erb : rb ts m.treeSize m.treeSize = ts (m.treeSize - 1) := by simp [rb]
  refine distAncLoop_runs ht ⟨h, e⟩ (m.treeSize + 1) 0 m.treeSize [] tr r (.root (by omega)) (by omega) hx (by simp) htr ?_
  rw [erb, if_pos rfl, ← root_eq (by omega), ← hrm]
  exact hr

/-! ### contactMonitor -/

theorem lookup_set (p : PMap) (k v z : Nat) : (p.set k v).lookup z = if z = k then some v else p.lookup z := by
  unfold PMap.set
  by_cases h : z = k
  · subst h; simp
  · rw [if_neg h]
    have hb : (z == k) = false := by simp [h]
    rw [List.lookup, hb]
    simp only []
    induction p with
    | nil => rfl
    | cons e p ih =>
      by_cases he : e.1 = k
      · rw [List.filter_cons_of_neg (by simp [he]), ih, List.lookup]
        have : (z == e.1) = false := by simp [he, h]
        rw [this]
      · rw [List.filter_cons_of_pos (by simp [he])]
        rw [List.lookup, List.lookup, ih]

/-- what inspecting the entries of `L` leaves behind -/
theorem inspectAll_runs {ver : Nat} : ∀ (L : List Nat) (prev prev' : PMap) (done : Bool) (tr : List Ev), L.Pairwise (· < ·) →
    Runs (inspectAll ver L prev) tr (.ok (done, prev')) → ∃ L1 L2, L = L1 ++ L2 ∧
      (∀ y ∈ L1, (⟨.monitor y ver, .ok ()⟩ : Ev) ∈ tr ∧ prev.lookup y = none) ∧
      (∀ z, prev'.lookup z = if z ∈ L1 then some ver else prev.lookup z) ∧
      ((done = false ∧ L2 = []) ∨ (done = true ∧ ∃ y L3 pv, L2 = y :: L3 ∧ prev.lookup y = some pv ∧ ver < pv)) := by
  intro L
  induction L with
  | nil =>
    intro prev prev' done tr hs h
    unfold inspectAll at h
    obtain ⟨-, h⟩ := runs_pure.1 h
    cases h
    exact ⟨[], [], rfl, by simp, by simp, Or.inl ⟨rfl, rfl⟩⟩
  | cons y L ih =>
    intro prev prev' done tr hs h
    unfold inspectAll at h
    rw [List.pairwise_cons] at hs
    cases hp : prev.lookup y with
    | some pv =>
      rw [hp] at h
      simp only [] at h
      rw [runs_ite] at h
      rcases h with ⟨-, h⟩ | ⟨hlt, h⟩
      · exact absurd h runs_fail_ok
      · obtain ⟨-, h⟩ := runs_pure.1 h
        cases h
        exact ⟨[], y :: L, rfl, by simp, by simp, Or.inr ⟨rfl, y, L, pv, rfl, hp, by omega⟩⟩
    | none =>
      rw [hp] at h
      simp only [] at h
      obtain ⟨u, t1, t2, rfl, hg, hk⟩ := runs_bind_ok.1 h
      have e1 : t1 = [⟨.monitor y ver, .ok u⟩] := runs_call.1 hg
      subst e1
      clear h
      obtain ⟨L1, L2, rfl, h1, h2, h3⟩ := ih _ _ _ _ hs.2 hk
      refine ⟨y :: L1, L2, rfl, ?_, ?_, ?_⟩
      · intro z hz
        rcases List.mem_cons.1 hz with rfl | hz
        · exact ⟨by simp, hp⟩
        · obtain ⟨h4, h5⟩ := h1 z hz
          rw [lookup_set] at h5
          split at h5
          · cases h5
          · exact ⟨by simp [h4], h5⟩
      · intro z
        rw [h2, lookup_set]
        by_cases hz : z ∈ L1
        · simp [hz]
        · by_cases hzy : z = y
          · subst hzy; simp
          · simp [hz, hzy]
      · rcases h3 with h3 | ⟨h3, z, L3, pv, rfl, h5, h6⟩
        · exact Or.inl h3
        · refine Or.inr ⟨h3, z, L3, pv, rfl, ?_, h6⟩
          rw [lookup_set] at h5
          have := hs.1 z (by simp)
          rw [if_neg (by omega)] at h5
          exact h5

theorem inspectList_mem {stop : Option Nat} {skip : Bool} : ∀ {L : List Nat}, L.Pairwise (· < ·) →
    (∀ d, stop = some d → d ∈ L) →
    (inspectList stop skip L).Pairwise (· < ·) ∧
    ∀ y, y ∈ inspectList stop skip L ↔ y ∈ L ∧ ∀ d, stop = some d → if skip then y < d else y ≤ d := by
  intro L
  induction L with
  | nil => intro _ _; unfold inspectList; simp
  | cons p L ih =>
    intro hs hd
    rw [List.pairwise_cons] at hs
    unfold inspectList
    by_cases hp : stop = some p
    · rw [if_pos hp]
      cases skip with
      | true =>
        simp only [if_true]
        refine ⟨by simp, ?_⟩
        intro y
        simp only [List.not_mem_nil, false_iff, not_and, not_forall]
        intro hy
        refine ⟨p, hp, ?_⟩
        rcases List.mem_cons.1 hy with rfl | hy
        · omega
        · have := hs.1 y hy; omega
      | false =>
        simp only [Bool.false_eq_true, if_false]
        refine ⟨by simp, ?_⟩
        intro y
        rw [List.mem_singleton]
        constructor
        · rintro rfl
          refine ⟨by simp, ?_⟩
          intro d hd'
          rw [hp] at hd'
          have := Option.some.inj hd'; omega
        · rintro ⟨hy, h⟩
          have := h p hp
          rcases List.mem_cons.1 hy with rfl | hy
          · rfl
          · have := hs.1 y hy; omega
    · rw [if_neg hp]
      have hd' : ∀ d, stop = some d → d ∈ L := by
        intro d h
        rcases List.mem_cons.1 (hd d h) with rfl | h'
        · exact absurd h hp
        · exact h'
      obtain ⟨i1, i2⟩ := ih hs.2 hd'
      constructor
      · rw [List.pairwise_cons]
        exact ⟨fun y hy => hs.1 y ((i2 y).1 hy).1, i1⟩
      · intro y
        rw [List.mem_cons, i2]
        constructor
        · rintro (rfl | ⟨h1, h2⟩)
          · refine ⟨by simp, ?_⟩
            intro d h
            have := hs.1 d (hd' d h)
            split <;> omega
          · exact ⟨by simp [h1], h2⟩
        · rintro ⟨h1, h2⟩
          rcases List.mem_cons.1 h1 with rfl | h1
          · exact Or.inl rfl
          · exact Or.inr ⟨h1, h2⟩

/-- `contactMonitor` for one position -/
theorem contactMonitor1_runs {m : Monitor} {ts : Nat → Nat} {x ver : Nat} (ht : GoodTimes ts m.treeSize)
    (hrm : m.rightmost = ts (m.treeSize - 1)) (hx : x < m.treeSize) {prev prev' : PMap} {u : Option Nat} {tr : List Ev}
    (htr : TsTrace tr ts) (h : Runs (contactMonitor1 m x ver prev) tr (.ok (u, prev'))) :
    (Distinguished (Wide m.cfg.rmw) ts m.treeSize x ∧ u = none ∧ prev' = prev) ∨
    ∃ L L1 L2, L = L1 ++ L2 ∧ L.Pairwise (· < ·) ∧
      (∀ y ∈ L, RightAnc m.treeSize x y) ∧
      (∀ y, ToInspect m.cfg.rmw ts m.treeSize (m.owner.map (·.starting)) x y → y ∈ L) ∧
      (∀ y ∈ L, ∀ d, RightUp m.treeSize x d → Distinguished (Wide m.cfg.rmw) ts m.treeSize d → y ≤ d) ∧
      (∀ y ∈ L1, (⟨.monitor y ver, .ok ()⟩ : Ev) ∈ tr ∧ prev.lookup y = none) ∧
      (∀ z, prev'.lookup z = if z ∈ L1 then some ver else prev.lookup z) ∧
      ((L2 = [] ∧ (NoDist m.cfg.rmw ts m.treeSize x → ∃ t, Top m.treeSize x t ∧ u = some t) ∧
          (¬ NoDist m.cfg.rmw ts m.treeSize x → u = none)) ∨
       (u = none ∧ ∃ y L3 pv, L2 = y :: L3 ∧ prev.lookup y = some pv ∧ ver < pv)) := by
  unfold contactMonitor1 at h
  obtain ⟨stop, t1, t2, rfl, hs, h⟩ := runs_bind_ok.1 h
  have hstop := distinguishedAncestor_runs ht hrm hx htr.left hs
  obtain ⟨lo, hi, anc, hAt, e⟩ := exists_at m.treeSize 0 m.treeSize [] (by omega) (.root (by omega)) x (by omega) hx
  have hb := hAt.bounds
  rw [runs_ite] at h
  rcases h with ⟨he, h⟩ | ⟨hne, h⟩
  · left
    obtain ⟨-, h⟩ := runs_pure.1 h
    cases h
    subst he
    exact ⟨hstop.1.2, rfl, rfl⟩
  · right
    obtain ⟨path, t3, t4, rfl, hp, h⟩ := runs_bind_ok.1 h
    have hp0 := (runs_lift.1 hp).2
    rw [← e, rightDirectPath_eq hAt] at hp0
    have hp := Except.ok.inj hp0
    have hpath : ∀ y, y ∈ path ↔ RightAnc m.treeSize x y := by
      intro y
      rw [hp, ← e, rightAnc_iff hAt, List.mem_filter]; simp
    have hps : path.Pairwise (· < ·) := by
      rw [hp]; exact (rpath_sorted hAt hb.1 hb.2.1).1
    have hmem : ∀ d, stop = some d → d ∈ path := by
      intro d hd
      subst hd
      rw [hpath]
      rcases hstop.1.1 with rfl | h'
      · exact absurd rfl hne
      · exact h'
    obtain ⟨skip, hskip⟩ : ∃ skip, skip = skipFinal m.owner x := ⟨_, rfl⟩
    rw [← hskip] at h
    simp only [] at h
    obtain ⟨hLs, hLm⟩ := inspectList_mem (skip := skip) hps hmem
    obtain ⟨⟨done, prev2⟩, t5, t6, rfl, hi2, h⟩ := runs_bind_ok.1 h
    obtain ⟨L1, L2, hL, h1, h2, h3⟩ := inspectAll_runs _ _ _ _ _ hLs hi2
    obtain ⟨rfl⟩ : prev' = prev2 := by
      simp only [] at h
      rw [runs_ite] at h
      rcases h with ⟨-, h⟩ | ⟨-, h⟩
      · have := (runs_pure.1 h).2; cases this; rfl
      · rw [runs_ite] at h
        rcases h with ⟨-, h⟩ | ⟨-, h⟩ <;> (have := (runs_pure.1 h).2; cases this; rfl)
    refine ⟨inspectList stop skip path, L1, L2, hL, hLs, ?_, ?_, ?_, ?_, h2, ?_⟩
    · intro y hy; exact (hpath y).1 ((hLm y).1 hy).1
    · rintro y ⟨hy1, hy2⟩
      rw [hLm]
      refine ⟨(hpath y).2 hy1, ?_⟩
      intro d hd
      subst hd
      have := hy2 d hstop.1.1 hstop.1.2
      cases ho : m.owner with
      | none =>
        rw [ho] at hskip
        subst hskip
        simpa [skipFinal] using this.1
      | some o =>
        rw [ho] at this hskip
        have h6 := this.2
        simp only [Option.map_some, Option.some.injEq, forall_eq'] at h6
        have h7 : x < d := ((hpath d).1 (hmem d rfl)).lt
        have h8 := this.1
        subst hskip
        unfold skipFinal
        simp only [decide_eq_true_eq]
        split <;> omega
    · intro y hy d hd1 hd2
      have h4 := (hLm y).1 hy
      cases stop with
      | none => exact absurd ⟨hd1, hd2⟩ (hstop d)
      | some s =>
        have h5 := h4.2 s rfl
        have h6 := hstop.2 d ⟨hd1, hd2⟩
        split at h5 <;> omega
    · intro y hy
      obtain ⟨h4, h5⟩ := h1 y hy
      exact ⟨by simp [h4], h5⟩
    · rcases h3 with ⟨rfl, rfl⟩ | ⟨rfl, h3⟩
      · left
        refine ⟨rfl, ?_⟩
        simp only [Bool.false_eq_true, if_false] at h
        rw [runs_ite] at h
        rcases h with ⟨hs, h⟩ | ⟨hs, h⟩
        · obtain ⟨-, h⟩ := runs_pure.1 h
          cases h
          refine ⟨fun hno => ?_, fun _ => rfl⟩
          cases stop with
          | none => exact absurd rfl hs
          | some d => exact absurd hstop.1.2 (hno d hstop.1.1)
        · obtain ⟨-, h⟩ := runs_pure.1 h
          cases h
          have hs' : stop = none := by
            cases stop with
            | none => rfl
            | some d => exact absurd (by simp) hs
          subst hs'
          have hno : NoDist m.cfg.rmw ts m.treeSize x := fun d hd hdd => hstop d ⟨hd, hdd⟩
          refine ⟨fun _ => ⟨_, ?_, rfl⟩, fun h => absurd hno h⟩
          cases hl : (inspectList none skip path).getLast? with
          | none =>
            simp only [Option.getD_none]
            rw [List.getLast?_eq_none_iff] at hl
            refine ⟨Or.inl rfl, ?_⟩
            rintro y (rfl | hy)
            · exact le_refl _
            · have := (hLm y).2 ⟨(hpath y).2 hy, by simp⟩
              rw [hl] at this; simp at this
          | some t =>
            simp only [Option.getD_some]
            have htm := List.mem_of_getLast? hl
            have htr' := (hpath t).1 ((hLm t).1 htm).1
            refine ⟨Or.inr htr', ?_⟩
            rintro y (rfl | hy)
            · exact htr'.lt.le
            · have hym := (hLm y).2 ⟨(hpath y).2 hy, by simp⟩
              obtain ⟨ini, hini⟩ := List.getLast?_eq_some_iff.1 hl
              rw [hini] at hym hLs
              rcases List.mem_append.1 hym with hy2 | hy2
              · have := (List.pairwise_append.1 hLs).2.2 y hy2 t (by simp); omega
              · simp at hy2; omega
      · right
        simp only [if_true] at h
        obtain ⟨-, h⟩ := runs_pure.1 h
        cases h
        exact ⟨rfl, h3⟩

/-! ### ContactMonitor -/

theorem mem_insertDesc {e f : Nat × Nat} : ∀ {l : PMap}, f ∈ insertDesc e l ↔ f = e ∨ f ∈ l := by
  intro l
  induction l with
  | nil => simp [insertDesc]
  | cons a l ih =>
    unfold insertDesc
    split
    · simp
    · rw [List.mem_cons, ih]; simp; tauto

theorem mem_sortDesc {f : Nat × Nat} {l : PMap} : f ∈ sortDesc l ↔ f ∈ l := by
  unfold sortDesc
  induction l with
  | nil => simp
  | cons a l ih => rw [List.foldr_cons, mem_insertDesc, ih]; simp

theorem insertDesc_sorted {e : Nat × Nat} : ∀ {l : PMap}, l.Pairwise (fun a b => a.1 > b.1) → (∀ f ∈ l, f.1 ≠ e.1) →
    (insertDesc e l).Pairwise (fun a b => a.1 > b.1) := by
  intro l
  induction l with
  | nil => intro _ _; simp [insertDesc]
  | cons a l ih =>
    intro h hne
    unfold insertDesc
    have h' := List.pairwise_cons.1 h
    have ha := hne a (by simp)
    split
    · rw [List.pairwise_cons]
      refine ⟨?_, h⟩
      intro f hf
      rcases List.mem_cons.1 hf with rfl | hf
      · omega
      · have := h'.1 f hf; omega
    · rw [List.pairwise_cons]
      refine ⟨?_, ih h'.2 (fun f hf => hne f (by simp [hf]))⟩
      intro f hf
      rcases mem_insertDesc.1 hf with rfl | hf
      · omega
      · exact h'.1 f hf

theorem sortDesc_sorted {l : PMap} (h : l.Pairwise (fun a b => a.1 ≠ b.1)) :
    (sortDesc l).Pairwise (fun a b => a.1 > b.1) := by
  induction l with
  | nil => simp [sortDesc]
  | cons a l ih =>
    rw [List.pairwise_cons] at h
    have : sortDesc (a :: l) = insertDesc a (sortDesc l) := rfl
    rw [this]
    refine insertDesc_sorted (ih h.2) ?_
    intro f hf
    exact fun e => h.1 f (mem_sortDesc.1 hf) e.symm

/-- the pointer update of one step of the loop -/
def setPtr (u : Option Nat) (ver : Nat) (ptrs : PMap) : PMap :=
  match u with
  | none => ptrs
  | some y => ptrs.set y ver

/-- invariant of the loop of `ContactMonitor` after the entries of `old` -/
structure CInv (m : Monitor) (ts : Nat → Nat) (tr : List Ev) (old : PMap) (prev ptrs : PMap) : Prop where
  ver : ∀ e ∈ old, ∀ y, ToInspect m.cfg.rmw ts m.treeSize (m.owner.map (·.starting)) e.1 y → Verified tr y e.2
  prevVer : ∀ y pv, prev.lookup y = some pv → Verified tr y pv ∧
    ∀ z, ToInspect m.cfg.rmw ts m.treeSize (m.owner.map (·.starting)) y z → Verified tr z pv
  prevTop : ∀ y pv t, prev.lookup y = some pv → NoDist m.cfg.rmw ts m.treeSize y → Top m.treeSize y t →
    (∃ pt, prev.lookup t = some pt) ∧ ∃ v', ptrs.lookup t = some v' ∧ pv ≤ v'
  prevRight : ∀ y pv, prev.lookup y = some pv → ∃ e ∈ old, e.1 < y
  ptr : ∀ e ∈ old, NoDist m.cfg.rmw ts m.treeSize e.1 → ∀ t, Top m.treeSize e.1 t →
    ∃ v', ptrs.lookup t = some v' ∧ (e.1 ≠ t → e.2 ≤ v' ∧ ∃ pt, prev.lookup t = some pt)
  origin : ∀ y v, ptrs.lookup y = some v → ∃ e ∈ old, e.2 = v ∧ NoDist m.cfg.rmw ts m.treeSize e.1 ∧ Top m.treeSize e.1 y

theorem ToInspect.above {W n : Nat} {ts : Nat → Nat} {b : Option Nat} {x y z : Nat} (hy : RightAnc n x y) (hz : ToInspect W ts n b x z)
    (h : y < z) : ToInspect W ts n b y z :=
  ⟨hy.linear hz.1 h, fun d hd hdd => hz.2 d (RightUp.trans (Or.inr hy) hd) hdd⟩

theorem ToInspect.below {W n : Nat} {ts : Nat → Nat} {b : Option Nat} {x y z : Nat} (hy : RightAnc n x y)
    (hmax : ∀ d, RightUp n x d → Distinguished (Wide W) ts n d → y ≤ d) (hz : ToInspect W ts n b y z) :
    ToInspect W ts n b x z := by
  refine ⟨hy.trans hz.1, fun d hd hdd => hz.2 d ?_ hdd⟩
  have h1 := hmax d hd hdd
  rcases hd with rfl | hd
  · have := hy.lt; omega
  · by_cases e : d = y
    · exact Or.inl e
    · exact Or.inr (hy.linear hd (by omega))

theorem Verified.mono {tr tr' : List Ev} {y v v' : Nat} (h : Verified tr y v) (hv : v' ≤ v) (ht : ∀ e ∈ tr, e ∈ tr') :
    Verified tr' y v' := by
  obtain ⟨w, h1, h2⟩ := h
  exact ⟨w, by omega, ht _ h2⟩

theorem CInv.step {m : Monitor} {ts : Nat → Nat} {x ver : Nat} (ht : GoodTimes ts m.treeSize)
    (hrm : m.rightmost = ts (m.treeSize - 1)) (hx : x < m.treeSize) {tr1 tr2 : List Ev} {old prev prev' ptrs : PMap} {u : Option Nat}
    (htr : TsTrace tr2 ts) (hI : CInv m ts tr1 old prev ptrs) (hold : ∀ e ∈ old, x < e.1)
    (h : Runs (contactMonitor1 m x ver prev) tr2 (.ok (u, prev'))) :
    CInv m ts (tr1 ++ tr2) (old ++ [(x, ver)]) prev' (setPtr u ver ptrs) := by
  have hsub : ∀ e ∈ tr1, e ∈ tr1 ++ tr2 := fun e he => List.mem_append_left _ he
  rcases contactMonitor1_runs ht hrm hx htr h with ⟨hd, rfl, rfl⟩ | ⟨L, L1, L2, rfl, hs, hR, hIn, hle, h1, h2, h3⟩
  · -- the entry is distinguished
    refine ⟨?_, ?_, hI.prevTop, ?_, ?_, ?_⟩
    · intro e he y hy
      rcases List.mem_append.1 he with he | he
      · exact (hI.ver e he y hy).mono (le_refl _) hsub
      · rw [List.mem_singleton] at he
        subst he
        exfalso
        have h1 := hy.1.lt
        have h2 := (hy.2 x (Or.inl rfl) hd).1
        simp only at h1
        omega
    · intro y pv hy
      obtain ⟨h1, h2⟩ := hI.prevVer y pv hy
      exact ⟨h1.mono (le_refl _) hsub, fun z hz => (h2 z hz).mono (le_refl _) hsub⟩
    · intro y pv hy
      obtain ⟨e, he, h⟩ := hI.prevRight y pv hy
      exact ⟨e, by simp [he], h⟩
    · intro e he hno t htop
      rcases List.mem_append.1 he with he | he
      · exact hI.ptr e he hno t htop
      · rw [List.mem_singleton] at he
        subst he
        exact absurd hd (hno x (Or.inl rfl))
    · intro y v hy
      obtain ⟨e, he, h⟩ := hI.origin y v hy
      exact ⟨e, by simp [he], h⟩
  · have hxy : ∀ y ∈ L1 ++ L2, x < y := fun y hy => (hR y hy).lt
    -- every entry of the list is covered
    have hcov : ∀ y ∈ L1 ++ L2, ToInspect m.cfg.rmw ts m.treeSize (m.owner.map (·.starting)) x y → Verified (tr1 ++ tr2) y ver := by
      intro y hy hTI
      rcases List.mem_append.1 hy with hy1 | hy2
      · exact ⟨ver, le_refl _, by simp [(h1 y hy1).1]⟩
      · rcases h3 with ⟨rfl, -⟩ | ⟨-, y0, L3, pv, rfl, hp, hlt⟩
        · simp at hy2
        · obtain ⟨h4, h5⟩ := hI.prevVer y0 pv hp
          rcases List.mem_cons.1 hy2 with rfl | hy3
          · exact h4.mono (by omega) hsub
          · have hlt2 : y0 < y := (List.pairwise_cons.1 (List.pairwise_append.1 hs).2.1).1 y hy3
            have := ToInspect.above (hR y0 (by simp)) hTI hlt2
            exact (h5 y this).mono (by omega) hsub
    -- with no distinguished entry above, a hit in `prev` has the same top
    have hjoin : ∀ y0 L3 pv, L2 = y0 :: L3 → prev.lookup y0 = some pv → NoDist m.cfg.rmw ts m.treeSize x → ∀ t, Top m.treeSize x t →
        (∃ pt, prev.lookup t = some pt) ∧ ∃ v', ptrs.lookup t = some v' ∧ pv ≤ v' := by
      rintro y0 L3 pv rfl hp hno t htop
      have hup : RightUp m.treeSize x y0 := Or.inr (hR y0 (by simp))
      exact hI.prevTop y0 pv t hp (hno.up hup) (htop.up hup)
    have hprevMono : ∀ z pz, prev.lookup z = some pz → prev'.lookup z = some pz := by
      intro z pz hz
      rw [h2, if_neg]
      · exact hz
      · intro hz1; rw [(h1 z hz1).2] at hz; cases hz
    -- entries in `prev` are right of `x`
    have hprevR : ∀ y pv, prev.lookup y = some pv → x < y := by
      intro y pv hy
      obtain ⟨e, he, h⟩ := hI.prevRight y pv hy
      have := hold e he; omega
    -- the pointer written, if any
    have hset : ∀ t, u = some t → L2 = [] ∧ Top m.treeSize x t ∧ NoDist m.cfg.rmw ts m.treeSize x := by
      rintro t rfl
      rcases h3 with ⟨rfl, h4, h5⟩ | ⟨h, -⟩
      · by_cases hno : NoDist m.cfg.rmw ts m.treeSize x
        · obtain ⟨t', h6, h7⟩ := h4 hno
          have := Option.some.inj h7
          subst this
          exact ⟨rfl, h6, hno⟩
        · have := h5 hno; cases this
      · cases h
    have htopIn : ∀ t, L2 = [] → NoDist m.cfg.rmw ts m.treeSize x → Top m.treeSize x t → t ≠ x → t ∈ L1 := by
      rintro t rfl hno htop hne
      have hra : RightAnc m.treeSize x t := by
        rcases htop.1 with h | h
        · exact absurd h hne
        · exact h
      have := hIn t ⟨hra, fun d hd hdd => absurd hdd (hno d hd)⟩
      simpa using this
    obtain ⟨ptrs', hp'⟩ : ∃ p, p = (setPtr u ver ptrs) := ⟨_, rfl⟩
    rw [← hp']
    have hlk : ∀ t, u ≠ some t → ptrs'.lookup t = ptrs.lookup t := by
      intro t hne
      cases u with
      | none => subst hp'; rfl
      | some y =>
        subst hp'
        simp only [setPtr]
        rw [lookup_set, if_neg]
        rintro rfl; exact hne rfl
    have hlk2 : ∀ t, u = some t → ptrs'.lookup t = some ver := by
      rintro t rfl
      subst hp'
      simp only [setPtr]
      rw [lookup_set, if_pos rfl]
    refine ⟨?_, ?_, ?_, ?_, ?_, ?_⟩
    · intro e he y hy
      rcases List.mem_append.1 he with he | he
      · exact (hI.ver e he y hy).mono (le_refl _) hsub
      · rw [List.mem_singleton] at he
        subst he
        exact hcov y (hIn y hy) hy
    · intro y pv hy
      rw [h2] at hy
      split at hy
      · rename_i hy1
        have hv := Option.some.inj hy
        subst hv
        refine ⟨⟨ver, le_refl _, by simp [(h1 y hy1).1]⟩, ?_⟩
        intro z hz
        have hyL : y ∈ L1 ++ L2 := by simp [hy1]
        have hzx := ToInspect.below (hR y hyL) (hle y hyL) hz
        exact hcov z (hIn z hzx) hzx
      · obtain ⟨h4, h5⟩ := hI.prevVer y pv hy
        exact ⟨h4.mono (le_refl _) hsub, fun z hz => (h5 z hz).mono (le_refl _) hsub⟩
    · -- prevTop
      intro y pv t hy hno htop
      rw [h2] at hy
      split at hy
      · rename_i hy1
        have hv := Option.some.inj hy
        subst hv
        have hyL : y ∈ L1 ++ L2 := by simp [hy1]
        have hra := hR y hyL
        have hnox : NoDist m.cfg.rmw ts m.treeSize x := by
          intro d hd hdd
          have h4 := hle y hyL d hd hdd
          apply hno d _ hdd
          rcases hd with rfl | hd
          · have := hra.lt; omega
          · by_cases e : d = y
            · exact Or.inl e
            · exact Or.inr (hra.linear hd (by omega))
        have htx : Top m.treeSize x t := by
          refine ⟨RightUp.trans (Or.inr hra) htop.1, ?_⟩
          intro z hz
          have hyt := htop.1.le
          rcases hz with rfl | hz
          · have := hra.lt; omega
          · by_cases e : y < z
            · exact htop.2 z (Or.inr (hra.linear hz e))
            · omega
        rcases h3 with ⟨hL2, h4, h5⟩ | ⟨hu, y0, L3, pv, hL2, hp, hlt⟩
        · obtain ⟨t', h6, h7⟩ := h4 hnox
          have := htx.unique h6
          subst this
          have hne : t ≠ x := by have := hra.lt; have := htop.1.le; omega
          have htL := htopIn t hL2 hnox htx hne
          exact ⟨⟨ver, by rw [h2, if_pos htL]⟩, ver, hlk2 t h7, le_refl _⟩
        · obtain ⟨⟨pt, h4⟩, v', h5, h6⟩ := hjoin y0 L3 pv hL2 hp hnox t htx
          exact ⟨⟨pt, hprevMono t pt h4⟩, v', by rw [hlk t (by rw [hu]; simp)]; exact h5, by omega⟩
      · obtain ⟨⟨pt, h4⟩, v', h5, h6⟩ := hI.prevTop y pv t hy hno htop
        refine ⟨⟨pt, hprevMono t pt h4⟩, ?_⟩
        by_cases hu : u = some t
        · exfalso
          obtain ⟨hL2, htx, hnox⟩ := hset t hu
          have hxt := hprevR t pt h4
          have := htopIn t hL2 hnox htx (by omega)
          rw [(h1 t this).2] at h4; cases h4
        · exact ⟨v', by rw [hlk t hu]; exact h5, h6⟩
    · intro y pv hy
      rw [h2] at hy
      split at hy
      · rename_i hy1
        exact ⟨(x, ver), by simp, hxy y (by simp [hy1])⟩
      · obtain ⟨e, he, h⟩ := hI.prevRight y pv hy
        exact ⟨e, by simp [he], h⟩
    · -- pointers
      intro e he hno t htop
      rcases List.mem_append.1 he with he | he
      · obtain ⟨v', h4, h5⟩ := hI.ptr e he hno t htop
        by_cases hu : u = some t
        · refine ⟨ver, hlk2 t hu, ?_⟩
          intro hne
          exfalso
          obtain ⟨-, pt, h6⟩ := h5 hne
          obtain ⟨hL2, htx, hnox⟩ := hset t hu
          have hxt := hprevR t pt h6
          have := htopIn t hL2 hnox htx (by omega)
          rw [(h1 t this).2] at h6; cases h6
        · refine ⟨v', by rw [hlk t hu]; exact h4, ?_⟩
          intro hne
          obtain ⟨h6, pt, h7⟩ := h5 hne
          exact ⟨h6, pt, hprevMono t pt h7⟩
      · rw [List.mem_singleton] at he
        subst he
        simp only at hno htop ⊢
        rcases h3 with ⟨hL2, h4, h5⟩ | ⟨hu, y0, L3, pv, hL2, hp, hlt⟩
        · obtain ⟨t', h6, h7⟩ := h4 hno
          have := htop.unique h6
          subst this
          refine ⟨ver, hlk2 t h7, fun hne => ⟨le_refl _, ver, ?_⟩⟩
          rw [h2, if_pos (htopIn t hL2 hno htop (Ne.symm hne))]
        · obtain ⟨⟨pt, h4⟩, v', h5, h6⟩ := hjoin y0 L3 pv hL2 hp hno t htop
          exact ⟨v', by rw [hlk t (by rw [hu]; simp)]; exact h5, fun _ => ⟨by omega, pt, hprevMono t pt h4⟩⟩
    · intro y v hy
      by_cases hu : u = some y
      · rw [hlk2 y hu] at hy
        have hv := Option.some.inj hy
        obtain ⟨-, h4, h5⟩ := hset y hu
        exact ⟨(x, ver), by simp, hv, h5, h4⟩
      · rw [hlk y hu] at hy
        obtain ⟨e, he, h⟩ := hI.origin y v hy
        exact ⟨e, by simp [he], h⟩

theorem contactLoop_runs {m : Monitor} {ts : Nat → Nat} (ht : GoodTimes ts m.treeSize)
    (hrm : m.rightmost = ts (m.treeSize - 1)) : ∀ (rest old prev ptrs out : PMap) (tr1 tr2 : List Ev),
    rest.Pairwise (fun a b => a.1 > b.1) → (∀ e ∈ rest, e.1 < m.treeSize) → (∀ e ∈ rest, ∀ f ∈ old, e.1 < f.1) →
    TsTrace tr2 ts → CInv m ts tr1 old prev ptrs → Runs (contactLoop m rest prev ptrs) tr2 (.ok out) →
    ∃ prev', CInv m ts (tr1 ++ tr2) (old ++ rest) prev' out := by
  intro rest
  induction rest with
  | nil =>
    intro old prev ptrs out tr1 tr2 _ _ _ htr hI h
    unfold contactLoop at h
    obtain ⟨rfl, h⟩ := runs_pure.1 h
    cases h
    exact ⟨prev, by simpa using hI⟩
  | cons e rest ih =>
    obtain ⟨x, ver⟩ := e
    intro old prev ptrs out tr1 tr2 hs hn hold htr hI h
    rw [List.pairwise_cons] at hs
    unfold contactLoop at h
    obtain ⟨⟨u, prev2⟩, t1, t2, rfl, h1, h2⟩ := runs_bind_ok.1 h
    have hstep := hI.step ht hrm (hn (x, ver) (by simp)) htr.left (hold (x, ver) (by simp)) h1
    have hold' : ∀ e ∈ rest, ∀ f ∈ old ++ [(x, ver)], e.1 < f.1 := by
      intro e he f hf
      rcases List.mem_append.1 hf with hf | hf
      · exact hold e (by simp [he]) f hf
      · rw [List.mem_singleton] at hf; subst hf; exact hs.1 e he
    have hrun : Runs (contactLoop m rest prev2 (setPtr u ver ptrs)) t2 (.ok out) := by
      cases u <;> exact h2
    obtain ⟨p, hp⟩ := ih _ _ _ _ _ _ hs.2 (fun e he => hn e (by simp [he])) hold' htr.right hstep hrun
    exact ⟨p, by simpa using hp⟩

end Katie.Alg
