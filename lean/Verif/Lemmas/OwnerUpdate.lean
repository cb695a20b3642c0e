import Verif.Lemmas.Owner
import Verif.Lemmas.Ladder

/- Lemmas about `Monitor.Update`. -/

namespace Katie.Alg
open Katie Prog SearchTree SearchSpec

/-! ### the tree at an earlier size -/

theorem rt_shrink {lo hi pos : Nat} (h : lo < hi) (hp : pos ≤ hi) (hr : rt lo hi < pos) : rt lo pos = rt lo hi := by
  unfold rt at *
  have h1 := log2_spec (m := hi - lo) (by omega)
  have h2 : Nat.log2 (pos - lo) = Nat.log2 (hi - lo) := log2_uniq (by omega) (by omega)
  rw [h2]

/-- a range of the current tree that reaches up to the end of an earlier one is a range on its right edge -/
theorem at_shrink {n lo hi pos : Nat} {anc : List Nat} (h : At n lo hi anc) (h1 : lo < pos) (h2 : pos ≤ hi) :
    At pos lo pos (anc.filter (· < pos)) := by
  induction h with
  | root h0 => exact .root (by omega)
  | @left lo hi anc h hl ih =>
    have hb := h.bounds
    rw [List.filter_cons_of_neg (by simp; omega)]
    exact ih h1 (by omega)
  | @right lo hi anc h hr ih =>
    have hb := h.bounds
    rw [List.filter_cons_of_pos (by simp; omega)]
    have e := rt_shrink (by omega) h2 (by omega : rt lo hi < pos)
    rw [← e]
    exact .right (ih (by omega) h2) (by omega)

theorem frontier_anc {n lo y : Nat} {anc : List Nat} (h : At n lo n anc) (hy : OnFrontier n y) (hlt : y < lo) : y ∈ anc := by
  obtain ⟨lo', anc', h', e⟩ := hy
  have hb := h.bounds
  have hb' := h'.bounds
  obtain ⟨pre, e1, -, e2⟩ := anc_suffix h _ lo' n anc' (le_refl _) h' (by omega) (by omega)
  obtain ⟨pre', rfl⟩ := e2 (by omega)
  rw [e1, ← e]; simp

/-! ### nonDistinguishedAncestor -/

theorem nonDistLoop_runs {cfg : Config} {n target : Nat} {ts : Nat → Nat} (ht : GoodTimes ts n) : ∀ (fuel lo hi : Nat) (anc : List Nat) (tr : List Ev) (r : Option Nat),
    At n lo hi anc → lo ≤ target → target < hi → (∀ a ∈ anc, Distinguished (Wide cfg.rmw) ts n a) → TsTrace tr ts →
    Runs (nonDistLoop cfg n target fuel (rt lo hi) (lb ts lo) (rb ts n hi)) tr (.ok r) →
    (r = none ∧ Distinguished (Wide cfg.rmw) ts n target) ∨
    (∃ lo' hi' anc', r = some (rt lo' hi') ∧ At n lo' hi' anc' ∧ lo' ≤ target ∧ target < hi' ∧
      (∀ a ∈ anc', Distinguished (Wide cfg.rmw) ts n a) ∧ ¬ Distinguished (Wide cfg.rmw) ts n target) := by
  intro fuel
  induction fuel with
  | zero => intro lo hi anc tr r _ _ _ _ _ hr; unfold nonDistLoop at hr; cases hr
  | succ fuel ih =>
    intro lo hi anc tr r h h1 h2 hd htr hr
    have hb := h.bounds
    have hdc : cfg.isDistinguished (lb ts lo) (rb ts n hi) = true ↔ Distinguished (Wide cfg.rmw) ts n (rt lo hi) := by
      rw [distinguished_iff ht h]
      exact isDistinguished_iff (lb_le_rb ht (by omega) hb.2.2) (rb_lt ht hb.2.2 h.pos)
    unfold nonDistLoop at hr
    rw [runs_ite] at hr
    rcases hr with ⟨hnd, hr⟩ | ⟨hdd, hr⟩
    · have hk := Except.ok.inj (runs_pure.1 hr).2
      exact Or.inr ⟨lo, hi, anc, hk, h, h1, h2, hd, fun hdt => hnd (hdc.2 (dist_up ht h h1 h2 hdt))⟩
    have hdist := hdc.1 (by simpa using hdd)
    have hd' : ∀ a ∈ rt lo hi :: anc, Distinguished (Wide cfg.rmw) ts n a := by
      intro a ha
      rcases List.mem_cons.1 ha with rfl | ha
      · exact hdist
      · exact hd a ha
    rw [runs_ite] at hr
    rcases hr with ⟨he, hr⟩ | ⟨hne, hr⟩
    · exact Or.inl ⟨Except.ok.inj (runs_pure.1 hr).2, he ▸ hdist⟩
    obtain ⟨a, t1, t2, rfl, hg, hr⟩ := runs_bind_ok.1 hr
    have hga := runs_getTs htr.left hg
    subst hga
    rw [runs_ite] at hr
    rcases hr with ⟨hlt, hr⟩ | ⟨hnlt, hr⟩
    · obtain ⟨c, t3, t4, rfl, hl, hr⟩ := runs_bind_ok.1 hr
      have hl := (runs_lift.1 hl).2
      rw [right_rt h (by omega)] at hl
      have hl := Except.ok.inj hl
      subst hl
      have elb : lb ts (rt lo hi + 1) = ts (rt lo hi) := by unfold lb; rw [if_neg (by omega)]; rfl
      rw [← elb] at hr
      exact ih _ _ _ _ _ (.right h (by omega)) (by omega) h2 hd' htr.right.right hr
    · obtain ⟨c, t3, t4, rfl, hl, hr⟩ := runs_bind_ok.1 hr
      have hl := (runs_lift.1 hl).2
      rw [left_rt h, if_pos (by omega)] at hl
      have hl := Except.ok.inj hl
      subst hl
      have erb : rb ts n (rt lo hi) = ts (rt lo hi) := by unfold rb; rw [if_neg (by omega)]
      rw [← erb] at hr
      exact ih _ _ _ _ _ (.left h (by omega)) h1 (by omega) hd' htr.right.right hr

theorem nonDistinguishedAncestor_runs {m : Monitor} {ts : Nat → Nat} {target : Nat} (ht : GoodTimes ts m.treeSize) (h0 : target < m.treeSize)
    {tr : List Ev} {r : Option Nat} (htr : TsTrace tr ts) (hr : Runs (nonDistinguishedAncestor m target) tr (.ok r)) :
    (r = none ∧ Distinguished (Wide m.cfg.rmw) ts m.treeSize target) ∨
    (∃ lo' hi' anc', r = some (rt lo' hi') ∧ At m.treeSize lo' hi' anc' ∧ lo' ≤ target ∧ target < hi' ∧
      (∀ a ∈ anc', Distinguished (Wide m.cfg.rmw) ts m.treeSize a) ∧ ¬ Distinguished (Wide m.cfg.rmw) ts m.treeSize target) := by
  unfold nonDistinguishedAncestor at hr
  obtain ⟨a, t1, t2, rfl, hg, hr⟩ := runs_bind_ok.1 hr
  have hga := runs_getTs htr.left hg
  subst hga
  have erb : rb ts m.treeSize m.treeSize = ts (m.treeSize - 1) := by simp [rb]
  rw [← erb, root_eq (by omega)] at hr
  exact nonDistLoop_runs ht _ 0 m.treeSize [] _ _ (.root (by omega)) (by omega) h0 (by simp) htr.right hr

theorem nonDistLoop_spec {cfg : Config} {n target : Nat} : ∀ (fuel lo hi : Nat) (anc : List Nat) (l r : Nat), At n lo hi anc → lo ≤ target → target < hi → hi - lo < fuel →
    Spec (nonDistLoop cfg n target fuel (rt lo hi) l r) (InTree n)
      (fun r => ∀ x, r = some x → ∃ lo hi anc, x = rt lo hi ∧ At n lo hi anc ∧ lo ≤ target ∧ target < hi) IsErr := by
  intro fuel
  induction fuel with
  | zero => intro lo hi anc l r h _ _ hf; omega
  | succ fuel ih =>
    intro lo hi anc l r h h1 h2 hf
    have hb := h.bounds
    have hx : rt lo hi < n := by omega
    unfold nonDistLoop
    refine .ite (fun _ => .pure ?_) (fun _ => .ite (fun _ => .pure (by simp)) (fun hne => .bindT (.call hx) (fun t => ?_)))
    · intro x hx
      cases hx
      exact ⟨lo, hi, anc, rfl, h, h1, h2⟩
    · refine .ite (fun hlt => ?_) (fun hlt => ?_)
      · refine .bind (Q := fun c => c = rt (rt lo hi + 1) hi) (.lift_ok (right_rt h (by omega)) rfl) ?_
        rintro c rfl
        exact ih _ _ _ _ _ (.right h (by omega)) (by omega) h2 (by omega)
      · refine .bind (Q := fun c => c = rt lo (rt lo hi)) (.lift_ok (by rw [left_rt h, if_pos (by omega)]) rfl) ?_
        rintro c rfl
        exact ih _ _ _ _ _ (.left h (by omega)) h1 (by omega) (by omega)

theorem nonDistinguishedAncestor_spec {m : Monitor} {target : Nat} (h0 : target < m.treeSize) :
    Spec (nonDistinguishedAncestor m target) (InTree m.treeSize)
      (fun r => ∀ x, r = some x → ∃ lo hi anc, x = rt lo hi ∧ At m.treeSize lo hi anc ∧ lo ≤ target ∧ target < hi) IsErr := by
  unfold nonDistinguishedAncestor
  refine .bindT (.call (show m.treeSize - 1 < m.treeSize by omega)) (fun t => ?_)
  rw [root_eq (by omega)]
  exact nonDistLoop_spec _ 0 _ [] _ _ (.root (by omega)) (by omega) h0 (by omega)

/-! ### verifyPreviousTree -/

theorem leftUntil_eq {n pos : Nat} (h0 : 0 < pos) : ∀ (fuel lo hi : Nat) (anc : List Nat), At n lo hi anc → lo < pos → pos ≤ hi → rt lo hi < lo + fuel →
    ∃ hi' anc', leftUntil (pos - 1) fuel (rt lo hi) = .ok (rt lo hi') ∧ At n lo hi' anc' ∧ pos ≤ hi' ∧ rt lo hi' < pos := by
  intro fuel
  induction fuel with
  | zero => intro lo hi anc h _ _ hf; have := h.bounds; omega
  | succ fuel ih =>
    intro lo hi anc h h1 h2 hf
    have hb := h.bounds
    unfold leftUntil
    split
    · rw [left_rt h, if_pos (by omega), G.ok_bind]
      have hb2 := (At.left h (by omega)).bounds
      exact ih lo _ _ (.left h (by omega)) h1 (by omega) (by omega)
    · exact ⟨hi, anc, rfl, h, h2, by omega⟩

theorem previousTreeLoop_runs {pos lastUpdate : Nat} {greatest : Int} : ∀ (fuel lo : Nat) (anc : List Nat) (tr : List Ev), At pos lo pos anc →
    Runs (previousTreeLoop pos lastUpdate greatest fuel (rt lo pos)) tr (.ok ()) →
    ∀ y, OnFrontier pos y → lo ≤ y → lastUpdate < y → ShownGreatest tr y greatest true := by
  intro fuel
  induction fuel with
  | zero => intro lo anc tr h hr; unfold previousTreeLoop at hr; cases hr
  | succ fuel ih =>
    intro lo anc tr h hr y hy hlo hlast
    have hb := h.bounds
    unfold previousTreeLoop at hr
    obtain ⟨u, t1, t2, rfl, h1, h2⟩ := runs_bind_ok.1 hr
    have hself : lastUpdate < rt lo pos → ShownGreatest t1 (rt lo pos) greatest true := by
      intro hlt
      rw [if_neg (by omega)] at h1
      exact expectLadder_runs h1
    rcases Nat.lt_or_ge y (rt lo pos + 1) with hlt | hge
    · -- on the frontier and in the left part or the middle
      have : y = rt lo pos := by
        by_contra hne
        obtain ⟨lo', anc', h', e⟩ := hy
        have hb' := h'.bounds
        have hyl : y < rt lo pos := by omega
        -- the range of `y` contains the middle, so `y` would be an ancestor
        obtain ⟨pre, e1, -, e2⟩ := anc_suffix h _ lo' pos anc' (le_refl _) h' (by omega) (by omega)
        obtain ⟨pre', rfl⟩ := e2 (by omega)
        have := anc_outside h y (by rw [e1, ← e]; simp)
        omega
      subst this
      exact (hself hlast).mono (fun e he => List.mem_append_left _ he)
    · rw [runs_ite] at h2
      rcases h2 with ⟨he, -⟩ | ⟨hne, h2⟩
      · exfalso
        obtain ⟨lo', anc', h', e⟩ := hy
        have := h'.bounds
        omega
      · obtain ⟨c, t3, t4, rfl, hl, h2⟩ := runs_bind_ok.1 h2
        have hl := (runs_lift.1 hl).2
        rw [right_rt h (by omega)] at hl
        have hl := Except.ok.inj hl
        subst hl
        have := ih _ _ _ (.right h (by omega)) h2 y hy hge hlast
        exact this.mono (fun e he => List.mem_append_right _ (List.mem_append_right _ he))

theorem previousTreeLoop_spec {n pos lastUpdate : Nat} {greatest : Int} (hn : pos ≤ n) : ∀ (fuel lo : Nat) (anc : List Nat), At pos lo pos anc → pos - lo < fuel →
    Spec (previousTreeLoop pos lastUpdate greatest fuel (rt lo pos)) (InTree n) (fun _ => True) IsErr := by
  intro fuel
  induction fuel with
  | zero => intro lo anc h hf; omega
  | succ fuel ih =>
    intro lo anc h hf
    have hb := h.bounds
    unfold previousTreeLoop
    refine .bindT (.ite (fun _ => .pure trivial) (fun _ => expectLadder_spec (by omega))) (fun _ => .ite (fun _ => .pure trivial) (fun hne => ?_))
    refine .bind (Q := fun c => c = rt (rt lo pos + 1) pos) (.lift_ok (right_rt h (by omega)) rfl) ?_
    rintro c rfl
    exact ih _ _ (.right h (by omega)) (by omega)

/-- after a successful check, every entry of the right edge of the previous tree that is not distinguished now and
is right of the last update was shown to have the expected greatest version -/
theorem verifyPreviousTree_runs {m : Monitor} {o : Owner} {ts : Nat → Nat} {pos : Nat} (ht : GoodTimes ts m.treeSize) (hp : pos < m.treeSize)
    {tr : List Ev} (htr : TsTrace tr ts) (h : Runs (verifyPreviousTree m o pos) tr (.ok ())) :
    ∀ y, OnFrontier pos y → ¬ Distinguished (Wide m.cfg.rmw) ts m.treeSize y → o.lastUpdate < y → ShownGreatest tr y o.greatest true := by
  unfold verifyPreviousTree at h
  rw [runs_ite] at h
  rcases h with ⟨-, h⟩ | ⟨h0, h⟩
  · have := (runs_lift.1 h).2
    cases this
  obtain ⟨res, t1, t2, rfl, hr, h⟩ := runs_bind_ok.1 h
  intro y hy hnd hlast
  rcases nonDistinguishedAncestor_runs ht (by omega : pos - 1 < m.treeSize) htr.left hr with ⟨rfl, hd⟩ | ⟨lo, hi, anc, rfl, hAt, h1, h2, hanc, -⟩
  · -- `pos - 1` is distinguished, and so is every entry above it
    exfalso
    obtain ⟨lo', hi', anc', h', e⟩ := exists_at m.treeSize 0 m.treeSize [] (by omega) (.root (by omega)) (pos - 1) (by omega) (by omega)
    have hb := h'.bounds
    have hsh := at_shrink h' (pos := pos) (by omega) (by omega)
    obtain ⟨lo'', anc'', h'', e''⟩ := hy
    have hb'' := h''.bounds
    have hanc' : ∀ (lo hi : Nat) (anc : List Nat), At m.treeSize lo hi anc → lo ≤ pos - 1 → pos - 1 < hi → ∀ a ∈ anc, Distinguished (Wide m.cfg.rmw) ts m.treeSize a := by
      intro lo hi anc h
      induction h with
      | root => simp
      | @left lo hi anc h hl ih =>
        intro h1 h2 a ha
        have hb := h.bounds
        rcases List.mem_cons.1 ha with rfl | ha
        · exact dist_up ht h h1 (by omega) hd
        · exact ih h1 (by omega) a ha
      | @right lo hi anc h hl ih =>
        intro h1 h2 a ha
        have hb := h.bounds
        rcases List.mem_cons.1 ha with rfl | ha
        · exact dist_up ht h (by omega) h2 hd
        · exact ih (by omega) h2 a ha
    rcases Nat.lt_or_ge y lo' with hlt | hge
    · have := frontier_anc hsh ⟨lo'', anc'', h'', e''⟩ hlt
      rw [List.mem_filter] at this
      exact hnd (hanc' _ _ _ h' (by omega) (by omega) y this.1)
    · -- the range of `pos - 1` that ends at `pos` is that entry alone, or `y` is in its left part
      have hrt : rt lo' pos = pos - 1 := by rw [rt_shrink (hi := hi') (by omega) (by omega) (by omega), e]
      have : y = pos - 1 := by
        by_contra hne
        obtain ⟨pre, e1, -, e2⟩ := anc_suffix hsh _ lo'' pos anc'' (le_refl _) h'' (by omega) (by omega)
        obtain ⟨pre', rfl⟩ := e2 (by omega)
        have := anc_outside hsh y (by rw [e1, ← e'']; simp)
        omega
      rw [this] at hnd
      exact hnd hd
  · simp only [] at h
    obtain ⟨hi', anc', hl, hAt', h3, h4⟩ := leftUntil_eq (by omega : 0 < pos) (rt lo hi + 1) lo hi anc hAt (by omega) (by omega) (by omega)
    obtain ⟨c, t3, t4, rfl, hc, h⟩ := runs_bind_ok.1 h
    have hc := (runs_lift.1 hc).2
    rw [hl] at hc
    have hc := Except.ok.inj hc
    subst hc
    obtain ⟨u, t5, t6, rfl, -, h⟩ := runs_bind_ok.1 h
    have hb' := hAt'.bounds
    rw [← rt_shrink (by omega) h3 h4] at h
    have hsh := at_shrink hAt (pos := pos) (by omega) (by omega)
    have hlo : lo ≤ y := by
      by_contra hlt
      have := frontier_anc hsh hy (by omega)
      rw [List.mem_filter] at this
      exact hnd (hanc y this.1)
    exact (previousTreeLoop_runs _ _ _ _ hsh h y hy hlo hlast).mono (fun e he => by simp; tauto)

theorem prepareTracker_spec {n pos x lo : Nat} {anc : List Nat} {o : Owner} (hn : pos ≤ n) (h : At pos lo pos anc) (hx : rt lo pos = x) (hg : o.greatest < 2 ^ 31 - 1) :
    Spec (prepareTracker o pos x) (InTree n) (fun _ => True) IsErr := by
  have hb := h.bounds
  unfold prepareTracker
  refine .ite (fun _ => .pure trivial) (fun hneg => ?_)
  simp only []
  obtain ⟨base, hbase, -⟩ := Ladder.baseBinaryLadder_ok (n := o.greatest.toNat % 2 ^ 32) (by omega)
  have hl : Ladder.searchBinaryLadder (o.greatest.toNat % 2 ^ 32) (o.greatest.toNat % 2 ^ 32) [] [] =
      .ok (Ladder.searchLoop (o.greatest.toNat % 2 ^ 32) (o.greatest.toNat % 2 ^ 32) [] [] base) := by
    unfold Ladder.searchBinaryLadder
    rw [hbase]; rfl
  refine .bindT (.lift_ok hl trivial) (fun ladder => .ite (fun hne => ?_) (fun _ => .call (by show x < n; omega)))
  have hp : ∃ p, parent x pos = .ok p ∧ p < n := by
    cases anc with
    | nil =>
      exfalso
      cases h
      exact hne (by rw [root_eq (by omega), hx])
    | cons a anc =>
      refine ⟨a, ?_, ?_⟩
      · rw [← hx]; exact h.parent
      · have := anc_lt h a (by simp); omega
  obtain ⟨p, hp1, hp2⟩ := hp
  refine .bind (Q := fun c => c = p) (.lift_ok hp1 rfl) ?_
  rintro c rfl
  exact .bindT (.call hp2) (fun _ => .call (by show x < n; omega))

theorem verifyPreviousTree_spec {m : Monitor} {o : Owner} {pos : Nat} (h0 : 0 < pos) (hp : pos < m.treeSize) (hg : o.greatest < 2 ^ 31 - 1) :
    Spec (verifyPreviousTree m o pos) (InTree m.treeSize) (fun _ => True) IsErr := by
  unfold verifyPreviousTree
  rw [if_neg (by omega)]
  refine .bind (nonDistinguishedAncestor_spec (by omega)) ?_
  intro r hr
  cases r with
  | none => exact .pure trivial
  | some x =>
    obtain ⟨lo, hi, anc, rfl, hAt, h1, h2⟩ := hr x rfl
    obtain ⟨hi', anc', hl, hAt', h3, h4⟩ := leftUntil_eq h0 (rt lo hi + 1) lo hi anc hAt (by omega) (by omega) (by omega)
    simp only []
    refine .bind (Q := fun c => c = rt lo hi') (.lift_ok hl rfl) ?_
    rintro c rfl
    have hb' := hAt'.bounds
    have hsh := at_shrink hAt (pos := pos) (by omega) (by omega)
    have e := rt_shrink (by omega) h3 h4
    refine .bindT (prepareTracker_spec (by omega) hsh e hg) (fun _ => ?_)
    rw [← e]
    exact previousTreeLoop_spec (by omega) _ _ _ hsh (by omega)

theorem lastUpdate_lt {o : Owner} (h : o.WF) {pos : Nat} (hp : o.lastUpdate < pos) : (∀ u ∈ o.upcoming, u < pos) ∧ o.starting < pos := by
  unfold Owner.lastUpdate at hp
  cases hu : o.upcoming.getLast? with
  | none =>
    rw [hu] at hp
    rw [List.getLast?_eq_none_iff] at hu
    rw [hu]
    exact ⟨by simp, hp⟩
  | some u =>
    rw [hu] at hp
    simp only [Option.getD_some] at hp
    obtain ⟨l, hl⟩ := List.getLast?_eq_some_iff.1 hu
    have h1 : ∀ v ∈ o.upcoming, v ≤ u := by
      have hs := h.1
      rw [hl, List.pairwise_append] at hs
      intro v hv
      rw [hl] at hv
      rcases List.mem_append.1 hv with hv | hv
      · exact hs.2.2 v hv u (by simp)
      · simp at hv; omega
    have h2 := h.2 u (by rw [hl]; simp)
    exact ⟨fun v hv => by have := h1 v hv; omega, by omega⟩

/-- the owner state after an update -/
theorem update_owner {o : Owner} (h : o.WF) {pos k : Nat} (hp : o.lastUpdate < pos) :
    let o' : Owner := { o with upcoming := o.upcoming ++ List.replicate k pos }
    o'.WF ∧ o'.greatest = o.greatest + k ∧ (∀ y, y < pos → o'.versionAt y = o.versionAt y) ∧
    (∀ y, pos ≤ y → o'.versionAt y = o.greatest + k) := by
  obtain ⟨h1, h2⟩ := lastUpdate_lt h hp
  refine ⟨⟨?_, ?_⟩, ?_, ?_, ?_⟩
  · simp only []
    rw [List.pairwise_append]
    refine ⟨h.1, List.pairwise_replicate.2 (Or.inr (le_refl _)), ?_⟩
    intro u hu v hv
    have := h1 u hu
    rw [List.eq_of_mem_replicate hv]; omega
  · intro u hu
    rcases List.mem_append.1 hu with hu | hu
    · exact h.2 u hu
    · rw [List.eq_of_mem_replicate hu]; exact h2
  · simp only [Owner.greatest, List.length_append, List.length_replicate]; omega
  · intro y hy
    simp only [Owner.versionAt, List.countP_append]
    rw [show (List.replicate k pos).countP (· ≤ y) = 0 from List.countP_eq_zero.2 ?_]
    · omega
    · intro u hu; rw [List.eq_of_mem_replicate hu]; simp; omega
  · intro y hy
    simp only [Owner.versionAt, Owner.greatest, List.countP_append]
    rw [List.countP_eq_length.2, List.countP_eq_length.2, List.length_replicate]
    · omega
    · intro u hu; rw [List.eq_of_mem_replicate hu]; simp; omega
    · intro u hu; have := h1 u hu; simp; omega

theorem mem_additional {ladder : List Nat} {start count v : Nat} : v ∈ additionalVersions ladder start count ↔
    start ≤ v ∧ v < start + count ∧ v ∉ ladder := by
  unfold additionalVersions
  rw [List.mem_filterMap]
  constructor
  · rintro ⟨i, hi, h⟩
    rw [List.mem_range] at hi
    split at h
    · cases h
    · rename_i hn
      cases h
      exact ⟨by omega, by omega, by simpa using hn⟩
  · rintro ⟨h1, h2, h3⟩
    refine ⟨v - start, by rw [List.mem_range]; omega, ?_⟩
    have e : start + (v - start) = v := by omega
    rw [e, if_neg (by simpa using h3)]

end Katie.Alg
