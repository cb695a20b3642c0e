import Verif.Lemmas.Faults
import Verif.Spec.Owner
import Verif.Lemmas.Search

/- Lemmas about owner monitoring. -/

namespace Katie.Alg
open Katie Prog SearchTree SearchSpec

/-! ### binary search -/

theorem searchIdx_spec {l : List Nat} {t : Nat} (hs : l.Pairwise (· ≤ ·)) : ∀ (fuel i j : Nat), i ≤ j → j ≤ l.length → j - i < fuel →
    (∀ k, k < i → l.getD k 0 < t) → (∀ k, j ≤ k → k < l.length → t ≤ l.getD k 0) →
    searchIdx l t fuel i j ≤ l.length ∧ (∀ k, k < searchIdx l t fuel i j → l.getD k 0 < t) ∧
      (∀ k, searchIdx l t fuel i j ≤ k → k < l.length → t ≤ l.getD k 0) := by
  have hmono : ∀ a b, a ≤ b → b < l.length → l.getD a 0 ≤ l.getD b 0 := by
    intro a b hab hb
    rw [List.getD_eq_getElem _ _ (by omega), List.getD_eq_getElem _ _ hb]
    rcases Nat.eq_or_lt_of_le hab with rfl | hlt
    · exact le_refl _
    · exact List.pairwise_iff_getElem.1 hs a b (by omega) hb hlt
  intro fuel
  induction fuel with
  | zero => intro i j _ _ h; omega
  | succ fuel ih =>
    intro i j hij hj hf h1 h2
    unfold searchIdx
    split
    · rename_i hlt
      simp only []
      have hh : i ≤ (i + j) / 2 ∧ (i + j) / 2 < j := by omega
      split
      · rename_i hlt2
        refine ih _ _ (by omega) hj (by omega) ?_ h2
        intro k hk
        have := hmono k ((i + j) / 2) (by omega) (by omega)
        omega
      · rename_i hge
        refine ih _ _ (by omega) (by omega) (by omega) h1 ?_
        intro k hk hk2
        have := hmono ((i + j) / 2) k hk hk2
        omega
    · have : i = j := by omega
      subst this
      exact ⟨hj, h1, h2⟩

theorem bsearch_spec {l : List Nat} {t : Nat} (hs : l.Pairwise (· ≤ ·)) :
    bsearch l t ≤ l.length ∧ (∀ u ∈ l.take (bsearch l t), u < t) ∧ (∀ u ∈ l.drop (bsearch l t), t ≤ u) := by
  obtain ⟨h1, h2, h3⟩ := searchIdx_spec (t := t) hs (l.length + 1) 0 l.length (by omega) (le_refl _) (by omega) (by simp) (by intro k h1 h2; omega)
  refine ⟨h1, ?_, ?_⟩
  · intro u hu
    obtain ⟨k, hk, rfl⟩ := List.mem_iff_getElem.1 hu
    rw [List.length_take] at hk
    have := h2 k (by unfold bsearch at hk; omega)
    rw [List.getD_eq_getElem _ _ (by omega)] at this
    rw [List.getElem_take]; exact this
  · intro u hu
    obtain ⟨k, hk, rfl⟩ := List.mem_iff_getElem.1 hu
    rw [List.length_drop] at hk
    have := h3 (bsearch l t + k) (by unfold bsearch; omega) (by omega)
    rw [List.getD_eq_getElem _ _ (by omega)] at this
    rw [List.getElem_drop]; exact this

theorem bsearch_count {l : List Nat} {y : Nat} (hs : l.Pairwise (· ≤ ·)) : bsearch l (y + 1) = l.countP (· ≤ y) := by
  obtain ⟨h1, h2, h3⟩ := bsearch_spec (t := y + 1) hs
  have e := List.take_append_drop (bsearch l (y + 1)) l
  have : l.countP (· ≤ y) = (l.take (bsearch l (y + 1))).countP (· ≤ y) + (l.drop (bsearch l (y + 1))).countP (· ≤ y) := by
    rw [← List.countP_append, e]
  rw [this, List.countP_eq_length.2, List.countP_eq_zero.2, List.length_take]
  · omega
  · intro u hu; have := h3 u hu; simp; omega
  · intro u hu; have := h2 u hu; simp; omega

theorem greatestAt_eq {o : Owner} (h : o.WF) (y : Nat) : o.greatestAt y = o.versionAt y := by
  unfold Owner.greatestAt Owner.versionAt
  rw [bsearch_count h.1]; omega

theorem setStarting_WF {o : Owner} (h : o.WF) (x : Nat) : (o.setStarting x).WF := by
  refine ⟨?_, ?_⟩
  · exact List.Pairwise.sublist (List.drop_sublist _ _) h.1
  · intro u hu
    have := (bsearch_spec (t := x + 1) h.1).2.2 u hu
    exact this

theorem setStarting_versionAt {o : Owner} (h : o.WF) {x y : Nat} (hxy : x ≤ y) : (o.setStarting x).versionAt y = o.versionAt y := by
  obtain ⟨h1, h2, h3⟩ := bsearch_spec (t := x + 1) h.1
  unfold Owner.versionAt Owner.setStarting
  simp only []
  have e := List.take_append_drop (bsearch o.upcoming (x + 1)) o.upcoming
  have : o.upcoming.countP (· ≤ y) = (o.upcoming.take (bsearch o.upcoming (x + 1))).countP (· ≤ y) + (o.upcoming.drop (bsearch o.upcoming (x + 1))).countP (· ≤ y) := by
    rw [← List.countP_append, e]
  rw [this]
  have e2 : (o.upcoming.take (bsearch o.upcoming (x + 1))).countP (· ≤ y) = bsearch o.upcoming (x + 1) := by
    rw [List.countP_eq_length.2, List.length_take]
    · omega
    · intro u hu; have := h2 u hu; simp; omega
  rw [e2]; omega

theorem setStarting_greatest {o : Owner} (h : o.WF) (x : Nat) : (o.setStarting x).greatest = o.greatest := by
  have := (bsearch_spec (t := x + 1) h.1).1
  unfold Owner.greatest Owner.setStarting
  simp only [List.length_drop]
  omega

/-! ### the walk -/

/-- the starting point moved, nothing else -/
structure Advances (o o' : Owner) : Prop where
  wf : o'.WF
  le : o.starting ≤ o'.starting
  total : o'.greatest = o.greatest
  keeps : ∀ y, o'.starting ≤ y → o'.versionAt y = o.versionAt y

theorem Advances.refl {o : Owner} (h : o.WF) : Advances o o := ⟨h, le_refl _, rfl, fun _ _ => rfl⟩

theorem Advances.trans {a b c : Owner} (h : Advances a b) (h' : Advances b c) : Advances a c :=
  ⟨h'.wf, le_trans h.le h'.le, h'.total.trans h.total, fun y hy => (h'.keeps y hy).trans (h.keeps y (le_trans h'.le hy))⟩

theorem Advances.set {o : Owner} (h : o.WF) {x : Nat} (hx : o.starting ≤ x) : Advances o (o.setStarting x) :=
  ⟨setStarting_WF h x, hx, setStarting_greatest h x, fun _ hy => setStarting_versionAt h hy⟩

theorem StopSticks.left {t1 t2 : List Ev} (h : StopSticks (t1 ++ t2)) : StopSticks t1 := by
  intro a b e hs x v c hc
  exact h a (b ++ t2) (by rw [e, List.append_assoc]) hs x v c (List.mem_append_left _ hc)

theorem StopSticks.right {t1 t2 : List Ev} (h : StopSticks (t1 ++ t2)) : StopSticks t2 := by
  intro a b e hs x v c hc
  obtain ⟨y, w, hy⟩ := hs
  exact h (t1 ++ a) b (by rw [e, List.append_assoc]) ⟨y, w, List.mem_append_right _ hy⟩ x v c hc

theorem expectLadder_runs {x : Nat} {v : Int} {om : Bool} {tr : List Ev} (h : Runs (expectLadder x v om) tr (.ok ())) : ShownGreatest tr x v om := by
  unfold expectLadder at h
  rw [runs_ite] at h
  rcases h with ⟨hv, h⟩ | ⟨hv, h⟩
  · obtain ⟨r, t1, t2, rfl, h1, h2⟩ := runs_bind_ok.1 h
    rw [runs_ite] at h2
    rcases h2 with ⟨-, h2⟩ | ⟨he, h2⟩
    · exact absurd h2 runs_fail_ok
    · have e1 := runs_call.1 h1
      obtain ⟨rfl, -⟩ := runs_pure.1 h2
      have : r = -1 := by simpa using he
      subst this
      exact Or.inl ⟨hv, by rw [e1]; exact List.mem_cons_self⟩
  · obtain ⟨r, t1, t2, rfl, h1, h2⟩ := runs_bind_ok.1 h
    rw [runs_ite] at h2
    rcases h2 with ⟨-, h2⟩ | ⟨he, h2⟩
    · exact absurd h2 runs_fail_ok
    · have e1 := runs_call.1 h1
      obtain ⟨rfl, -⟩ := runs_pure.1 h2
      have : r = 0 := by simpa using he
      subst this
      exact Or.inr ⟨by omega, by rw [e1]; exact List.mem_cons_self⟩

theorem ShownGreatest.mono {t t' : List Ev} {y : Nat} {v : Int} {om : Bool} (h : ShownGreatest t y v om) (ht : ∀ e ∈ t, e ∈ t') : ShownGreatest t' y v om :=
  h.imp (fun h => ⟨h.1, ht _ h.2⟩) (fun h => ⟨h.1, ht _ h.2⟩)

/-- what a walk over the entries `lo … hi - 1` achieves -/
structure WalkOk (W : Nat) (ts : Nat → Nat) (n lo hi : Nat) (o o' : Owner) (tr : List Ev) : Prop where
  adv : Advances o o'
  start : o'.starting = o.starting ∨ (lo ≤ o'.starting ∧ o'.starting < hi ∧ Distinguished (Wide W) ts n o'.starting)
  shown : ∀ y, lo ≤ y → y < hi → o.starting < y → y ≤ o'.starting → Distinguished (Wide W) ts n y → ShownGreatest tr y (o.versionAt y)
  all : Stopped tr ∨ ∀ y, lo ≤ y → y < hi → Distinguished (Wide W) ts n y → y ≤ o'.starting

theorem ownerWalk_runs {cfg : Config} {n : Nat} {ts : Nat → Nat} (ht : GoodTimes ts n) : ∀ (fuel lo hi : Nat) (anc : List Nat) (o o' : Owner) (tr : List Ev),
    At n lo hi anc → o.WF → TsTrace tr ts → StopSticks tr →
    Runs (ownerWalk cfg n fuel (rt lo hi) (lb ts lo) (rb ts n hi) o) tr (.ok o') → WalkOk cfg.rmw ts n lo hi o o' tr := by
  intro fuel
  induction fuel with
  | zero => intro lo hi anc o o' tr h _ _ _ hr; unfold ownerWalk at hr; cases hr
  | succ fuel ih =>
    intro lo hi anc o o' tr h hwf htr hst hr
    have hb := h.bounds
    have hdc : cfg.isDistinguished (lb ts lo) (rb ts n hi) = true ↔ Distinguished (Wide cfg.rmw) ts n (rt lo hi) := by
      rw [distinguished_iff ht h]
      exact isDistinguished_iff (lb_le_rb ht (by omega) hb.2.2) (rb_lt ht hb.2.2 h.pos)
    have erb : rb ts n (rt lo hi) = ts (rt lo hi) := by unfold rb; rw [if_neg (by omega)]
    have elb : lb ts (rt lo hi + 1) = ts (rt lo hi) := by unfold lb; rw [if_neg (by omega)]; rfl
    -- the right half
    have hright : ∀ (o1 : Owner) (t : List Ev), o1.WF → TsTrace t ts → StopSticks t →
        Runs (do let timestamp ← getTs (rt lo hi)
                 let c ← lift (right (rt lo hi) n)
                 ownerWalk cfg n fuel c timestamp (rb ts n hi) o1) t (.ok o') → ¬ noRightChild (rt lo hi) n = true →
        WalkOk cfg.rmw ts n (rt lo hi + 1) hi o1 o' t := by
      intro o1 t hw1 htr1 hst1 hr1 hnr
      have hne : rt lo hi + 1 < hi := by
        by_contra hcon
        exact hnr ((noRightChild_iff h).2 (by omega))
      obtain ⟨a, t1, t2, rfl, hg, hr2⟩ := runs_bind_ok.1 hr1
      have hga := runs_getTs htr1.left hg
      subst hga
      obtain ⟨c, t3, t4, rfl, hl, hr3⟩ := runs_bind_ok.1 hr2
      obtain ⟨rfl, hk⟩ := runs_lift.1 hl
      rw [right_rt h (by omega)] at hk
      have hk := Except.ok.inj hk
      subst hk
      rw [← elb] at hr3
      have hw := ih _ _ _ _ _ _ (.right h (by omega)) hw1 htr1.right.right hst1.right.right hr3
      refine ⟨hw.adv, hw.start, ?_, ?_⟩
      · intro y h1 h2 h3 h4 h5
        exact (hw.shown y h1 h2 h3 h4 h5).mono (fun e he => by simp at he ⊢; exact Or.inr he)
      · refine hw.all.imp ?_ id
        rintro ⟨x, v, hx⟩
        exact ⟨x, v, by simp at hx ⊢; exact Or.inr hx⟩
    unfold ownerWalk at hr
    rw [runs_ite] at hr
    rcases hr with ⟨hnd, hr⟩ | ⟨hdd, hr⟩
    · obtain ⟨rfl, hk⟩ := runs_pure.1 hr
      cases hk
      refine ⟨.refl hwf, Or.inl rfl, by intro y _ _ h1 h2; omega, Or.inr ?_⟩
      intro y h1 h2 h3
      exact absurd (hdc.2 (dist_up ht h h1 h2 h3)) hnd
    have hdist : Distinguished (Wide cfg.rmw) ts n (rt lo hi) := hdc.1 (by simpa using hdd)
    rw [runs_ite] at hr
    rcases hr with ⟨hle, hr⟩ | ⟨hgt, hr⟩
    · -- at or left of the starting position: go right
      rw [runs_ite] at hr
      rcases hr with ⟨hnr, hr⟩ | ⟨hnr, hr⟩
      · obtain ⟨rfl, hk⟩ := runs_pure.1 hr
        cases hk
        have := (noRightChild_iff h).1 hnr
        exact ⟨.refl hwf, Or.inl rfl, by intro y _ _ h1 h2; omega, Or.inr (by intro y _ _ _; omega)⟩
      · have hw := hright o tr hwf htr hst hr hnr
        refine ⟨hw.adv, ?_, ?_, ?_⟩
        · exact hw.start.imp id (fun h => ⟨by omega, h.2⟩)
        · intro y h1 h2 h3 h4 h5
          exact hw.shown y (by omega) h2 h3 h4 h5
        · refine hw.all.imp id ?_
          intro hall y h1 h2 h3
          by_cases hy : y ≤ rt lo hi
          · have := hw.adv.le; omega
          · exact hall y (by omega) h2 h3
    · obtain ⟨o1, t1, t2, rfl, hl, hr⟩ := runs_bind_ok.1 hr
      have hw1 : WalkOk cfg.rmw ts n lo (rt lo hi) o o1 t1 := by
        rw [runs_ite] at hl
        rcases hl with ⟨hnl, hl⟩ | ⟨hnl, hl⟩
        · obtain ⟨rfl, hk⟩ := runs_pure.1 hl
          cases hk
          have := (noLeftChild_iff h).1 hnl
          exact ⟨.refl hwf, Or.inl rfl, by intro y _ _ h1 h2; omega, Or.inr (by intro y _ _ _; omega)⟩
        · have hne : lo < rt lo hi := by
            by_contra hcon
            exact hnl ((noLeftChild_iff h).2 (by omega))
          obtain ⟨a, t3, t4, rfl, hg, hr2⟩ := runs_bind_ok.1 hl
          have hga := runs_getTs htr.left.left hg
          subst hga
          obtain ⟨c, t5, t6, rfl, hl2, hr3⟩ := runs_bind_ok.1 hr2
          obtain ⟨rfl, hk⟩ := runs_lift.1 hl2
          rw [left_rt h, if_pos (by omega)] at hk
          have hk := Except.ok.inj hk
          subst hk
          rw [← erb] at hr3
          have hw := ih _ _ _ _ _ _ (.left h (by omega)) hwf htr.left.right.right hst.left.right.right hr3
          refine ⟨hw.adv, hw.start, ?_, ?_⟩
          · intro y h1 h2 h3 h4 h5
            exact (hw.shown y h1 h2 h3 h4 h5).mono (fun e he => by simp at he ⊢; exact Or.inr he)
          · refine hw.all.imp ?_ id
            rintro ⟨x, v, hx⟩
            exact ⟨x, v, by simp at hx ⊢; exact Or.inr hx⟩
      obtain ⟨b, t3, t4, rfl, hs, hr⟩ := runs_bind_ok.1 hr
      have es : t3 = [⟨.stop (rt lo hi) (o1.greatestAt (rt lo hi)), .ok b⟩] := runs_call.1 hs
      rw [runs_ite] at hr
      rcases hr with ⟨hb1, hr⟩ | ⟨hb1, hr⟩
      · -- stopped
        obtain ⟨rfl, hk⟩ := runs_pure.1 hr
        cases hk
        refine ⟨hw1.adv, hw1.start.imp id (fun h => ⟨h.1, by omega, h.2.2⟩), ?_, Or.inl ?_⟩
        · intro y h1 h2 h3 h4 h5
          have : y < rt lo hi := by
            rcases hw1.start with h | h <;> omega
          exact (hw1.shown y h1 this h3 h4 h5).mono (fun e he => by simp; exact Or.inl he)
        · have : b = true := hb1
          subst this
          exact ⟨_, _, by rw [es]; exact List.mem_append_right _ (List.mem_append_left _ List.mem_cons_self)⟩
      · have hall1 : ∀ y, lo ≤ y → y < rt lo hi → Distinguished (Wide cfg.rmw) ts n y → y ≤ o1.starting := by
          rcases hw1.all with hsp | hall
          · exfalso
            exact hb1 (hst t1 _ rfl hsp (rt lo hi) (o1.greatestAt (rt lo hi)) b (by rw [es]; exact List.mem_append_left _ List.mem_cons_self))
          · exact hall
        obtain ⟨u, t5, t6, rfl, he, hr⟩ := runs_bind_ok.1 hr
        have hsh := expectLadder_runs he
        have ho1 : o1.starting < rt lo hi := by
          rcases hw1.start with h | h <;> omega
        rw [greatestAt_eq hw1.adv.wf, hw1.adv.keeps _ (by omega)] at hsh
        have hadv2 := hw1.adv.trans (Advances.set hw1.adv.wf (x := rt lo hi) (by omega))
        -- everything up to and including the middle
        have hmid : ∀ y, lo ≤ y → y ≤ rt lo hi → o.starting < y → Distinguished (Wide cfg.rmw) ts n y → ShownGreatest (t1 ++ (t3 ++ (t5 ++ t6))) y (o.versionAt y) := by
          intro y h1 h2 h3 h4
          rcases Nat.lt_or_ge y (rt lo hi) with hlt | hge
          · exact (hw1.shown y h1 hlt h3 (hall1 y h1 hlt h4) h4).mono (fun e he => by simp; exact Or.inl he)
          · have : y = rt lo hi := by omega
            subst this
            exact hsh.mono (fun e he => by simp; exact Or.inr (Or.inr (Or.inl he)))
        rw [runs_ite] at hr
        rcases hr with ⟨hnr, hr⟩ | ⟨hnr, hr⟩
        · obtain ⟨rfl, hk⟩ := runs_pure.1 hr
          cases hk
          have hnr := (noRightChild_iff h).1 hnr
          refine ⟨hadv2, Or.inr ⟨hb.1, hb.2.1, hdist⟩, ?_, Or.inr ?_⟩
          · intro y h1 h2 h3 h4 h5
            exact hmid y h1 h4 h3 h5
          · intro y h1 h2 h3
            show y ≤ rt lo hi
            omega
        · have hw := hright _ t6 hadv2.wf htr.right.right.right hst.right.right.right hr hnr
          have es2 : (o1.setStarting (rt lo hi)).starting = rt lo hi := rfl
          have hle2 := hw.adv.le
          rw [es2] at hle2
          refine ⟨hadv2.trans hw.adv, ?_, ?_, ?_⟩
          · rcases hw.start with h | h
            · rw [h, es2]; exact Or.inr ⟨hb.1, hb.2.1, hdist⟩
            · exact Or.inr ⟨by omega, h.2.1, h.2.2⟩
          · intro y h1 h2 h3 h4 h5
            rcases Nat.lt_or_ge (rt lo hi) y with hlt | hge
            · have := hw.shown y (by omega) h2 (by rw [es2]; exact hlt) h4 h5
              rw [hadv2.keeps y (by rw [es2]; omega)] at this
              exact this.mono (fun e he => by simp; exact Or.inr (Or.inr (Or.inr he)))
            · exact hmid y h1 hge h3 h5
          · rcases hw.all with ⟨x, v, hx⟩ | hall
            · exact Or.inl ⟨x, v, by simp; exact Or.inr (Or.inr (Or.inr hx))⟩
            · refine Or.inr ?_
              intro y h1 h2 h3
              rcases Nat.lt_or_ge (rt lo hi) y with hlt | hge
              · exact hall y (by omega) h2 h3
              · omega

/-! ### how the walk fails -/

/-- an error value, not a crash -/
def IsErr (f : Fault) : Prop := ∃ m, f = .err m

/-- requests about entries of the tree -/
def InTree (n : Nat) : Req → Prop
  | .ts x => x < n
  | .search x _ _ => x < n
  | .monitor x _ => x < n
  | .incl x _ => x < n
  | .stop x _ => x < n
  | .addLadder x _ _ _ => x < n

theorem expectLadder_spec {n x : Nat} {v : Int} {om : Bool} (hx : x < n) : Spec (expectLadder x v om) (InTree n) (fun _ => True) IsErr := by
  unfold expectLadder
  refine .ite (fun _ => ?_) (fun _ => ?_)
  · exact .bindT (.call hx) (fun r => .ite (fun _ => .fail ⟨_, rfl⟩) (fun _ => .pure trivial))
  · exact .bindT (.call hx) (fun r => .ite (fun _ => .fail ⟨_, rfl⟩) (fun _ => .pure trivial))

theorem ownerWalk_spec {cfg : Config} {n : Nat} : ∀ (fuel lo hi : Nat) (anc : List Nat) (l r : Nat) (o : Owner), At n lo hi anc → hi - lo < fuel →
    Spec (ownerWalk cfg n fuel (rt lo hi) l r o) (InTree n) (fun _ => True) IsErr := by
  intro fuel
  induction fuel with
  | zero => intro lo hi anc l r o h hf; omega
  | succ fuel ih =>
    intro lo hi anc l r o h hf
    have hb := h.bounds
    have hx : rt lo hi < n := by omega
    have hright : ¬ noRightChild (rt lo hi) n = true → ∀ o1, Spec (do
        let timestamp ← getTs (rt lo hi)
        let c ← lift (right (rt lo hi) n)
        ownerWalk cfg n fuel c timestamp r o1) (InTree n) (fun _ => True) IsErr := by
      intro hnr o1
      have hne : rt lo hi + 1 < hi := by
        by_contra hcon
        exact hnr ((noRightChild_iff h).2 (by omega))
      refine .bindT (.call hx) (fun t => ?_)
      refine .bind (Q := fun c => c = rt (rt lo hi + 1) hi) (.lift_ok (right_rt h (by omega)) rfl) ?_
      rintro c rfl
      exact ih _ _ _ _ _ _ (.right h (by omega)) (by omega)
    unfold ownerWalk
    refine .ite (fun _ => .pure trivial) (fun _ => .ite (fun _ => .ite (fun _ => .pure trivial) (fun hnr => hright hnr o)) (fun _ => ?_))
    refine .bindT ?_ (fun o1 => .bindT (.call hx) (fun b => .ite (fun _ => .pure trivial) (fun _ => .bindT (expectLadder_spec hx)
      (fun _ => .ite (fun _ => .pure trivial) (fun hnr => hright hnr _)))))
    refine .ite (fun _ => .pure trivial) (fun hnl => ?_)
    have hne : lo < rt lo hi := by
      by_contra hcon
      exact hnl ((noLeftChild_iff h).2 (by omega))
    refine .bindT (.call hx) (fun t => ?_)
    refine .bind (Q := fun c => c = rt lo (rt lo hi)) (.lift_ok (by rw [left_rt h, if_pos (by omega)]) rfl) ?_
    rintro c rfl
    exact ih _ _ _ _ _ _ (.left h (by omega)) (by omega)

theorem honest_trace {ts : Nat → Nat} {g : Nat → Int} {tr : List Ev} (h : AgreesWith tr (honest ts g)) :
    TsTrace tr ts ∧ StopSticks tr ∧ ¬ Stopped tr := by
  have hns : ∀ t : List Ev, (∀ e ∈ t, e ∈ tr) → ¬ Stopped t := by
    rintro t ht ⟨x, v, hx⟩
    have := h _ (ht _ hx)
    simp only [honest] at this
    cases (Except.ok.inj this)
  refine ⟨?_, ?_, hns tr (fun _ h => h)⟩
  · intro x a hx
    have := h _ hx
    simp only [honest] at this
    exact Except.ok.inj this
  · rintro t1 t2 rfl hs
    exact absurd hs (hns t1 (fun e he => List.mem_append_left _ he))

theorem expectLadder_honest {ts : Nat → Nat} {g : Nat → Int} {x : Nat} {v : Int} {om : Bool} (h : g x = v) (h1 : v < 2 ^ 32) :
    (expectLadder x v om).eval (honest ts g) = .ok () := by
  unfold expectLadder
  rw [eval_ite]
  split
  · rename_i hv
    rw [eval_bind]
    have : (getSearch x 0 om).eval (honest ts g) = .ok (-1 : Int) := by
      show honest ts g (fun _ _ => false) (.search x 0 om) = _
      simp only [honest]
      rw [if_pos (by omega)]
      rfl
    rw [this]
    rfl
  · rename_i hv
    rw [eval_bind]
    have : (getSearch x (v.toNat % 2 ^ 32) om).eval (honest ts g) = .ok (0 : Int) := by
      show honest ts g (fun _ _ => false) (.search x _ om) = _
      simp only [honest]
      rw [if_neg (by omega), if_neg (by omega)]
      rfl
    rw [this]
    rfl

/-- on an honest log that agrees with the owner, the walk succeeds -/
theorem ownerWalk_honest {cfg : Config} {n : Nat} {ts : Nat → Nat} {g : Nat → Int} (ht : GoodTimes ts n) : ∀ (fuel lo hi : Nat) (anc : List Nat) (o : Owner),
    At n lo hi anc → hi - lo < fuel → o.WF →
    (∀ y, lo ≤ y → y < hi → o.starting < y → Distinguished (Wide cfg.rmw) ts n y → g y = o.versionAt y ∧ g y < 2 ^ 32) →
    ∃ o', (ownerWalk cfg n fuel (rt lo hi) (lb ts lo) (rb ts n hi) o).eval (honest ts g) = .ok o' := by
  intro fuel
  induction fuel with
  | zero => intro lo hi anc o h hf; omega
  | succ fuel ih =>
    intro lo hi anc o h hf hwf hg
    have hb := h.bounds
    have erb : rb ts n (rt lo hi) = ts (rt lo hi) := by unfold rb; rw [if_neg (by omega)]
    have elb : lb ts (rt lo hi + 1) = ts (rt lo hi) := by unfold lb; rw [if_neg (by omega)]; rfl
    have hdc : cfg.isDistinguished (lb ts lo) (rb ts n hi) = true ↔ Distinguished (Wide cfg.rmw) ts n (rt lo hi) := by
      rw [distinguished_iff ht h]
      exact isDistinguished_iff (lb_le_rb ht (by omega) hb.2.2) (rb_lt ht hb.2.2 h.pos)
    have ets : (getTs (rt lo hi)).eval (honest ts g) = .ok (ts (rt lo hi)) := rfl
    have hright : ¬ noRightChild (rt lo hi) n = true → ∀ o1 : Owner, o1.WF →
        (∀ y, rt lo hi + 1 ≤ y → y < hi → o1.starting < y → Distinguished (Wide cfg.rmw) ts n y → g y = o1.versionAt y ∧ g y < 2 ^ 32) →
        ∃ o', eval (honest ts g) (do
        let timestamp ← getTs (rt lo hi)
        let c ← lift (right (rt lo hi) n)
        ownerWalk cfg n fuel c timestamp (rb ts n hi) o1) = .ok o' := by
      intro hnr o1 hw1 hg1
      have hne : rt lo hi + 1 < hi := by
        by_contra hcon
        exact hnr ((noRightChild_iff h).2 (by omega))
      obtain ⟨o', ho⟩ := ih (rt lo hi + 1) hi _ o1 (.right h (by omega)) (by omega) hw1 hg1
      refine ⟨o', ?_⟩
      rw [eval_bind, ets, G.ok_bind, eval_bind, eval_lift, right_rt h (by omega), G.ok_bind, ← elb]
      exact ho
    unfold ownerWalk
    rw [eval_ite]
    split
    · exact ⟨_, rfl⟩
    rename_i hdd
    have hdist : Distinguished (Wide cfg.rmw) ts n (rt lo hi) := hdc.1 (by simpa using hdd)
    rw [eval_ite]
    split
    · rw [eval_ite]
      split
      · exact ⟨_, rfl⟩
      · exact hright ‹_› o hwf (fun y h1 h2 h3 h4 => hg y (by omega) h2 h3 h4)
    · rename_i hgt
      have hl : ∃ o1, eval (honest ts g) (if noLeftChild (rt lo hi) then pure o
          else do
            let timestamp ← getTs (rt lo hi)
            let c ← lift (LogMath.left (rt lo hi))
            ownerWalk cfg n fuel c (lb ts lo) timestamp o) = .ok o1 ∧ Advances o o1 ∧ o1.starting < rt lo hi := by
        rw [eval_ite]
        split
        · exact ⟨o, rfl, .refl hwf, by omega⟩
        · rename_i hnl
          have hne : lo < rt lo hi := by
            by_contra hcon
            exact hnl ((noLeftChild_iff h).2 (by omega))
          obtain ⟨o1, ho⟩ := ih lo (rt lo hi) _ o (.left h (by omega)) (by omega) hwf (fun y h1 h2 h3 h4 => hg y (by omega) (by omega) h3 h4)
          obtain ⟨tr, hr1, hr2⟩ := runs_eval (honest ts g) (ownerWalk cfg n fuel (rt lo (rt lo hi)) (lb ts lo) (rb ts n (rt lo hi)) o)
          rw [ho] at hr1
          obtain ⟨ht1, ht2, -⟩ := honest_trace hr2
          have hw := ownerWalk_runs ht fuel lo (rt lo hi) _ o o1 tr (.left h (by omega)) hwf ht1 ht2 hr1
          refine ⟨o1, ?_, hw.adv, ?_⟩
          · rw [eval_bind, ets, G.ok_bind, eval_bind, eval_lift, left_rt h, if_pos (by omega), G.ok_bind, ← erb]
            exact ho
          · rcases hw.start with h | h <;> omega
      obtain ⟨o1, he, hadv, hlt⟩ := hl
      rw [eval_bind, he, G.ok_bind, eval_bind]
      have hstop : (getStop (rt lo hi) (o1.greatestAt (rt lo hi))).eval (honest ts g) = .ok false := rfl
      rw [hstop, G.ok_bind, eval_ite, if_neg (by simp), eval_bind]
      obtain ⟨hg1, hg2⟩ := hg (rt lo hi) hb.1 hb.2.1 (by omega) hdist
      rw [← hadv.keeps _ (by omega), ← greatestAt_eq hadv.wf] at hg1
      rw [expectLadder_honest hg1 (by omega), G.ok_bind, eval_ite]
      split
      · exact ⟨_, rfl⟩
      · refine hright ‹_› _ (setStarting_WF hadv.wf _) ?_
        intro y h1 h2 h3 h4
        rw [setStarting_versionAt hadv.wf (by omega), hadv.keeps y (by omega)]
        exact hg y (by omega) h2 (by have := hadv.le; omega) h4

/-! ### initialization -/

theorem anc_suffix {n loT hiT : Nat} {ancT : List Nat} (hT : At n loT hiT ancT) : ∀ (k lo hi : Nat) (anc : List Nat), hi - lo ≤ k → At n lo hi anc →
    lo ≤ rt loT hiT → rt loT hiT < hi → ∃ pre, ancT = pre ++ anc ∧ (rt lo hi = rt loT hiT → pre = []) ∧
      (rt lo hi ≠ rt loT hiT → ∃ pre', pre = pre' ++ [rt lo hi]) := by
  intro k
  induction k with
  | zero => intro lo hi anc hk h h1 h2; omega
  | succ k ih =>
    intro lo hi anc hk h h1 h2
    have hb := h.bounds
    rcases lt_trichotomy (rt loT hiT) (rt lo hi) with hx | hx | hx
    · obtain ⟨pre, e, -, -⟩ := ih lo (rt lo hi) _ (by omega) (.left h (by omega)) h1 hx
      exact ⟨pre ++ [rt lo hi], by rw [e]; simp, fun e => by omega, fun _ => ⟨pre, rfl⟩⟩
    · exact ⟨[], by rw [anc_unique hT h hx]; rfl, fun _ => rfl, fun hne => absurd hx.symm hne⟩
    · obtain ⟨pre, e, -, -⟩ := ih (rt lo hi + 1) hi _ (by omega) (.right h (by omega)) (by omega) h2
      exact ⟨pre ++ [rt lo hi], by rw [e]; simp, fun e => by omega, fun _ => ⟨pre, rfl⟩⟩

theorem initWalk_runs {m : Monitor} {ts : Nat → Nat} {s : Nat} (ht : GoodTimes ts m.treeSize) (hrm : m.rightmost = ts (m.treeSize - 1)) :
    ∀ (fuel lo hi : Nat) (anc : List Nat) (tr : List Ev) (xs : List Nat), At m.treeSize lo hi anc → lo ≤ s → s < hi ∨ hi = m.treeSize → TsTrace tr ts →
    Runs (initWalk m s fuel (rt lo hi) (lb ts lo) (rb ts m.treeSize hi)) tr (.ok xs) →
    s < hi ∧ Live m.cfg ts m.treeSize s ∧ ∃ loT hiT pre, At m.treeSize loT hiT (pre ++ anc) ∧ rt loT hiT = s ∧
      xs = s :: pre.filter (fun y => decide (y < s) && !m.cfg.isExpired (ts y) m.rightmost) := by
  intro fuel
  induction fuel with
  | zero => intro lo hi anc tr xs _ _ _ _ hr; unfold initWalk at hr; cases hr
  | succ fuel ih =>
    intro lo hi anc tr xs h h1 h2 htr hr
    have hb := h.bounds
    have hdc : m.cfg.isDistinguished (lb ts lo) (rb ts m.treeSize hi) = true ↔ Distinguished (Wide m.cfg.rmw) ts m.treeSize (rt lo hi) := by
      rw [distinguished_iff ht h]
      exact isDistinguished_iff (lb_le_rb ht (by omega) hb.2.2) (rb_lt ht hb.2.2 h.pos)
    unfold initWalk at hr
    rw [runs_ite] at hr
    rcases hr with ⟨-, hr⟩ | ⟨hdd, hr⟩
    · exact absurd hr runs_fail_ok
    have hdist := hdc.1 (by simpa using hdd)
    obtain ⟨a, t1, t2, rfl, hg, hr⟩ := runs_bind_ok.1 hr
    have hga := runs_getTs htr.left hg
    subst hga
    simp only [] at hr
    rw [runs_ite] at hr
    rcases hr with ⟨hlt, hr⟩ | ⟨hnlt, hr⟩
    · rw [runs_ite] at hr
      rcases hr with ⟨-, hr⟩ | ⟨hnr, hr⟩
      · exact absurd hr runs_fail_ok
      have hne : rt lo hi + 1 < hi := by
        by_contra hcon
        exact hnr ((noRightChild_iff h).2 (by omega))
      obtain ⟨c, t3, t4, rfl, hl, hr⟩ := runs_bind_ok.1 hr
      obtain ⟨-, hl⟩ := runs_lift.1 hl
      rw [right_rt h (by omega)] at hl
      have hl := Except.ok.inj hl
      subst hl
      obtain ⟨ch, t5, t6, rfl, hw, hr⟩ := runs_bind_ok.1 hr
      obtain ⟨-, hk⟩ := runs_pure.1 hr
      have hk := Except.ok.inj hk
      have elb : lb ts (rt lo hi + 1) = ts (rt lo hi) := by unfold lb; rw [if_neg (by omega)]; rfl
      rw [← elb] at hw
      obtain ⟨i1, i2, loT, hiT, pre, i3, i4, i5⟩ := ih _ _ _ _ _ (.right h (by omega)) (by omega) h2 htr.right.right.left hw
      refine ⟨i1, i2, loT, hiT, pre ++ [rt lo hi], by simpa using i3, i4, ?_⟩
      rw [hk, i5, List.filter_append]
      have hltd : decide (rt lo hi < s) = true := by simpa using hlt
      cases he : m.cfg.isExpired (ts (rt lo hi)) m.rightmost <;> simp [he, hlt]
    · rw [runs_ite] at hr
      rcases hr with ⟨he, hr⟩ | ⟨hne, hr⟩
      · rw [runs_ite] at hr
        rcases hr with ⟨-, hr⟩ | ⟨hex, hr⟩
        · exact absurd hr runs_fail_ok
        obtain ⟨-, hk⟩ := runs_pure.1 hr
        have hk := Except.ok.inj hk
        rw [he] at hdist hex
        refine ⟨by omega, ⟨hdist, ?_⟩, lo, hi, [], by simpa using h, he, ?_⟩
        · rw [hrm, isExpired_iff ht (by omega)] at hex
          exact hex
        · rw [hk, he]; rfl
      · rw [runs_ite] at hr
        rcases hr with ⟨-, hr⟩ | ⟨hnl, hr⟩
        · exact absurd hr runs_fail_ok
        obtain ⟨c, t3, t4, rfl, hl, hr⟩ := runs_bind_ok.1 hr
        obtain ⟨-, hl⟩ := runs_lift.1 hl
        rw [left_rt h, if_pos (by omega)] at hl
        have hl := Except.ok.inj hl
        subst hl
        have erb : rb ts m.treeSize (rt lo hi) = ts (rt lo hi) := by unfold rb; rw [if_neg (by omega)]
        rw [← erb] at hr
        obtain ⟨i1, i2, loT, hiT, pre, i3, i4, i5⟩ := ih _ _ _ _ _ (.left h (by omega)) (by omega) (Or.inl (by omega)) htr.right.right hr
        refine ⟨by omega, i2, loT, hiT, pre ++ [rt lo hi], by simpa using i3, i4, ?_⟩
        rw [i5, List.filter_append]
        have : ¬ rt lo hi < s := hnlt
        simp [this]

theorem initLadders_runs : ∀ (xs vs : List Nat) (tr : List Ev), Runs (initLadders xs vs) tr (.ok ()) → ∀ (i : Nat) (hi : i < xs.length),
    (∀ v, vs[i]? = some v → (⟨.search xs[i] v false, .ok (0 : Int)⟩ : Ev) ∈ tr) ∧
    (vs[i]? = none → (⟨.search xs[i] 0 false, .ok (-1 : Int)⟩ : Ev) ∈ tr) := by
  intro xs
  induction xs with
  | nil => intro vs tr _ i hi; simp at hi
  | cons x xs ih =>
    intro vs tr h i hi
    cases vs with
    | nil =>
      unfold initLadders at h
      obtain ⟨r, t1, t2, rfl, h1, h2⟩ := runs_bind_ok.1 h
      rw [runs_ite] at h2
      rcases h2 with ⟨-, h2⟩ | ⟨he, h2⟩
      · exact absurd h2 runs_fail_ok
      have e1 := runs_call.1 h1
      have hr : r = -1 := by simpa using he
      refine ⟨by simp, fun _ => ?_⟩
      cases i with
      | zero => rw [e1, hr]; exact List.mem_append_left _ List.mem_cons_self
      | succ i => exact List.mem_append_right _ ((ih [] t2 h2 i (by simpa using hi)).2 (by simp))
    | cons v vs =>
      unfold initLadders at h
      obtain ⟨r, t1, t2, rfl, h1, h2⟩ := runs_bind_ok.1 h
      rw [runs_ite] at h2
      rcases h2 with ⟨-, h2⟩ | ⟨he, h2⟩
      · exact absurd h2 runs_fail_ok
      have e1 := runs_call.1 h1
      have hr : r = 0 := by simpa using he
      cases i with
      | zero =>
        refine ⟨fun w hw => ?_, by simp⟩
        simp at hw
        subst hw
        rw [e1, hr]; exact List.mem_append_left _ List.mem_cons_self
      | succ i =>
        obtain ⟨h3, h4⟩ := ih vs t2 h2 i (by simpa using hi)
        exact ⟨fun w hw => List.mem_append_right _ (h3 w (by simpa using hw)), fun hw => List.mem_append_right _ (h4 (by simpa using hw))⟩

end Katie.Alg
