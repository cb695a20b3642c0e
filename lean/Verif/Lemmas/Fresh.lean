import Verif.Lemmas.OneAnswer

/-
What a search for one version shows about other versions, whatever the log looks like: a client that has found version `ver` has seen,
in the entry where it was found or to its left, a version on each part of the ladder; a client that was told that `ver` is the
greatest version has seen that the greater versions of the ladder are not in the last entry.
-/

namespace Katie.Ladder
open Katie

/-- Of the versions up to `ver` in the ladder, one is known from the left or shown, or a version before it in the ladder that is greater than `ver`
is shown; unless the answer is "less". -/
theorem visit_low {vt vt' : Tracker} {x ver : Nat} {flags : List Bool} {w : List Nat} {res : Int}
    (h : receiveLadder vt x ver true flags = .ok (w, res, vt')) (hne : res ≠ -1) {p q : List Nat} {v : Nat}
    (hb : baseBinaryLadder ver = .ok (p ++ v :: q)) (hv : v ≤ ver) (hR : v ∉ (vt.searchMaps x true).2) :
    v ∈ (vt.searchMaps x true).1 ∨ ∃ z, (z = v ∨ (z ∈ p ∧ ver < z)) ∧ (z, true) ∈ w.zip flags := by
  obtain ⟨b, hb', l, hl, hr, hz, -⟩ := Alg.receiveLadder_parts h
  rw [hb] at hb'
  obtain rfl := Except.ok.inj hb'
  by_cases hL : v ∈ (vt.searchMaps x true).1
  · exact Or.inl hL
  right
  rw [hz]
  rw [List.filter_append, List.filter_cons_of_pos (by simp [hL, hR])] at hl
  obtain ⟨c0, c1, -, call⟩ := Props.C20_interpretation l ver flags
  rcases call _ hr with rfl | rfl | rfl
  · refine ⟨v, .inl rfl, ?_⟩
    rw [c0.1 hr]
    have hm : v ∈ l := by rw [hl]; simp
    obtain ⟨i, hi, hiv⟩ := List.mem_iff_getElem.1 hm
    rw [List.mem_iff_getElem]
    exact ⟨i, by simpa using hi, by simp [hiv, hv]⟩
  · obtain ⟨pre, u, post, e1, e2, e3⟩ := c1.1 hr
    have hu : (u, true) ∈ l.zip flags := by
      rw [e1, e3, List.zip_append (by simp)]
      simp
    have hpre : v ∈ pre → (v, true) ∈ l.zip flags := by
      intro hm
      rw [e1, e3, List.zip_append (by simp)]
      refine List.mem_append_left _ ?_
      obtain ⟨i, hi, hiv⟩ := List.mem_iff_getElem.1 hm
      rw [List.mem_iff_getElem]
      exact ⟨i, by simpa using hi, by simp [hiv, hv]⟩
    have he := hl.symm.trans e1
    rcases List.append_eq_append_iff.1 he with ⟨a, h1, h2⟩ | ⟨c, h1, h2⟩
    · cases a with
      | nil =>
        simp only [List.nil_append, List.cons.injEq] at h2
        omega
      | cons y a =>
        simp only [List.cons_append, List.cons.injEq] at h2
        exact ⟨v, .inl rfl, hpre (by rw [h1, h2.1]; simp)⟩
    · cases c with
      | nil =>
        simp only [List.nil_append, List.cons.injEq] at h2
        omega
      | cons y c =>
        simp only [List.cons_append, List.cons.injEq] at h2
        have : u ∈ p.filter (fun v => !((vt.searchMaps x true).1.contains v || (vt.searchMaps x true).2.contains v)) := by
          rw [h1, h2.1]; simp
        exact ⟨u, .inr ⟨(List.mem_filter.1 this).1, e2⟩, hu⟩
  · exact absurd rfl hne

/-- the answer "equal" shows all greater versions of the ladder to be absent that are not known to be -/
theorem visit_high {om : Bool} {vt vt' : Tracker} {x ver : Nat} {flags : List Bool} {w : List Nat}
    (h : receiveLadder vt x ver om flags = .ok (w, 0, vt')) {b : List Nat} {u : Nat}
    (hb : baseBinaryLadder ver = .ok b) (hub : u ∈ b) (hu : ver < u) (hL : u ∉ (vt.searchMaps x om).1)
    (hR : u ∉ (vt.searchMaps x om).2) : (u, false) ∈ w.zip flags := by
  obtain ⟨b', hb', l, hl, hr, hz, -⟩ := Alg.receiveLadder_parts h
  rw [hb] at hb'
  obtain rfl := Except.ok.inj hb'
  rw [hz]
  obtain ⟨c0, -⟩ := Props.C20_interpretation l ver flags
  rw [c0.1 hr]
  have hm : u ∈ l := by
    rw [hl, List.mem_filter]
    exact ⟨hub, by simp [hL, hR]⟩
  obtain ⟨i, hi, hiv⟩ := List.mem_iff_getElem.1 hm
  rw [List.mem_iff_getElem]
  exact ⟨i, by simpa using hi, by simp [hiv]; omega⟩

theorem mem_zip_map {l : List Nat} {f : Nat → Bool} {u : Nat} {b : Bool} (h : (u, b) ∈ l.zip (l.map f)) : b = f u := by
  rw [List.zip_map_right] at h
  obtain ⟨⟨a, a'⟩, ha, he⟩ := List.mem_map.1 h
  have : a = a' := by
    obtain ⟨i, hi, hiv⟩ := List.mem_iff_getElem.1 ha
    simp at hiv
    exact hiv.1.symm.trans hiv.2
  subst this
  simp only [Prod.map, id, Prod.mk.injEq] at he
  obtain ⟨rfl, he⟩ := he
  exact he.symm

/-- unless the answer is "greater", only versions up to the target are shown to be present; unless it is "less", only greater ones are
shown to be absent -/
theorem visit_sides {vt vt' : Tracker} {x ver : Nat} {flags : List Bool} {w : List Nat} {res : Int}
    (h : receiveLadder vt x ver true flags = .ok (w, res, vt')) :
    (res ≠ 1 → ∀ u, (u, true) ∈ w.zip flags → u ≤ ver) ∧ (res ≠ -1 → ∀ u, (u, false) ∈ w.zip flags → ver < u) := by
  obtain ⟨b', hb', l, hl, hr, hz, -⟩ := Alg.receiveLadder_parts h
  rw [hz]
  obtain ⟨c0, c1, cm, call⟩ := Props.C20_interpretation l ver flags
  rcases call _ hr with rfl | rfl | rfl
  · rw [c0.1 hr]
    refine ⟨fun _ u hu => ?_, fun _ u hu => ?_⟩
    · have := mem_zip_map hu; simpa using this.symm
    · have := mem_zip_map hu; simpa using this.symm
  · refine ⟨fun h => absurd rfl h, fun _ u hu => ?_⟩
    obtain ⟨pre, v, post, e1, e2, e3⟩ := c1.1 hr
    rw [e1, e3, List.zip_append (by simp)] at hu
    rcases List.mem_append.1 hu with hu | hu
    · have := mem_zip_map hu; simpa using this.symm
    · simp at hu
  · refine ⟨fun _ u hu => ?_, fun h => absurd rfl h⟩
    obtain ⟨pre, v, post, e1, e2, e3⟩ := cm.1 hr
    rw [e1, e3, List.zip_append (by simp)] at hu
    rcases List.mem_append.1 hu with hu | hu
    · have := mem_zip_map hu; simpa using this.symm
    · simp at hu

end Katie.Ladder

namespace Katie.Alg
open Katie Katie.Wire Katie.Ladder Katie.SearchSpec Katie.SearchTree Prog

section
variable {cs : Log.Suite} {Vs : Versions} {proofs : List Prefix.Proof} {E : List (List Prefix.Entry × Prefix.Proof)}
  {M : List (Nat × Nat)} {roots : Nat → Option Bytes}

/-- in entry `x` or to its left, `v` has been shown to be present, or a version of `p` that is greater than `ver` -/
def Low (cs : Log.Suite) (Vs : Versions) (proofs : List Prefix.Proof) (E : List (List Prefix.Entry × Prefix.Proof))
    (M : List (Nat × Nat)) (roots : Nat → Option Bytes) (ver : Nat) (p : List Nat) (v x : Nat) : Prop :=
  ∃ y z, y ≤ x ∧ (z = v ∨ (z ∈ p ∧ ver < z)) ∧ y ∈ M.map Prod.fst ∧ Shown cs Vs proofs E roots y z true

theorem fixedFinish_terminal {ver : Nat} {terminal : Option Nat} {expired : Bool}
    {dist : List Nat} {tr : List Ev} {r : Nat} (h : Runs (fixedFinish ver terminal expired dist) tr (.ok r)) : terminal = some r := by
  unfold fixedFinish at h
  cases terminal with
  | none => exact absurd h runs_fail_ok
  | some t =>
    simp only at h
    rcases runs_ite.1 h with ⟨_, h⟩ | ⟨_, h⟩
    · exact absurd h runs_fail_ok
    obtain ⟨t2, htr, hr_t2⟩ := runs_incl_bind h
    obtain ⟨-, h2⟩ := runs_pure.1 hr_t2
    cases h2
    rfl

theorem fixedLoop_low {cfg : Config} {n ver rightmost : Nat} {p q : List Nat} {v : Nat}
    (hbase : baseBinaryLadder ver = .ok (p ++ v :: q)) (hv : v ≤ ver) : ∀ (fuel lo hi : Nat) (anc : List Nat)
    (s : FixedState) (vt z : Tracker) (tr : List Ev) (r : Nat), At n lo hi anc → s.x = rt lo hi →
    (∀ e ∈ vt.inclusion, e.1 ∈ M.map Prod.fst ∧ ∀ u ∈ e.2, Shown cs Vs proofs E roots e.1 u true) →
    (∀ e ∈ vt.nonInclusion, v ∈ e.2 → e.1 < lo) →
    (∀ t, s.terminal = some t → Low cs Vs proofs E M roots ver p v t) →
    Runs (fixedLoop cfg ver n rightmost fuel s) tr (.ok r) → TFacts cs Vs proofs E M roots vt tr z →
    Low cs Vs proofs E M roots ver p v r := by
  intro fuel
  induction fuel with
  | zero => intro lo hi anc s vt z tr r _ _ _ _ _ h; cases h
  | succ fuel ih =>
    intro lo hi anc s vt z tr r hat hsx hin hnon hterm hrun hF
    have hb := hat.bounds
    unfold fixedLoop at hrun
    obtain ⟨t, tr2, htr, hnext⟩ := runs_ts_bind hrun
    subst htr
    clear hrun
    have hrun := hnext
    clear hnext
    cases hF with
    | ts f1 hF =>
    rcases runs_ite.1 hrun with ⟨hexp, hrun⟩ | ⟨hexp, hrun⟩
    · rcases runs_ite.1 hrun with ⟨hnr, hrun⟩ | ⟨hnr, hrun⟩
      · exact hterm _ (fixedFinish_terminal hrun)
      · have hr : rt lo hi + 1 < hi := by
          by_contra hc
          exact hnr (by rw [hsx]; exact (noRightChild_iff hat).2 hc)
        obtain ⟨y, h1, hrun⟩ := runs_lift_bind hrun
        rw [hsx, right_rt hat hr] at h1
        cases h1
        refine ih _ _ _ _ vt _ _ r (.right hat hr) ?_ hin (fun e he h => by have := hnon e he h; omega) ?_ hrun hF
        · rfl
        · exact hterm
    · simp only at hrun
      obtain ⟨res, t2, htr, hnext⟩ := runs_search_bind hrun
      subst htr
      clear hrun
      have hrun := hnext
      clear hnext
      cases hF with
      | @search _ _ _ _ _ _ _ vt' w flags f2 f3 f4 f5 =>
      rw [hsx] at f2 f3 f4
      obtain ⟨b, hb', l, hl, hr', hz, hadd⟩ := receiveLadder_parts f3
      obtain ⟨a1, a2⟩ := addResults_ok hadd
      obtain ⟨s1, s2⟩ := visit_sides f3
      have hin' : ∀ e ∈ vt'.inclusion, e.1 ∈ M.map Prod.fst ∧ ∀ u ∈ e.2, Shown cs Vs proofs E roots e.1 u true := by
        intro e he
        rw [a1] at he
        rcases List.mem_append.1 he with he | he
        · exact hin e he
        · obtain rfl := List.mem_singleton.1 he
          exact ⟨f2, fun u hu => f4 u true (by rw [hz]; exact mem_shown.1 hu)⟩
      have hlow : res ≠ -1 → Low cs Vs proofs E M roots ver p v (rt lo hi) := by
        intro hne
        rcases visit_low f3 hne hbase hv (by
          rw [mem_maps.2]
          rintro ⟨e, he, h1, h2⟩
          have := hnon e he h2
          omega) with h | ⟨z, h1, h2⟩
        · obtain ⟨e, he, h1, h2⟩ := mem_maps.1.1 h
          exact ⟨e.1, v, by omega, .inl rfl, (hin e he).1, (hin e he).2 v h2⟩
        · exact ⟨rt lo hi, z, le_refl _, h1, f2, f4 z true h2⟩
      have kall : res = 0 ∨ res = 1 ∨ res = -1 := (Props.C20_interpretation l ver flags).2.2.2 _ hr'
      have hterm' : ∀ t, (if res ≥ 0 ∧ s.terminal.all (fun t => s.x < t) then some s.x else s.terminal) = some t →
          Low cs Vs proofs E M roots ver p v t := by
        intro t ht
        split at ht
        · next hc =>
          cases ht
          rw [hsx]
          exact hlow (by rintro rfl; exact absurd hc.1 (by decide))
        · exact hterm t ht
      rcases runs_ite.1 hrun with ⟨hm1, hrun⟩ | ⟨hm1, hrun⟩
      · rcases runs_ite.1 hrun with ⟨hnr, hrun⟩ | ⟨hnr, hrun⟩
        · exact hterm' _ (fixedFinish_terminal hrun)
        · have hr : rt lo hi + 1 < hi := by
            by_contra hc
            exact hnr (by rw [hsx]; exact (noRightChild_iff hat).2 hc)
          obtain ⟨y, h1, hrun⟩ := runs_lift_bind hrun
          rw [hsx, right_rt hat hr] at h1
          cases h1
          refine ih _ _ _ _ vt' _ _ r (.right hat hr) rfl hin' ?_ hterm' hrun f5
          intro e he h
          rw [a2] at he
          rcases List.mem_append.1 he with he | he
          · have := hnon e he h; omega
          · obtain rfl := List.mem_singleton.1 he
            simp
      · rcases runs_ite.1 hrun with ⟨h1', hrun⟩ | ⟨h1', hrun⟩
        · rcases runs_ite.1 hrun with ⟨hnl, hrun⟩ | ⟨hnl, hrun⟩
          · exact hterm' _ (fixedFinish_terminal hrun)
          · have hl' : lo < rt lo hi := by
              have := mt (noLeftChild_iff hat).2 (by rw [← hsx]; exact hnl)
              omega
            obtain ⟨y, h1, hrun⟩ := runs_lift_bind hrun
            rw [hsx, left_rt hat, if_pos hl'] at h1
            cases h1
            refine ih _ _ _ _ vt' _ _ r (.left hat hl') rfl hin' ?_ hterm' hrun f5
            intro e he h
            rw [a2] at he
            rcases List.mem_append.1 he with he | he
            · exact hnon e he h
            · obtain rfl := List.mem_singleton.1 he
              have := s2 hm1 v (by rw [hz]; exact mem_hidden.1 h)
              omega
        · have hend : Runs (pure s.x : Prog Nat) t2 (.ok r) := by
            rcases runs_ite.1 hrun with ⟨_, h⟩ | ⟨_, h⟩
            · exact h
            · rcases runs_ite.1 h with ⟨_, h⟩ | ⟨_, h⟩
              · exact h
              · exact absurd h runs_fail_ok
          obtain ⟨rfl, h⟩ := runs_pure.1 hend
          cases h
          rw [hsx]
          exact hlow hm1

theorem fixedVersionSearch_low {cfg : Config} {n ver r : Nat} {tr : List Ev} {z : Tracker} {p q : List Nat} {v : Nat}
    (hbase : baseBinaryLadder ver = .ok (p ++ v :: q)) (hv : v ≤ ver) (h0 : 0 < n)
    (h : Runs (fixedVersionSearch cfg ver n) tr (.ok r)) (hF : TFacts cs Vs proofs E M roots {} tr z) :
    Low cs Vs proofs E M roots ver p v r := by
  unfold fixedVersionSearch at h
  rw [if_neg (by omega)] at h
  obtain ⟨t, t2, htr, hnext⟩ := runs_ts_bind h
  subst htr
  clear h
  have h := hnext
  clear hnext
  cases hF with
  | ts f1 hF =>
  exact fixedLoop_low hbase hv _ _ _ _ _ {} _ _ r (.root h0) (root_eq h0) (by intro e he; cases he) (by intro e he; cases he)
    (by intro t ht; cases ht) h hF

/-- both facts about the search for the greatest version -/
theorem greatestLoop_low {n ver : Nat} {b p q : List Nat} {v : Nat} (hb0 : baseBinaryLadder ver = .ok b) :
    ∀ (fuel lo : Nat) (anc : List Nat) (terminal : Option Nat)
    (vt z : Tracker) (tr : List Ev) (r : Nat), At n lo n anc →
    (∀ e ∈ vt.inclusion, e.1 ∈ M.map Prod.fst ∧ ∀ u ∈ e.2, Shown cs Vs proofs E roots e.1 u true ∧ u ≤ ver) →
    (∀ e ∈ vt.nonInclusion, e.1 < lo) →
    (b = p ++ v :: q → v ≤ ver → ∀ t, terminal = some t → Low cs Vs proofs E M roots ver p v t) →
    Runs (greatestLoop ver n fuel (rt lo n) terminal) tr (.ok r) → TFacts cs Vs proofs E M roots vt tr z →
    (b = p ++ v :: q → v ≤ ver → Low cs Vs proofs E M roots ver p v r) ∧ n - 1 ∈ M.map Prod.fst ∧
    ∀ u ∈ b, ver < u → Shown cs Vs proofs E roots (n - 1) u false := by
  intro fuel
  induction fuel with
  | zero => intro lo anc terminal vt z tr r _ _ _ _ h; cases h
  | succ fuel ih =>
    intro lo anc terminal vt z tr r hat hin hnon hterm hrun hF
    have hb := hat.bounds
    unfold greatestLoop at hrun
    obtain ⟨res, tr2, htr, hnext⟩ := runs_search_bind hrun
    subst htr
    clear hrun
    have hrun := hnext
    clear hnext
    cases hF with
    | @search _ _ _ _ _ _ _ vt' w flags f2 f3 f4 f5 =>
    obtain ⟨_, hb', l, hl, hr', hz, hadd⟩ := receiveLadder_parts f3
    obtain ⟨a1, a2⟩ := addResults_ok hadd
    obtain ⟨s1, s2⟩ := visit_sides f3
    have hR : ∀ u, u ∉ (vt.searchMaps (rt lo n) true).2 := by
      intro u
      rw [mem_maps.2]
      rintro ⟨e, he, h1, h2⟩
      have := hnon e he
      omega
    rcases runs_ite.1 hrun with ⟨_, h⟩ | ⟨hne1, hrun⟩
    · exact absurd h runs_fail_ok
    simp only at hrun
    have hin' : ∀ e ∈ vt'.inclusion, e.1 ∈ M.map Prod.fst ∧ ∀ u ∈ e.2, Shown cs Vs proofs E roots e.1 u true ∧ u ≤ ver := by
      intro e he
      rw [a1] at he
      rcases List.mem_append.1 he with he | he
      · exact hin e he
      · obtain rfl := List.mem_singleton.1 he
        refine ⟨f2, fun u hu => ?_⟩
        have hu := mem_shown.1 hu
        rw [← hz] at hu
        exact ⟨f4 u true hu, s1 hne1 u hu⟩
    have hterm' : b = p ++ v :: q → v ≤ ver → ∀ t, (if res = 0 ∧ terminal = none then some (rt lo n) else terminal) = some t →
        Low cs Vs proofs E M roots ver p v t := by
      intro hbe hv t ht
      split at ht
      · next hc =>
        cases ht
        rcases visit_low f3 (by rw [hc.1]; decide) (hbe ▸ hb0) hv (hR v) with h | ⟨z, h1, h2⟩
        · obtain ⟨e, he, h1, h2⟩ := mem_maps.1.1 h
          exact ⟨e.1, v, by omega, .inl rfl, (hin e he).1, ((hin e he).2 v h2).1⟩
        · exact ⟨rt lo n, z, le_refl _, h1, f2, f4 z true h2⟩
      · exact hterm hbe hv t ht
    rcases runs_ite.1 hrun with ⟨hx, hrun⟩ | ⟨hx, hrun⟩
    · obtain ⟨y, h1, hrun⟩ := runs_lift_bind hrun
      have hr : rt lo n + 1 < n := by omega
      rw [right_rt hat hr] at h1
      cases h1
      refine ih _ _ _ vt' _ _ r (.right hat hr) hin' ?_ hterm' hrun f5
      intro e he
      rw [a2] at he
      rcases List.mem_append.1 he with he | he
      · have := hnon e he; omega
      · obtain rfl := List.mem_singleton.1 he
        simp
    · rcases runs_ite.1 hrun with ⟨_, h⟩ | ⟨_, hrun⟩
      · exact absurd h runs_fail_ok
      rcases runs_ite.1 hrun with ⟨_, h⟩ | ⟨h0, hrun⟩
      · exact absurd h runs_fail_ok
      obtain ⟨rfl, h⟩ := runs_pure.1 hrun
      have h0 : res = 0 := by simpa using h0
      have hx : rt lo n = n - 1 := by simpa using hx
      subst h0
      refine ⟨?_, hx ▸ f2, ?_⟩
      · intro hbe hv
        obtain ⟨t, ht⟩ : ∃ t, (if (0 : Int) = 0 ∧ terminal = none then some (rt lo n) else terminal) = some t := by
          cases terminal with
          | none => exact ⟨_, if_pos ⟨rfl, rfl⟩⟩
          | some t => exact ⟨t, if_neg (by simp)⟩
        have h := h
        rw [ht] at h
        cases h
        exact hterm' hbe hv _ ht
      · intro u hu hlt
        rw [← hx]
        refine f4 u false (visit_high f3 hb0 hu hlt ?_ (hR u))
        rw [mem_maps.1]
        rintro ⟨e, he, -, h2⟩
        have := ((hin e he).2 u h2).2
        omega

end
end Katie.Alg
