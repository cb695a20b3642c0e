import Verif.Lemmas.Owner
import Verif.Lemmas.Spine
import Verif.Lemmas.ServeSearch

/-
The algorithms do not crash and do not loop by themselves, whatever the provider answers; the versions that they ask for
are small if the versions that they are given are small.
-/

namespace Katie.Alg
open Katie Prog SearchTree SearchSpec

/-- requests for which the ladders can be computed -/
def Mild : Req → Prop
  | .search _ v _ => v < 2 ^ 31 - 1
  | .monitor _ v => v < 2 ^ 31 - 1
  | _ => True

theorem rightmostLoop_mild {cfg : Config} {n r0 : Nat} : ∀ (fuel lo : Nat) (anc : List Nat), At n lo n anc → n - lo ≤ fuel →
    Spec (rightmostLoop cfg n r0 fuel (rt lo n)) Mild (fun r => ∃ lo' anc', r = some (rt lo' n) ∧ At n lo' n anc') IsErr := by
  intro fuel
  induction fuel with
  | zero => intro lo anc h hf; have := h.bounds; omega
  | succ fuel ih =>
    intro lo anc h hf
    have hb := h.bounds
    unfold rightmostLoop
    refine .ite (fun _ => .pure ⟨lo, anc, rfl, h⟩) (fun hx => .bindT (.call trivial) (fun t => .ite (fun _ => .pure ⟨lo, anc, rfl, h⟩) (fun _ => ?_)))
    refine .bind (Q := fun c => c = rt (rt lo n + 1) n) (.lift_ok (right_rt h (by omega)) rfl) ?_
    rintro c rfl
    exact ih _ _ (.right h (by omega)) (by omega)

theorem rightmostDistinguished_mild {cfg : Config} {n : Nat} :
    Spec (rightmostDistinguished cfg n) Mild (fun r => ∀ x, r = some x → ∃ lo anc, x = rt lo n ∧ At n lo n anc) IsErr := by
  unfold rightmostDistinguished
  refine .ite (fun _ => .pure (by simp)) (fun h0 => .bindT (.call trivial) (fun t => .ite (fun _ => .pure (by simp)) (fun _ => ?_)))
  rw [root_eq (by omega)]
  refine (rightmostLoop_mild _ _ _ (.root (by omega)) (by omega)).imp (fun _ h => h) ?_ (fun _ h => h)
  rintro r ⟨lo, anc, rfl, h⟩ x hx
  cases hx
  exact ⟨lo, anc, rfl, h⟩

theorem greatestLoop_mild {v n : Nat} (hv : v < 2 ^ 31 - 1) : ∀ (fuel lo : Nat) (anc : List Nat) (term : Option Nat), At n lo n anc →
    n - lo ≤ fuel → Spec (greatestLoop v n fuel (rt lo n) term) Mild (fun _ => True) IsErr := by
  intro fuel
  induction fuel with
  | zero => intro lo anc term h hf; have := h.bounds; omega
  | succ fuel ih =>
    intro lo anc term h hf
    have hb := h.bounds
    unfold greatestLoop
    refine .bindT (.call hv) (fun r => .ite (fun _ => .fail ⟨_, rfl⟩) (fun _ => .ite (fun hx => ?_) (fun _ =>
      .ite (fun _ => .fail ⟨_, rfl⟩) (fun _ => .ite (fun _ => .fail ⟨_, rfl⟩) (fun _ => .pure trivial)))))
    refine .bind (Q := fun c => c = rt (rt lo n + 1) n) (.lift_ok (right_rt h (by omega)) rfl) ?_
    rintro c rfl
    exact ih _ _ _ (.right h (by omega)) (by omega)

theorem greatestVersionSearch_mild {cfg : Config} {v n : Nat} (hv : v < 2 ^ 31 - 1) :
    Spec (greatestVersionSearch cfg v n) Mild (fun _ => True) IsErr := by
  unfold greatestVersionSearch
  refine .ite (fun _ => .fail ⟨_, rfl⟩) (fun h0 => .bind rightmostDistinguished_mild.attempt (fun d hd => ?_))
  cases d with
  | error e => exact .pure trivial
  | ok d =>
    have h := hd d rfl
    cases d with
    | none =>
      simp only [Option.getD_none]
      rw [root_eq (by omega)]
      exact greatestLoop_mild hv _ _ _ _ (.root (by omega)) (by omega)
    | some x =>
      obtain ⟨lo, anc, rfl, hat⟩ := h x rfl
      exact greatestLoop_mild hv _ _ _ _ hat (by omega)

theorem fixedFinish_mild {v : Nat} {term : Option Nat} {exp : Bool} {dist : List Nat} :
    Spec (fixedFinish v term exp dist) Mild (fun _ => True) IsErr := by
  unfold fixedFinish
  cases term with
  | none => exact .fail ⟨_, rfl⟩
  | some t => exact .ite (fun _ => .fail ⟨_, rfl⟩) (fun _ => .bindT (.call trivial) (fun _ => .pure trivial))

theorem fixedLoop_mild {cfg : Config} {v n rm : Nat} (hv : v < 2 ^ 31 - 1) : ∀ (fuel lo hi : Nat) (anc : List Nat) (s : FixedState),
    At n lo hi anc → s.x = rt lo hi → hi - lo ≤ fuel → Spec (fixedLoop cfg v n rm fuel s) Mild (fun _ => True) IsErr := by
  intro fuel
  induction fuel with
  | zero => intro lo hi anc s h _ hf; have := h.bounds; omega
  | succ fuel ih =>
    intro lo hi anc s h hsx hf
    have hb := h.bounds
    have hright : ∀ s' : Nat → FixedState, (∀ r, (s' r).x = r) → ¬ noRightChild s.x n = true → Spec (do
        let r ← lift (SearchTree.right s.x n)
        fixedLoop cfg v n rm fuel (s' r)) Mild (fun _ => True) IsErr := by
      intro s' hs' hnr
      have hr : rt lo hi + 1 < hi := by
        by_contra hc
        exact hnr (by rw [hsx]; exact (noRightChild_iff h).2 hc)
      refine .bind (Q := fun c => c = rt (rt lo hi + 1) hi) (.lift_ok (by rw [hsx]; exact right_rt h hr) rfl) ?_
      rintro c rfl
      exact ih _ _ _ _ (.right h hr) (hs' _) (by omega)
    have hleft : ∀ s' : Nat → FixedState, (∀ r, (s' r).x = r) → ¬ noLeftChild s.x = true → Spec (do
        let r ← lift (LogMath.left s.x)
        fixedLoop cfg v n rm fuel (s' r)) Mild (fun _ => True) IsErr := by
      intro s' hs' hnl
      have hl : lo < rt lo hi := by
        have := mt (noLeftChild_iff h).2 (by rw [← hsx]; exact hnl)
        omega
      refine .bind (Q := fun c => c = rt lo (rt lo hi)) (.lift_ok (by rw [hsx, left_rt h, if_pos hl]) rfl) ?_
      rintro c rfl
      exact ih _ _ _ _ (.left h hl) (hs' _) (by omega)
    unfold fixedLoop
    refine .bindT (.call trivial) (fun t => .ite (fun _ => .ite (fun _ => fixedFinish_mild) (fun hnr => hright _ (fun _ => rfl) hnr)) (fun _ => ?_))
    refine .bindT (.call hv) (fun r => .ite (fun _ => .ite (fun _ => fixedFinish_mild) (fun hnr => hright _ (fun _ => rfl) hnr)) (fun _ =>
      .ite (fun _ => .ite (fun _ => fixedFinish_mild) (fun hnl => hleft _ (fun _ => rfl) hnl)) (fun _ => .ite (fun _ => .pure trivial)
        (fun _ => .ite (fun _ => .pure trivial) (fun _ => .fail ⟨_, rfl⟩)))))

theorem fixedVersionSearch_mild {cfg : Config} {v n : Nat} (hv : v < 2 ^ 31 - 1) :
    Spec (fixedVersionSearch cfg v n) Mild (fun _ => True) IsErr := by
  unfold fixedVersionSearch
  exact .ite (fun _ => .fail ⟨_, rfl⟩) (fun h0 => .bindT (.call trivial) (fun t =>
    fixedLoop_mild hv _ _ _ _ _ (.root (by omega)) (root_eq (by omega)) (by omega)))

theorem getAllTs_mild : ∀ {xs : List Nat}, Spec (getAllTs xs) Mild (fun _ => True) IsErr
  | [] => .pure trivial
  | x :: xs => by
    unfold getAllTs
    exact .bindT (.call trivial) (fun _ => getAllTs_mild)

theorem updateView_mild {cfg : Config} {now n : Nat} (hn : n < 2 ^ 64) {m : Option Nat} (hm : ∀ k, m = some k → 0 < k) :
    Spec (Alg.updateView cfg now n m) Mild (fun _ => True) IsErr := by
  unfold Alg.updateView
  refine .ite (fun _ => .fail ⟨_, rfl⟩) (fun hgt => .ite (fun _ => .pure trivial) (fun h0 => ?_))
  obtain ⟨xs, -, h1, -⟩ := updateView_positions (n := n) (by omega) hn (m := m) (by
    intro k hk
    subst hk
    simp only [Option.any_some, gt_iff_lt, decide_eq_true_eq, not_lt] at hgt
    exact ⟨hm k rfl, hgt⟩)
  refine .bindT (.lift_ok h1 trivial) (fun ys => .bindT getAllTs_mild (fun _ => .bindT (.call trivial) (fun t => ?_)))
  exact .ite (fun _ => .fail ⟨_, rfl⟩) (fun _ => .ite (fun _ => .fail ⟨_, rfl⟩) (fun _ => .pure trivial))

theorem newMonitor_mild {cfg : Config} {n : Nat} :
    Spec (newMonitor cfg n) Mild (fun m => 0 < n ∧ m.cfg = cfg ∧ m.treeSize = n ∧ m.contact = none ∧ m.owner = none) IsErr := by
  unfold newMonitor
  exact .ite (fun _ => .fail ⟨_, rfl⟩) (fun h0 => .bindT (.call trivial) (fun _ => .pure ⟨by omega, rfl, rfl, rfl, rfl⟩))

theorem contactMonitor_mild {m : Monitor} {c : PMap} (hc : m.contact = some c) (hk : c.Pairwise (fun a b => a.1 ≠ b.1))
    (hn : ∀ e ∈ c, e.1 < m.treeSize) (hv : ∀ e ∈ c, e.2 < 2 ^ 31 - 1) :
    Spec (contactMonitor m) Mild (fun m' => m'.owner = m.owner ∧ m'.treeSize = m.treeSize ∧ m'.cfg = m.cfg) IsErr := by
  unfold contactMonitor
  rw [hc]
  simp only []
  refine .bindT ((contactLoop_spec (b := True) (c := c) _ _ _ (sortDesc_sorted hk)
    (fun e he => ⟨hn e (mem_sortDesc.1 he), mem_sortDesc.1 he⟩) (by simp) (by simp)).imp ?_ (fun _ h => h) ?_)
    (fun _ => .pure ⟨rfl, rfl, rfl⟩)
  · intro q hq
    cases q with
    | monitor y v =>
      obtain ⟨x, h1, -⟩ := hq
      exact hv _ h1
    | search => exact absurd hq (by simp [ContactReq])
    | _ => trivial
  · rintro f ⟨-, h⟩
    exact ⟨_, h⟩

theorem initWalk_mild {m : Monitor} {start : Nat} : ∀ (fuel lo hi : Nat) (anc : List Nat) (l r : Nat), At m.treeSize lo hi anc →
    hi - lo < fuel → Spec (initWalk m start fuel (rt lo hi) l r) Mild (fun _ => True) IsErr := by
  intro fuel
  induction fuel with
  | zero => intro lo hi anc l r h hf; omega
  | succ fuel ih =>
    intro lo hi anc l r h hf
    have hb := h.bounds
    unfold initWalk
    refine .ite (fun _ => .fail ⟨_, rfl⟩) (fun _ => .bindT (.call trivial) (fun t => ?_))
    refine .ite (fun _ => .ite (fun _ => .fail ⟨_, rfl⟩) (fun hnr => ?_)) (fun _ => .ite (fun _ => .ite (fun _ => .fail ⟨_, rfl⟩)
      (fun _ => .pure trivial)) (fun _ => .ite (fun _ => .fail ⟨_, rfl⟩) (fun hnl => ?_)))
    · have hr : rt lo hi + 1 < hi := by
        by_contra hc
        exact hnr ((noRightChild_iff h).2 hc)
      refine .bind (Q := fun c => c = rt (rt lo hi + 1) hi) (.lift_ok (right_rt h hr) rfl) ?_
      rintro c rfl
      exact .bindT (ih _ _ _ _ _ (.right h hr) (by omega)) (fun _ => .pure trivial)
    · have hl : lo < rt lo hi := by
        have := mt (noLeftChild_iff h).2 (fun h => hnl (.inl h))
        omega
      refine .bind (Q := fun c => c = rt lo (rt lo hi)) (.lift_ok (by rw [left_rt h, if_pos hl]) rfl) ?_
      rintro c rfl
      exact ih _ _ _ _ _ (.left h hl) (by omega)

theorem initEntries_mild {m : Monitor} (h0 : 0 < m.treeSize) {start : Nat} :
    Spec (initEntries m start) Mild (fun _ => True) IsErr := by
  unfold initEntries
  rw [root_eq h0]
  exact initWalk_mild _ _ _ _ _ _ (.root h0) (by omega)

theorem initLadders_mild : ∀ {xs vs : List Nat}, (∀ v ∈ vs, v < 2 ^ 31 - 1) → Spec (initLadders xs vs) Mild (fun _ => True) IsErr
  | [], _, _ => .pure trivial
  | x :: xs, [], h => by
    unfold initLadders
    exact .bindT (.call (by decide : 0 < 2 ^ 31 - 1)) (fun _ => .ite (fun _ => .fail ⟨_, rfl⟩) (fun _ => initLadders_mild h))
  | x :: xs, v :: vs, h => by
    unfold initLadders
    exact .bindT (.call (h v List.mem_cons_self)) (fun _ => .ite (fun _ => .fail ⟨_, rfl⟩)
      (fun _ => initLadders_mild (fun w hw => h w (List.mem_cons_of_mem _ hw))))

theorem ownerInit_mild {m : Monitor} (h0 : 0 < m.treeSize) {start : Nat} {vers : List Nat} (hv : ∀ v ∈ vers, v < 2 ^ 31 - 1) :
    Spec (Alg.ownerInit m start vers) Mild (fun _ => True) IsErr := by
  unfold Alg.ownerInit
  refine .ite (fun _ => .fail ⟨_, rfl⟩) (fun _ => .bindT (initEntries_mild h0) (fun xs => .ite (fun _ => .fail ⟨_, rfl⟩) (fun _ =>
    .ite (fun _ => .fail ⟨_, rfl⟩) (fun _ => .bindT (initLadders_mild hv) (fun _ => .pure trivial)))))

theorem expectLadder_mild {x : Nat} {v : Int} {om : Bool} (hv : v < 2 ^ 31 - 1) : Spec (expectLadder x v om) Mild (fun _ => True) IsErr := by
  unfold expectLadder
  refine .ite (fun _ => ?_) (fun _ => ?_)
  · exact .bindT (.call (by decide : 0 < 2 ^ 31 - 1)) (fun r => .ite (fun _ => .fail ⟨_, rfl⟩) (fun _ => .pure trivial))
  · exact .bindT (.call (show v.toNat % 2 ^ 32 < 2 ^ 31 - 1 by omega)) (fun r => .ite (fun _ => .fail ⟨_, rfl⟩) (fun _ => .pure trivial))

/-- the owner state has few versions -/
def FewVersions (o : Owner) : Prop := o.upcoming.Pairwise (· ≤ ·) ∧ o.greatest < 2 ^ 31 - 1

theorem FewVersions.set {o : Owner} (h : FewVersions o) (x : Nat) : FewVersions (o.setStarting x) := by
  have hb := (bsearch_spec (t := x + 1) h.1).1
  refine ⟨List.Pairwise.sublist (List.drop_sublist _ _) h.1, ?_⟩
  have := h.2
  unfold Owner.greatest Owner.setStarting at *
  simp only [List.length_drop] at *
  omega

theorem FewVersions.at {o : Owner} (h : FewVersions o) (x : Nat) : o.greatestAt x < 2 ^ 31 - 1 := by
  have hb := (bsearch_spec (t := x + 1) h.1).1
  have := h.2
  unfold Owner.greatest at this
  unfold Owner.greatestAt
  omega

theorem ownerWalk_mild {cfg : Config} {n : Nat} : ∀ (fuel lo hi : Nat) (anc : List Nat) (l r : Nat) (o : Owner), At n lo hi anc →
    hi - lo < fuel → FewVersions o → Spec (ownerWalk cfg n fuel (rt lo hi) l r o) Mild FewVersions IsErr := by
  intro fuel
  induction fuel with
  | zero => intro lo hi anc l r o h hf; omega
  | succ fuel ih =>
    intro lo hi anc l r o h hf ho
    have hb := h.bounds
    have hright : ¬ noRightChild (rt lo hi) n = true → ∀ o1, FewVersions o1 → Spec (do
        let timestamp ← getTs (rt lo hi)
        let c ← lift (right (rt lo hi) n)
        ownerWalk cfg n fuel c timestamp r o1) Mild FewVersions IsErr := by
      intro hnr o1 ho1
      have hne : rt lo hi + 1 < hi := by
        by_contra hcon
        exact hnr ((noRightChild_iff h).2 (by omega))
      refine .bindT (.call trivial) (fun t => ?_)
      refine .bind (Q := fun c => c = rt (rt lo hi + 1) hi) (.lift_ok (right_rt h (by omega)) rfl) ?_
      rintro c rfl
      exact ih _ _ _ _ _ _ (.right h (by omega)) (by omega) ho1
    unfold ownerWalk
    refine .ite (fun _ => .pure ho) (fun _ => .ite (fun _ => .ite (fun _ => .pure ho) (fun hnr => hright hnr o ho)) (fun _ => ?_))
    refine .bind (Q := FewVersions) ?_ (fun o1 ho1 => .bindT (.call trivial) (fun b => .ite (fun _ => .pure ho1)
      (fun _ => .bindT (expectLadder_mild (ho1.at _)) (fun _ => .ite (fun _ => .pure (ho1.set _)) (fun hnr => hright hnr _ (ho1.set _))))))
    refine .ite (fun _ => .pure ho) (fun hnl => ?_)
    have hne : lo < rt lo hi := by
      by_contra hcon
      exact hnl ((noLeftChild_iff h).2 (by omega))
    refine .bindT (.call trivial) (fun t => ?_)
    refine .bind (Q := fun c => c = rt lo (rt lo hi)) (.lift_ok (by rw [left_rt h, if_pos (by omega)]) rfl) ?_
    rintro c rfl
    exact ih _ _ _ _ _ _ (.left h (by omega)) (by omega) ho

theorem ownerMonitor_mild {m : Monitor} (h0 : 0 < m.treeSize) {o : Owner} (hm : m.owner = some o) (ho : FewVersions o) :
    Spec (Alg.ownerMonitor m) Mild (fun _ => True) IsErr := by
  unfold Alg.ownerMonitor
  rw [hm]
  simp only
  rw [root_eq h0]
  exact .bindT (ownerWalk_mild _ _ _ _ _ _ _ (.root h0) (by omega) ho).trueQ (fun _ => .pure trivial)

end Katie.Alg
