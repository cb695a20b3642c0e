import Verif.Lemmas.NoFault

/-
The algorithms ask only about log entries of the tree, whatever the provider answers.
-/

namespace Katie.Alg
open Katie Prog SearchTree SearchSpec

/-- the request is about log entries before `n` -/
def Req.below (n : Nat) : Req → Prop
  | .ts x => x < n
  | .search x _ _ => x < n
  | .monitor x _ => x < n
  | .incl x vers => vers = [] ∨ x < n
  | .stop x _ => x < n
  | .addLadder _ _ _ _ => True

/-- the program asks only about log entries before `n`, and what it returns satisfies `Q` -/
def Stays {α : Type} (n : Nat) (Q : α → Prop) : Prog α → Prop
  | .ret r => ∀ a, r = .ok a → Q a
  | .op q k => q.below n ∧ ∀ a, Stays n Q (k a)

section
variable {α β : Type} {n : Nat}

theorem Stays.pure {Q : α → Prop} {a : α} (h : Q a) : Stays n Q (pure a : Prog α) := by
  intro b hb
  cases hb
  exact h

theorem Stays.fail {Q : α → Prop} {m : String} : Stays n Q (fail m : Prog α) := by
  intro b hb
  cases hb

theorem Stays.imp {Q Q' : α → Prop} {p : Prog α} (h : Stays n Q p) (hQ : ∀ a, Q a → Q' a) : Stays n Q' p := by
  induction p with
  | ret r => exact fun a ha => hQ a (h a ha)
  | op q k ih => exact ⟨h.1, fun a => ih a (h.2 a)⟩

theorem Stays.bind {Q : α → Prop} {Q' : β → Prop} {p : Prog α} {f : α → Prog β} (h : Stays n Q p)
    (hf : ∀ a, Q a → Stays n Q' (f a)) : Stays n Q' (p >>= f) := by
  change Stays n Q' (p.bind f)
  induction p with
  | ret r =>
    cases r with
    | ok a => exact hf a (h a rfl)
    | error e =>
      intro b hb
      cases hb
  | op q k ih => exact ⟨h.1, fun a => ih a (h.2 a)⟩

theorem Stays.bindT {Q' : β → Prop} {p : Prog α} {f : α → Prog β} (h : Stays n (fun _ => True) p)
    (hf : ∀ a, Stays n Q' (f a)) : Stays n Q' (p >>= f) := h.bind (fun a _ => hf a)

theorem Stays.call {q : Req} (h : q.below n) : Stays n (fun _ => True) (call q) := ⟨h, fun _ _ _ => trivial⟩

theorem Stays.lift {Q : α → Prop} {r : G α} (h : ∀ a, r = .ok a → Q a) : Stays n Q (lift r) := h

theorem Stays.ite {Q : α → Prop} {c : Prop} [Decidable c] {p q : Prog α} (h1 : c → Stays n Q p) (h2 : ¬ c → Stays n Q q) :
    Stays n Q (if c then p else q) := by
  split
  · exact h1 ‹_›
  · exact h2 ‹_›

theorem Stays.diverge {Q : α → Prop} : Stays n Q (.ret (.error .diverge) : Prog α) := by
  intro b hb
  cases hb

theorem Stays.attempt {Q : α → Prop} {p : Prog α} (h : Stays n Q p) : Stays n (fun r => ∀ a, r = .ok a → Q a) (attempt p) := by
  induction p with
  | ret r =>
    cases r with
    | ok a =>
      intro b hb
      cases hb
      exact h
    | error e =>
      cases e with
      | err m =>
        intro b hb
        cases hb
        intro a ha
        cases ha
      | panic m => intro b hb; cases hb
      | diverge => intro b hb; cases hb
  | op q k ih => exact ⟨h.1, fun a => ih a (h.2 a)⟩

theorem Stays.of_asks {p : Prog α} (h : Asks (fun x => x < n) p) : Stays n (fun _ => True) p := by
  induction p with
  | ret r => exact fun _ _ => trivial
  | op q k ih =>
    obtain ⟨⟨x, rfl, hx⟩, h2⟩ := h
    exact ⟨hx, fun a => ih a (h2 a)⟩

end

/-! ### the algorithms -/

theorem rightmostLoop_stays {cfg : Config} {n r0 : Nat} : ∀ (fuel lo : Nat) (anc : List Nat), At n lo n anc →
    Stays n (fun r => ∃ lo' anc', r = some (rt lo' n) ∧ At n lo' n anc') (rightmostLoop cfg n r0 fuel (rt lo n)) := by
  intro fuel
  induction fuel with
  | zero => intro lo anc h; exact .diverge
  | succ fuel ih =>
    intro lo anc h
    have hb := h.bounds
    unfold rightmostLoop
    refine .ite (fun _ => .pure ⟨lo, anc, rfl, h⟩) (fun hx => .bindT (.call (show rt lo n < n by omega)) (fun t => .ite (fun _ => .pure ⟨lo, anc, rfl, h⟩) (fun _ => ?_)))
    refine .bind (Q := fun c => c = rt (rt lo n + 1) n) (.lift (fun a ha => ?_)) ?_
    · rw [right_rt h (by omega)] at ha
      exact (Except.ok.inj ha).symm
    rintro c rfl
    exact ih _ _ (.right h (by omega))

theorem rightmostDistinguished_stays {cfg : Config} {n : Nat} :
    Stays n (fun r => ∀ x, r = some x → ∃ lo anc, x = rt lo n ∧ At n lo n anc) (rightmostDistinguished cfg n) := by
  unfold rightmostDistinguished
  refine .ite (fun _ => .pure (by simp)) (fun h0 => .bindT (.call (show n - 1 < n by omega)) (fun t => .ite (fun _ => .pure (by simp)) (fun _ => ?_)))
  rw [root_eq (by omega)]
  refine (rightmostLoop_stays _ _ _ (.root (by omega))).imp ?_
  rintro r ⟨lo, anc, rfl, h⟩ x hx
  cases hx
  exact ⟨lo, anc, rfl, h⟩

theorem greatestLoop_stays {v n : Nat} : ∀ (fuel lo : Nat) (anc : List Nat) (term : Option Nat), At n lo n anc →
    Stays n (fun _ => True) (greatestLoop v n fuel (rt lo n) term) := by
  intro fuel
  induction fuel with
  | zero => intro lo anc term h; exact .diverge
  | succ fuel ih =>
    intro lo anc term h
    have hb := h.bounds
    unfold greatestLoop
    refine .bindT (.call (show rt lo n < n by omega)) (fun r => .ite (fun _ => .fail) (fun _ => .ite (fun hx => ?_) (fun _ =>
      .ite (fun _ => .fail) (fun _ => .ite (fun _ => .fail) (fun _ => .pure trivial)))))
    refine .bind (Q := fun c => c = rt (rt lo n + 1) n) (.lift (fun a ha => ?_)) ?_
    · rw [right_rt h (by omega)] at ha
      exact (Except.ok.inj ha).symm
    rintro c rfl
    exact ih _ _ _ (.right h (by omega))

theorem greatestVersionSearch_stays {cfg : Config} {v n : Nat} : Stays n (fun _ => True) (greatestVersionSearch cfg v n) := by
  unfold greatestVersionSearch
  refine .ite (fun _ => .fail) (fun h0 => .bind rightmostDistinguished_stays.attempt (fun d hd => ?_))
  cases d with
  | error e => exact .pure trivial
  | ok d =>
    have h := hd d rfl
    cases d with
    | none =>
      simp only [Option.getD_none]
      rw [root_eq (by omega)]
      exact greatestLoop_stays _ _ _ _ (.root (by omega))
    | some x =>
      obtain ⟨lo, anc, rfl, hat⟩ := h x rfl
      exact greatestLoop_stays _ _ _ _ hat

theorem fixedFinish_stays {n v : Nat} {term : Option Nat} (ht : ∀ t, term = some t → t < n) {exp : Bool} {dist : List Nat} :
    Stays n (fun _ => True) (fixedFinish v term exp dist) := by
  unfold fixedFinish
  cases term with
  | none => exact .fail
  | some t => exact .ite (fun _ => .fail) (fun _ => .bindT (.call (.inr (ht t rfl))) (fun _ => .pure trivial))

theorem fixedLoop_stays {cfg : Config} {v n rm : Nat} : ∀ (fuel lo hi : Nat) (anc : List Nat) (s : FixedState),
    At n lo hi anc → s.x = rt lo hi → (∀ t, s.terminal = some t → t < n) → Stays n (fun _ => True) (fixedLoop cfg v n rm fuel s) := by
  intro fuel
  induction fuel with
  | zero => intro lo hi anc s h _ _; exact .diverge
  | succ fuel ih =>
    intro lo hi anc s h hsx hst
    have hb := h.bounds
    have hx : s.x < n := by omega
    have hright : ∀ s' : Nat → FixedState, (∀ r, (s' r).x = r) → (∀ r t, (s' r).terminal = some t → t < n) →
        ¬ noRightChild s.x n = true → Stays n (fun _ => True) (do
        let r ← lift (SearchTree.right s.x n)
        fixedLoop cfg v n rm fuel (s' r)) := by
      intro s' hs' ht' hnr
      have hr : rt lo hi + 1 < hi := by
        by_contra hc
        exact hnr (by rw [hsx]; exact (noRightChild_iff h).2 hc)
      refine .bind (Q := fun c => c = rt (rt lo hi + 1) hi) (.lift (fun a ha => ?_)) ?_
      · rw [hsx, right_rt h hr] at ha
        exact (Except.ok.inj ha).symm
      rintro c rfl
      exact ih _ _ _ _ (.right h hr) (hs' _) (ht' _)
    have hleft : ∀ s' : Nat → FixedState, (∀ r, (s' r).x = r) → (∀ r t, (s' r).terminal = some t → t < n) →
        ¬ noLeftChild s.x = true → Stays n (fun _ => True) (do
        let r ← lift (LogMath.left s.x)
        fixedLoop cfg v n rm fuel (s' r)) := by
      intro s' hs' ht' hnl
      have hl : lo < rt lo hi := by
        have := mt (noLeftChild_iff h).2 (by rw [← hsx]; exact hnl)
        omega
      refine .bind (Q := fun c => c = rt lo (rt lo hi)) (.lift (fun a ha => ?_)) ?_
      · rw [hsx, left_rt h, if_pos hl] at ha
        exact (Except.ok.inj ha).symm
      rintro c rfl
      exact ih _ _ _ _ (.left h hl) (hs' _) (ht' _)
    unfold fixedLoop
    refine .bindT (.call hx) (fun t => .ite (fun _ => .ite (fun _ => fixedFinish_stays hst) (fun hnr => hright _ (fun _ => rfl) (fun _ => hst) hnr)) (fun _ => ?_))
    refine .bindT (.call hx) (fun r => ?_)
    have hterm : ∀ t, (if r ≥ 0 ∧ s.terminal.all (fun t => s.x < t) then some s.x else s.terminal) = some t → t < n := by
      intro t ht
      split at ht
      · cases ht; exact hx
      · exact hst t ht
    exact .ite (fun _ => .ite (fun _ => fixedFinish_stays hterm) (fun hnr => hright _ (fun _ => rfl) (fun _ => hterm) hnr)) (fun _ =>
      .ite (fun _ => .ite (fun _ => fixedFinish_stays hterm) (fun hnl => hleft _ (fun _ => rfl) (fun _ => hterm) hnl)) (fun _ => .ite (fun _ => .pure trivial)
        (fun _ => .ite (fun _ => .pure trivial) (fun _ => .fail))))

theorem fixedVersionSearch_stays {cfg : Config} {v n : Nat} : Stays n (fun _ => True) (fixedVersionSearch cfg v n) := by
  unfold fixedVersionSearch
  exact .ite (fun _ => .fail) (fun h0 => .bindT (.call (show n - 1 < n by omega)) (fun t =>
    fixedLoop_stays _ _ _ _ _ (.root (by omega)) (root_eq (by omega)) (by simp)))

theorem newMonitor_stays {cfg : Config} {n : Nat} : Stays n (fun m => 0 < n ∧ m.treeSize = n ∧ m.owner = none) (newMonitor cfg n) := by
  unfold newMonitor
  exact .ite (fun _ => .fail) (fun h0 => .bindT (.call (show n - 1 < n by omega)) (fun _ => .pure ⟨by omega, rfl, rfl⟩))

theorem distAncLoop_stays {m : Monitor} {target : Nat} : ∀ (fuel lo hi : Nat) (anc : List Nat) (l r : Nat) (acc : Option Nat),
    At m.treeSize lo hi anc → lo ≤ target → target < hi →
    Stays m.treeSize (fun _ => True) (distAncLoop m target fuel (rt lo hi) l r acc) := by
  intro fuel
  induction fuel with
  | zero => intro lo hi anc l r acc h h1 h2; exact .diverge
  | succ fuel ih =>
    intro lo hi anc l r acc h h1 h2
    have hb := h.bounds
    unfold distAncLoop
    refine .ite (fun _ => .pure trivial) (fun _ => ?_)
    simp only []
    refine .ite (fun _ => .pure trivial) (fun hne => ?_)
    refine .bindT (.call (show rt lo hi < m.treeSize by omega)) (fun t => ?_)
    refine .ite (fun hgt => ?_) (fun hgt => ?_)
    · refine .bind (Q := fun c => c = rt lo (rt lo hi)) (.lift (fun a ha => ?_)) ?_
      · rw [left_rt h, if_pos (by omega)] at ha
        exact (Except.ok.inj ha).symm
      · rintro c rfl
        exact ih _ _ _ _ _ _ (.left h (by omega)) h1 (by omega)
    · refine .bind (Q := fun c => c = rt (rt lo hi + 1) hi) (.lift (fun a ha => ?_)) ?_
      · rw [right_rt h (by omega)] at ha
        exact (Except.ok.inj ha).symm
      · rintro c rfl
        exact ih _ _ _ _ _ _ (.right h (by omega)) (by omega) h2

theorem inspectAll_stays {n ver : Nat} : ∀ (L : List Nat) (prev : PMap), (∀ y ∈ L, y < n) →
    Stays n (fun _ => True) (inspectAll ver L prev) := by
  intro L
  induction L with
  | nil => intro prev _; exact .pure trivial
  | cons y L ih =>
    intro prev hL
    unfold inspectAll
    split
    · exact .ite (fun _ => .fail) (fun _ => .pure trivial)
    · exact .bindT (.call (hL y (by simp))) (fun _ => ih _ (fun z hz => hL z (by simp [hz])))

theorem contactMonitor1_stays {m : Monitor} {x ver : Nat} {prev : PMap} (hx : x < m.treeSize) :
    Stays m.treeSize (fun _ => True) (contactMonitor1 m x ver prev) := by
  obtain ⟨path, hpath, hps⟩ := rightDirectPath_ok hx
  unfold contactMonitor1 distinguishedAncestor
  rw [root_eq (by omega)]
  refine .bindT (distAncLoop_stays _ _ _ _ _ _ _ (.root (by omega)) (by omega) hx) (fun stop => ?_)
  refine .ite (fun _ => .pure trivial) (fun _ => ?_)
  rw [hpath]
  refine .bind (Q := fun c => c = path) (.lift (fun a ha => (Except.ok.inj ha).symm)) ?_
  rintro c rfl
  refine .bindT (inspectAll_stays _ _ (fun y hy => ?_)) (fun r => ?_)
  · exact SearchSpec.RightAnc.lt_n (hps y (inspectList_sub hy))
  · exact .ite (fun _ => .pure trivial) (fun _ => .ite (fun _ => .pure trivial) (fun _ => .pure trivial))

theorem contactLoop_stays {m : Monitor} : ∀ (rest prev ptrs : PMap), (∀ e ∈ rest, e.1 < m.treeSize) →
    Stays m.treeSize (fun _ => True) (contactLoop m rest prev ptrs) := by
  intro rest
  induction rest with
  | nil => intro prev ptrs _; exact .pure trivial
  | cons e rest ih =>
    obtain ⟨x, ver⟩ := e
    intro prev ptrs hn
    unfold contactLoop
    refine .bindT (contactMonitor1_stays (hn (x, ver) (by simp))) ?_
    rintro ⟨u, prev'⟩
    cases u with
    | none => exact ih _ _ (fun e he => hn e (by simp [he]))
    | some y => exact ih _ _ (fun e he => hn e (by simp [he]))

theorem contactMonitor_stays {m : Monitor} {c : PMap} (hc : m.contact = some c) (hn : ∀ e ∈ c, e.1 < m.treeSize) :
    Stays m.treeSize (fun m' => m'.owner = m.owner ∧ m'.treeSize = m.treeSize) (contactMonitor m) := by
  unfold contactMonitor
  rw [hc]
  exact .bindT (contactLoop_stays _ _ _ (fun e he => hn e (mem_sortDesc.1 he))) (fun _ => .pure ⟨rfl, rfl⟩)

theorem initWalk_stays {m : Monitor} {start : Nat} : ∀ (fuel lo hi : Nat) (anc : List Nat) (l r : Nat), At m.treeSize lo hi anc →
    Stays m.treeSize (fun xs => start < m.treeSize ∧ ∀ x ∈ xs, x < m.treeSize) (initWalk m start fuel (rt lo hi) l r) := by
  intro fuel
  induction fuel with
  | zero => intro lo hi anc l r h; exact .diverge
  | succ fuel ih =>
    intro lo hi anc l r h
    have hb := h.bounds
    have hx : rt lo hi < m.treeSize := by omega
    unfold initWalk
    refine .ite (fun _ => .fail) (fun _ => .bindT (.call hx) (fun t => ?_))
    refine .ite (fun _ => .ite (fun _ => .fail) (fun hnr => ?_)) (fun _ => .ite (fun he => .ite (fun _ => .fail)
      (fun _ => .pure ⟨by omega, by simpa using hx⟩)) (fun _ => .ite (fun _ => .fail) (fun hnl => ?_)))
    · have hr : rt lo hi + 1 < hi := by
        by_contra hc
        exact hnr ((noRightChild_iff h).2 hc)
      refine .bind (Q := fun c => c = rt (rt lo hi + 1) hi) (.lift (fun a ha => ?_)) ?_
      · rw [right_rt h hr] at ha
        exact (Except.ok.inj ha).symm
      rintro c rfl
      refine .bind (ih _ _ _ _ _ (.right h hr)) (fun xs hxs => .pure ⟨hxs.1, ?_⟩)
      intro y hy
      split at hy
      · exact hxs.2 y hy
      · rcases List.mem_append.1 hy with hy | hy
        · exact hxs.2 y hy
        · rw [List.mem_singleton.1 hy]; exact hx
    · have hl : lo < rt lo hi := by
        have := mt (noLeftChild_iff h).2 (fun h => hnl (.inl h))
        omega
      refine .bind (Q := fun c => c = rt lo (rt lo hi)) (.lift (fun a ha => ?_)) ?_
      · rw [left_rt h, if_pos hl] at ha
        exact (Except.ok.inj ha).symm
      rintro c rfl
      exact ih _ _ _ _ _ (.left h hl)

theorem initEntries_stays {m : Monitor} (h0 : 0 < m.treeSize) {start : Nat} :
    Stays m.treeSize (fun xs => start < m.treeSize ∧ ∀ x ∈ xs, x < m.treeSize) (initEntries m start) := by
  unfold initEntries
  rw [root_eq h0]
  exact initWalk_stays _ _ _ _ _ _ (.root h0)

theorem initLadders_stays {n : Nat} : ∀ {xs vs : List Nat}, (∀ x ∈ xs, x < n) → Stays n (fun _ => True) (initLadders xs vs)
  | [], _, _ => by unfold initLadders; exact .pure trivial
  | x :: xs, [], h => by
    unfold initLadders
    exact .bindT (.call (h x List.mem_cons_self)) (fun _ => .ite (fun _ => .fail)
      (fun _ => initLadders_stays (fun w hw => h w (List.mem_cons_of_mem _ hw))))
  | x :: xs, v :: vs, h => by
    unfold initLadders
    exact .bindT (.call (h x List.mem_cons_self)) (fun _ => .ite (fun _ => .fail)
      (fun _ => initLadders_stays (fun w hw => h w (List.mem_cons_of_mem _ hw))))

theorem ownerInit_stays {m : Monitor} (h0 : 0 < m.treeSize) {start : Nat} {vers : List Nat} :
    Stays m.treeSize (fun _ => True) (Alg.ownerInit m start vers) := by
  unfold Alg.ownerInit
  refine .ite (fun _ => .fail) (fun _ => .bind (initEntries_stays h0) (fun xs hxs => .ite (fun _ => .fail) (fun _ =>
    .ite (fun _ => .fail) (fun _ => .bindT (initLadders_stays hxs.2) (fun _ => .pure trivial)))))

theorem expectLadder_stays {n x : Nat} {v : Int} {om : Bool} (hx : x < n) : Stays n (fun _ => True) (expectLadder x v om) := by
  unfold expectLadder
  refine .ite (fun _ => ?_) (fun _ => ?_)
  · exact .bindT (.call hx) (fun r => .ite (fun _ => .fail) (fun _ => .pure trivial))
  · exact .bindT (.call hx) (fun r => .ite (fun _ => .fail) (fun _ => .pure trivial))

theorem ownerWalk_stays {cfg : Config} {n : Nat} : ∀ (fuel lo hi : Nat) (anc : List Nat) (l r : Nat) (o : Owner), At n lo hi anc →
    Stays n (fun _ => True) (ownerWalk cfg n fuel (rt lo hi) l r o) := by
  intro fuel
  induction fuel with
  | zero => intro lo hi anc l r o h; exact .diverge
  | succ fuel ih =>
    intro lo hi anc l r o h
    have hb := h.bounds
    have hx : rt lo hi < n := by omega
    have hright : ¬ noRightChild (rt lo hi) n = true → ∀ o1, Stays n (fun _ => True) (do
        let timestamp ← getTs (rt lo hi)
        let c ← lift (right (rt lo hi) n)
        ownerWalk cfg n fuel c timestamp r o1) := by
      intro hnr o1
      have hne : rt lo hi + 1 < hi := by
        by_contra hcon
        exact hnr ((noRightChild_iff h).2 (by omega))
      refine .bindT (.call hx) (fun t => ?_)
      refine .bind (Q := fun c => c = rt (rt lo hi + 1) hi) (.lift (fun a ha => ?_)) ?_
      · rw [right_rt h (by omega)] at ha
        exact (Except.ok.inj ha).symm
      rintro c rfl
      exact ih _ _ _ _ _ _ (.right h (by omega))
    unfold ownerWalk
    refine .ite (fun _ => .pure trivial) (fun _ => .ite (fun _ => .ite (fun _ => .pure trivial) (fun hnr => hright hnr o)) (fun _ => ?_))
    refine .bindT ?_ (fun o1 => .bindT (.call hx) (fun b => .ite (fun _ => .pure trivial)
      (fun _ => .bindT (expectLadder_stays hx) (fun _ => .ite (fun _ => .pure trivial) (fun hnr => hright hnr _)))))
    refine .ite (fun _ => .pure trivial) (fun hnl => ?_)
    have hne : lo < rt lo hi := by
      by_contra hcon
      exact hnl ((noLeftChild_iff h).2 (by omega))
    refine .bindT (.call hx) (fun t => ?_)
    refine .bind (Q := fun c => c = rt lo (rt lo hi)) (.lift (fun a ha => ?_)) ?_
    · rw [left_rt h, if_pos (by omega)] at ha
      exact (Except.ok.inj ha).symm
    rintro c rfl
    exact ih _ _ _ _ _ _ (.left h (by omega))

theorem ownerMonitor_stays {m : Monitor} (h0 : 0 < m.treeSize) : Stays m.treeSize (fun _ => True) (Alg.ownerMonitor m) := by
  unfold Alg.ownerMonitor
  cases m.owner with
  | none => exact .fail
  | some o =>
    simp only
    rw [root_eq h0]
    exact .bindT (ownerWalk_stays _ _ _ _ _ _ _ (.root h0)) (fun _ => .pure trivial)

end Katie.Alg
