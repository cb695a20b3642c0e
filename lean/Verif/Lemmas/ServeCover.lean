import Verif.Lemmas.ServeSearch
import Verif.Lemmas.Faults
import Verif.Spec.Served

/-
A greatest-version search inspects the whole frontier.  The requests of `UpdateView` do not depend on the clock.
-/

namespace Katie.Alg
open Katie Katie.Wire Katie.Ladder Katie.Props Katie.SearchSpec Katie.SearchTree Katie.ServedSpec Prog

/-- some request of the trace about entry `y` was answered -/
def Inspected (tr : List Ev) (y : Nat) : Prop := ∃ e ∈ tr, e.q.pos? = some y ∧ ∃ a, e.a = .ok a

theorem Inspected.left {a b : List Ev} {y : Nat} (h : Inspected a y) : Inspected (a ++ b) y := by
  obtain ⟨e, he, h⟩ := h
  exact ⟨e, by simp [he], h⟩

theorem Inspected.right {a b : List Ev} {y : Nat} (h : Inspected b y) : Inspected (a ++ b) y := by
  obtain ⟨e, he, h⟩ := h
  exact ⟨e, by simp [he], h⟩

theorem rightmostLoop_covers {cfg : Config} {n rm : Nat} : ∀ (fuel lo : Nat) (anc : List Nat), At n lo n anc →
    ∀ {tr : List Ev} {d : Option Nat}, Runs (rightmostLoop cfg n rm fuel (rt lo n)) tr (.ok d) →
    ∃ lo' anc', At n lo' n anc' ∧ d = some (rt lo' n) ∧ ∀ y, Spine lo n y → Inspected tr y ∨ Spine lo' n y := by
  intro fuel
  induction fuel with
  | zero => intro lo anc _ tr d h; cases h
  | succ fuel ih =>
    intro lo anc hat tr d h
    have hb := hat.bounds
    unfold rightmostLoop at h
    rcases runs_ite.1 h with ⟨-, h⟩ | ⟨hne, h⟩
    · obtain ⟨-, h⟩ := runs_pure.1 h
      cases h
      exact ⟨lo, anc, hat, rfl, fun y hy => Or.inr hy⟩
    · obtain ⟨t, t1, t2, rfl, h1, h⟩ := runs_bind_ok.1 h
      have h1 : t1 = [⟨.ts (rt lo n), .ok t⟩] := runs_call.1 h1
      rcases runs_ite.1 h with ⟨-, h⟩ | ⟨-, h⟩
      · obtain ⟨-, h⟩ := runs_pure.1 h
        cases h
        exact ⟨lo, anc, hat, rfl, fun y hy => Or.inr hy⟩
      · obtain ⟨r, t3, t4, rfl, h3, h⟩ := runs_bind_ok.1 h
        obtain ⟨rfl, hr⟩ := runs_lift.1 h3
        rw [right_rt hat (by omega)] at hr
        cases hr
        obtain ⟨lo', anc', k1, k2, k3⟩ := ih _ _ (.right hat (by omega)) h
        refine ⟨lo', anc', k1, k2, ?_⟩
        intro y hy
        cases hy with
        | here => exact Or.inl (.left ⟨⟨.ts (rt lo n), .ok t⟩, by rw [h1]; exact List.mem_singleton.2 rfl, rfl, t, rfl⟩)
        | right _ hy =>
          rcases k3 y hy with k | k
          · exact Or.inl (.right (by simpa using k))
          · exact Or.inr k

theorem greatestLoop_covers {n v : Nat} : ∀ (fuel lo : Nat) (anc : List Nat) (term : Option Nat), At n lo n anc →
    ∀ {tr : List Ev} {z : Nat}, Runs (greatestLoop v n fuel (rt lo n) term) tr (.ok z) →
    ∀ y, Spine lo n y → Inspected tr y := by
  intro fuel
  induction fuel with
  | zero => intro lo anc term _ tr z h; cases h
  | succ fuel ih =>
    intro lo anc term hat tr z h y hy
    have hb := hat.bounds
    unfold greatestLoop at h
    obtain ⟨res, t1, t2, rfl, h1, h⟩ := runs_bind_ok.1 h
    have h1 : t1 = [⟨.search (rt lo n) v true, .ok res⟩] := runs_call.1 h1
    have here : Inspected t1 (rt lo n) := ⟨⟨.search (rt lo n) v true, .ok res⟩, by rw [h1]; exact List.mem_singleton.2 rfl, rfl, res, rfl⟩
    rcases runs_ite.1 h with ⟨-, h⟩ | ⟨-, h⟩
    · exact absurd h runs_fail_ok
    simp only at h
    rcases runs_ite.1 h with ⟨hne, h⟩ | ⟨he, h⟩
    · obtain ⟨r, t3, t4, rfl, h3, h⟩ := runs_bind_ok.1 h
      obtain ⟨rfl, hr⟩ := runs_lift.1 h3
      rw [right_rt hat (by omega)] at hr
      cases hr
      cases hy with
      | here => exact .left here
      | right _ hy => exact .right (by simpa using ih _ _ _ (.right hat (by omega)) h y hy)
    · cases hy with
      | here => exact .left here
      | right h1 _ => omega

theorem greatestVersionSearch_covers {cfg : Config} {n v : Nat} (h0 : 0 < n) {ts : Nat → Nat} {g : Nat → Int}
    {stop : Nat → Int → Bool} {tr : List Ev} {z : Nat}
    (h : Runs (greatestVersionSearch cfg v n) tr (.ok z)) (ha : AgreesWith tr (honest ts g stop)) :
    ∀ y, Spine 0 n y → Inspected tr y := by
  intro y hy
  unfold greatestVersionSearch at h
  rw [if_neg (by omega)] at h
  obtain ⟨d, t1, t2, rfl, h1, h⟩ := runs_bind_ok.1 h
  obtain ⟨r', h3, h4⟩ := runs_attempt h1
  have ha1 : AgreesWith t1 (honest ts g stop) := fun e he => ha e (by simp [he])
  obtain ⟨r, hr, -⟩ := rightmostDistinguished_eval (cfg := cfg) (honest_ts (ts := ts) (g := g) (stop := stop) (n := n))
  have hr' : r' = .ok r := by rw [← hr]; exact (h3.eval_eq ha1).symm
  subst hr'
  have hd : d = .ok r := by
    rcases h4 with ⟨m, h4, -⟩ | ⟨b, h4, h5⟩ | ⟨f, h4, -, h5⟩
    · cases h4
    · cases h4; cases h5; rfl
    · cases h4
  subst hd
  simp only at h
  unfold rightmostDistinguished at h3
  rw [if_neg (by omega)] at h3
  obtain ⟨rm, t3, t4, rfl, h5, h3⟩ := runs_bind_ok.1 h3
  rcases runs_ite.1 h3 with ⟨-, h3⟩ | ⟨-, h3⟩
  · obtain ⟨-, h3⟩ := runs_pure.1 h3
    cases h3
    simp only [Option.getD_none] at h
    rw [root_eq h0] at h
    exact .right (greatestLoop_covers _ _ _ _ (.root h0) h y hy)
  · rw [root_eq h0] at h3
    obtain ⟨lo', anc', k1, rfl, k3⟩ := rightmostLoop_covers _ _ _ (.root h0) h3
    rcases k3 y hy with k | k
    · exact .left (.right k)
    · exact .right (greatestLoop_covers _ _ _ _ k1 h y k)

/-- what is read for `UpdateView` does not depend on the time -/
theorem updateView_state_now {σ : Type} (H : Handle σ) (p : Provider σ) (cfg : Config) (now now' n : Nat) (m : Option Nat) :
    (p.run H (Alg.updateView cfg now n m)).2 = (p.run H (Alg.updateView cfg now' n m)).2 := by
  unfold Alg.updateView
  split
  · rfl
  split
  · rfl
  rw [run_bind, run_bind]
  cases h : p.run H (lift (SearchTree.updateView n m)) with
  | mk r q =>
    cases r with
    | error e => rfl
    | ok xs =>
      simp only
      rw [run_bind, run_bind]
      cases h : q.run H (getAllTs xs) with
      | mk r q =>
        cases r with
        | error e => rfl
        | ok u =>
          simp only
          rw [run_bind, run_bind]
          cases h : q.run H (getTs (n - 1)) with
          | mk r q =>
            cases r with
            | error e => rfl
            | ok ts =>
              simp only
              repeat' split
              all_goals rfl

theorem getAllTs_eval {ts : Nat → Nat} {g : Nat → Int} {stop : Nat → Int → Bool} : ∀ (xs : List Nat),
    eval (honest ts g stop) (getAllTs xs) = .ok ()
  | [] => rfl
  | x :: xs => by
    unfold getAllTs
    rw [eval_bind]
    exact getAllTs_eval xs

theorem updateView_eval {ts : Nat → Nat} {g : Nat → Int} {stop : Nat → Int → Bool} {cfg : Config} {now n : Nat} (h0 : 0 < n)
    (hn : n < 2 ^ 64) {m : Option Nat} (hm : ∀ k, m = some k → 0 < k ∧ k ≤ n) (hw : InWindow cfg now (ts (n - 1))) :
    eval (honest ts g stop) (Alg.updateView cfg now n m) = .ok () := by
  obtain ⟨xs, f, h1, -⟩ := updateView_positions h0 hn hm
  unfold Alg.updateView
  rw [if_neg, if_neg (by omega), eval_bind, eval_lift, h1, G.ok_bind, eval_bind, getAllTs_eval, G.ok_bind, eval_bind]
  · change eval _ (if now < ts (n - 1) ∧ _ then _ else _) = _
    rw [if_neg hw.1, if_neg hw.2]
    rfl
  · cases m with
    | none => simp
    | some k => have := hm k rfl; simp; omega

end Katie.Alg
