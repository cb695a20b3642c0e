import Verif.Lemmas.Cutoff
import Verif.Lemmas.ContactState
import Verif.Props.C23_C25_Distinguished

/-
Where the walk of a label owner ends: at an entry which is not to the right of the rightmost distinguished one.
-/

namespace Katie.Alg
open Katie Katie.Wire Katie.SearchTree Katie.SearchSpec

/-- a table of timestamps as a function -/
def spread (M : List (Nat × Nat)) (x : Nat) : Nat := ((M.filter (fun e => decide (e.1 ≤ x))).map Prod.snd).foldr max 0

theorem spread_eq {M : List (Nat × Nat)} (hM : TsMap M) {x a : Nat} (h : (x, a) ∈ M) : spread M x = a := by
  refine le_antisymm (foldr_max_le.2 ?_) (le_foldr_max ?_)
  · intro b hb
    obtain ⟨e, he, rfl⟩ := List.mem_map.1 hb
    rw [List.mem_filter] at he
    exact hM.mono e he.1 (x, a) h (by simpa using he.2)
  · exact List.mem_map.2 ⟨(x, a), List.mem_filter.2 ⟨h, by simp⟩, rfl⟩

theorem spread_good {M : List (Nat × Nat)} (h64 : ∀ e ∈ M, e.2 < 2 ^ 64) (n : Nat) : GoodTimes (spread M) n := by
  refine ⟨fun i j hij _ => foldr_max_le.2 ?_, fun i _ => ?_⟩
  · intro b hb
    obtain ⟨e, he, rfl⟩ := List.mem_map.1 hb
    rw [List.mem_filter] at he
    refine le_foldr_max (List.mem_map.2 ⟨e, List.mem_filter.2 ⟨he.1, ?_⟩, rfl⟩)
    have : e.1 ≤ i := by simpa using he.2
    simp only [decide_eq_true_eq]
    omega
  · have : spread M i ≤ 2 ^ 64 - 1 := by
      refine foldr_max_le.2 ?_
      intro b hb
      obtain ⟨e, he, rfl⟩ := List.mem_map.1 hb
      have := h64 e (List.mem_filter.1 he).1
      omega
    omega

/-- the walk of the owner ends where it began or at a distinguished entry -/
theorem ownerWalk_start {cfg : Config} {n : Nat} {ts : Nat → Nat} (ht : GoodTimes ts n) : ∀ (fuel lo hi : Nat) (anc : List Nat)
    (o o' : Owner) (tr : List Ev), At n lo hi anc → TsTrace tr ts →
    Runs (ownerWalk cfg n fuel (rt lo hi) (lb ts lo) (rb ts n hi) o) tr (.ok o') →
    o'.starting = o.starting ∨ Distinguished (Wide cfg.rmw) ts n o'.starting := by
  intro fuel
  induction fuel with
  | zero => intro lo hi anc o o' tr h _ hr; unfold ownerWalk at hr; cases hr
  | succ fuel ih =>
    intro lo hi anc o o' tr h htr hr
    have hb := h.bounds
    have hdc : cfg.isDistinguished (lb ts lo) (rb ts n hi) = true ↔ Distinguished (Wide cfg.rmw) ts n (rt lo hi) := by
      rw [distinguished_iff ht h]
      exact isDistinguished_iff (lb_le_rb ht (by omega) hb.2.2) (rb_lt ht hb.2.2 h.pos)
    have erb : rb ts n (rt lo hi) = ts (rt lo hi) := by unfold rb; rw [if_neg (by omega)]
    have elb : lb ts (rt lo hi + 1) = ts (rt lo hi) := by unfold lb; rw [if_neg (by omega)]; rfl
    have hright : ∀ (o1 : Owner) (t : List Ev), TsTrace t ts →
        Runs (do let timestamp ← Prog.getTs (rt lo hi)
                 let c ← Prog.lift (right (rt lo hi) n)
                 ownerWalk cfg n fuel c timestamp (rb ts n hi) o1) t (.ok o') → ¬ noRightChild (rt lo hi) n = true →
        o'.starting = o1.starting ∨ Distinguished (Wide cfg.rmw) ts n o'.starting := by
      intro o1 t htr1 hr1 hnr
      have hne : rt lo hi + 1 < hi := by
        by_contra hcon
        exact hnr ((noRightChild_iff h).2 (by omega))
      obtain ⟨a, t1, t2, rfl, hg, hr2⟩ := runs_bind_ok.1 hr1
      have hga := runs_getTs htr1.left hg
      subst hga
      obtain ⟨c, t3, t4, rfl, hl, hr3⟩ := runs_bind_ok.1 hr2
      obtain ⟨rfl, hk⟩ := runs_lift.1 hl
      rw [right_rt h (by omega)] at hk
      have hk := Except.ok.inj hk
      subst hk
      rw [← elb] at hr3
      exact ih _ _ _ _ _ _ (.right h (by omega)) htr1.right.right hr3
    unfold ownerWalk at hr
    rw [runs_ite] at hr
    rcases hr with ⟨hnd, hr⟩ | ⟨hdd, hr⟩
    · obtain ⟨rfl, hk⟩ := runs_pure.1 hr
      cases hk
      exact Or.inl rfl
    have hdist : Distinguished (Wide cfg.rmw) ts n (rt lo hi) := hdc.1 (by simpa using hdd)
    rw [runs_ite] at hr
    rcases hr with ⟨hle, hr⟩ | ⟨hgt, hr⟩
    · rw [runs_ite] at hr
      rcases hr with ⟨hnr, hr⟩ | ⟨hnr, hr⟩
      · obtain ⟨rfl, hk⟩ := runs_pure.1 hr
        cases hk
        exact Or.inl rfl
      · exact hright o tr htr hr hnr
    · obtain ⟨o1, t1, t2, rfl, hl, hr⟩ := runs_bind_ok.1 hr
      have hw1 : o1.starting = o.starting ∨ Distinguished (Wide cfg.rmw) ts n o1.starting := by
        rw [runs_ite] at hl
        rcases hl with ⟨hnl, hl⟩ | ⟨hnl, hl⟩
        · obtain ⟨rfl, hk⟩ := runs_pure.1 hl
          cases hk
          exact Or.inl rfl
        · have hne : lo < rt lo hi := by
            by_contra hcon
            exact hnl ((noLeftChild_iff h).2 (by omega))
          obtain ⟨a, t3, t4, rfl, hg, hr2⟩ := runs_bind_ok.1 hl
          have hga := runs_getTs htr.left.left hg
          subst hga
          obtain ⟨c, t5, t6, rfl, hl2, hr3⟩ := runs_bind_ok.1 hr2
          obtain ⟨rfl, hk⟩ := runs_lift.1 hl2
          rw [left_rt h, if_pos (by omega)] at hk
          have hk := Except.ok.inj hk
          subst hk
          rw [← erb] at hr3
          exact ih _ _ _ _ _ _ (.left h (by omega)) htr.left.right.right hr3
      obtain ⟨b, t3, t4, rfl, hs, hr⟩ := runs_bind_ok.1 hr
      rw [runs_ite] at hr
      rcases hr with ⟨hb1, hr⟩ | ⟨hb1, hr⟩
      · obtain ⟨rfl, hk⟩ := runs_pure.1 hr
        cases hk
        exact hw1
      · obtain ⟨u, t5, t6, rfl, he, hr⟩ := runs_bind_ok.1 hr
        rw [runs_ite] at hr
        rcases hr with ⟨hnr, hr⟩ | ⟨hnr, hr⟩
        · obtain ⟨rfl, hk⟩ := runs_pure.1 hr
          cases hk
          exact Or.inr hdist
        · rcases hright _ t6 htr.right.right.right hr hnr with h | h
          · refine Or.inr ?_
            rw [h]
            exact hdist
          · exact Or.inr h

/-- an algorithm that only asks for timestamps which the provider has -/
theorem run_eval {σ α : Type} {H : Handle σ} {P : Nat → Prop} {p : Provider σ} {t : Nat → Nat} {A : (q : Req) → G q.Resp}
    (hp : ∀ x, P x → p.timestamps.lookup x = some (t x)) (hA : ∀ x, P x → A (.ts x) = .ok (t x)) {prog : Prog α}
    (h : Asks P prog) : (p.run H prog).1 = prog.eval A := by
  induction prog with
  | ret r => rfl
  | op r k ih =>
    obtain ⟨⟨x, rfl, hx⟩, hk⟩ := h
    have e1 : p.answer H (.ts x) = (.ok (t x), p) := getTimestamp_cached (hp x hx)
    unfold Provider.run
    rw [e1]
    change _ = (k (A (.ts x))).eval A
    rw [hA x hx]
    exact ih _ (hk _)

/-- `RightmostDistinguished` on a table that has the frontier: the greatest distinguished entry -/
theorem rightmost_greatest {σ : Type} {H : Handle σ} {cfg : Config} {p : Provider σ} {n : Nat} (h0 : 0 < n) (h64 : n < 2 ^ 64)
    (hm : TsMap p.timestamps) (ht : ∀ e ∈ p.timestamps, e.2 < 2 ^ 64)
    (hsp : ∀ y, Spine 0 n y → ∃ t, p.timestamps.lookup y = some t) :
    ∃ r, (p.run H (rightmostDistinguished cfg n)).1 = .ok r ∧
      IsGreatest' (Distinguished (Wide cfg.rmw) (spread p.timestamps) n) r := by
  obtain ⟨f, -, hf, -, -, hl⟩ := frontier_spine h0 h64
  have known : ∀ y, Spine 0 n y → p.timestamps.lookup y = some (spread p.timestamps y) := by
    intro y hy
    obtain ⟨t, h⟩ := hsp y hy
    rw [spread_eq hm (lookup_mem h)]
    exact h
  have e := run_eval (H := H) (A := honest (spread p.timestamps) (fun _ => 0)) known (fun x _ => rfl)
    (rightmostDistinguished_asks (cfg := cfg) h0 (fun _ h => h) ((hf _).1 hl))
  rw [e]
  exact Katie.Props.C23_rightmost_distinguished_window (fun x _ => rfl) (spread_good ht n)

end Katie.Alg
