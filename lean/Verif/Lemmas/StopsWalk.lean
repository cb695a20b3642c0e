import Verif.Lemmas.Stops

/- The monitoring algorithms on an honest server, for the judgement of `Stops.lean`. -/

namespace Katie.Alg
open Katie Katie.Wire Katie.Ladder Katie.Props Katie.SearchSpec Katie.SearchTree Prog

section
variable {ts : Nat → Nat} {g : Nat → Int} {n : Nat} {W : Req → Prop}

/-! ### contact monitoring -/

theorem distAncLoop_sv {m : Monitor} {target : Nat} (hn : m.treeSize = n) (hW : ∀ x v, ¬ W (.search x v true))
    (hts : ∀ x, x < n → W (.ts x)) : ∀ (fuel lo hi : Nat) (anc : List Nat) (l r : Nat) (acc : Option Nat) (st b : Bool),
    At n lo hi anc → lo ≤ target → target < hi → hi - lo < fuel →
    Sv ts g n W st b (distAncLoop m target fuel (rt lo hi) l r acc) (fun st' _ _ => st' = st) := by
  intro fuel
  induction fuel with
  | zero => intro lo hi anc l r acc st b h h1 h2 hf; omega
  | succ fuel ih =>
    intro lo hi anc l r acc st b h h1 h2 hf
    have hb := h.bounds
    unfold distAncLoop
    refine .ite (fun _ => .pure rfl) (fun _ => ?_)
    simp only []
    refine .ite (fun _ => .pure rfl) (fun hne => ?_)
    refine .bind hW (.getTs (by omega) (hts _ (by omega))) ?_
    rintro st1 b1 t - - ⟨rfl, rfl⟩
    refine .ite (fun hgt => ?_) (fun hgt => ?_)
    · refine .bind hW (.lift (Q := fun st' _ c => st' = st1 ∧ c = rt lo (rt lo hi)) (a := rt lo (rt lo hi)) ?_ ⟨rfl, rfl⟩) ?_
      · rw [left_rt h, if_pos (by omega)]
      · rintro st2 b2 c - - ⟨rfl, rfl⟩
        exact ih _ _ _ _ _ _ _ _ (.left h (by omega)) h1 (by omega) (by omega)
    · refine .bind hW (.lift (Q := fun st' _ c => st' = st1 ∧ c = rt (rt lo hi + 1) hi) (a := rt (rt lo hi + 1) hi) ?_ ⟨rfl, rfl⟩) ?_
      · rw [hn, right_rt h (by omega)]
      · rintro st2 b2 c - - ⟨rfl, rfl⟩
        exact ih _ _ _ _ _ _ _ _ (.right h (by omega)) (by omega) h2 (by omega)

theorem distinguishedAncestor_sv {m : Monitor} {x : Nat} {st b : Bool} (hn : m.treeSize = n) (hW : ∀ x v, ¬ W (.search x v true))
    (hts : ∀ x, x < n → W (.ts x)) (hx : x < n) :
    Sv ts g n W st b (distinguishedAncestor m x) (fun st' _ _ => st' = st) := by
  unfold distinguishedAncestor
  rw [hn, root_eq (by omega)]
  exact distAncLoop_sv hn hW hts _ _ _ _ _ _ _ _ _ (.root (by omega)) (by omega) hx (by omega)

theorem inspectAll_sv {ver : Nat} (hW : ∀ x v, ¬ W (.search x v true)) (hv : ver < 2 ^ 31 - 1) : ∀ (L : List Nat) (prev : PMap) (b : Bool),
    L.Pairwise (· < ·) → (∀ y ∈ L, y < n ∧ (ver : Int) ≤ g y ∧ W (.monitor y ver)) →
    (∀ y ∈ L, ∀ pv, prev.lookup y = some pv → ver < pv) →
    Sv ts g n W false b (inspectAll ver L prev)
      (fun st' _ r => st' = false ∧ ∀ y pv, r.2.lookup y = some pv → prev.lookup y = some pv ∨ pv = ver) := by
  intro L
  induction L with
  | nil => intro prev b _ _ _; unfold inspectAll; exact .pure ⟨rfl, fun y pv h => Or.inl h⟩
  | cons y L ih =>
    intro prev b hs hR hp
    rw [List.pairwise_cons] at hs
    unfold inspectAll
    split
    · rename_i pv hpv
      have := hp y (by simp) pv hpv
      exact .ite (fun hle => by omega) (fun _ => .pure ⟨rfl, fun y pv h => Or.inl h⟩)
    · obtain ⟨k1, k2, k3⟩ := hR y (by simp)
      refine .bind hW (.monitor k1 hv k2 k3) ?_
      rintro st1 b1 - - - rfl
      refine (ih _ _ hs.2 (fun z hz => hR z (by simp [hz])) ?_).imp ?_
      · intro z hz pv hpv
        rw [lookup_set] at hpv
        have := hs.1 z hz
        rw [if_neg (by omega)] at hpv
        exact hp z (by simp [hz]) pv hpv
      · rintro st' b' r - ⟨rfl, hr⟩
        refine ⟨rfl, ?_⟩
        intro z pv hz
        rcases hr z pv hz with h | h
        · rw [lookup_set] at h
          split at h
          · cases h; exact Or.inr rfl
          · exact Or.inl h
        · exact Or.inr h

theorem contactMonitor1_sv {m : Monitor} {x ver : Nat} {prev : PMap} {b : Bool} (hn : m.treeSize = n) (hW : ∀ x v, ¬ W (.search x v true))
    (hts : ∀ x, x < n → W (.ts x)) (hx : x < n) (hv : ver < 2 ^ 31 - 1)
    (hm : ∀ y, RightAnc n x y → (ver : Int) ≤ g y ∧ W (.monitor y ver)) (hp : ∀ y pv, prev.lookup y = some pv → ver < pv) :
    Sv ts g n W false b (contactMonitor1 m x ver prev)
      (fun st' _ r => st' = false ∧ ∀ y pv, r.2.lookup y = some pv → prev.lookup y = some pv ∨ pv = ver) := by
  obtain ⟨lo, hi, anc, hAt, e⟩ := exists_at n 0 n [] (by omega) (.root (by omega)) x (by omega) hx
  have hbd := hAt.bounds
  have hpe := rightDirectPath_eq hAt
  rw [e] at hpe
  have hps := (rpath_sorted hAt hbd.1 hbd.2.1).1
  rw [e] at hps
  unfold contactMonitor1
  refine .bind hW (distinguishedAncestor_sv hn hW hts hx) ?_
  rintro st1 b1 stop - - rfl
  refine .ite (fun _ => .pure ⟨rfl, fun y pv h => Or.inl h⟩) (fun _ => ?_)
  refine .bind hW (.lift (Q := fun st' _ p => st' = false ∧ p = anc.filter (fun y => decide (x < y))) (a := anc.filter (fun y => decide (x < y))) ?_ ⟨rfl, rfl⟩) ?_
  · rw [hn]; exact hpe
  rintro st1 b1 path - - ⟨rfl, rfl⟩
  refine .bind hW (inspectAll_sv hW hv _ prev _ (inspectList_sorted hps) ?_ (fun y _ pv h => hp y pv h)) ?_
  · intro y hy
    have := inspectList_sub hy
    have hra : RightAnc n x y := by
      rw [← e, rightAnc_iff hAt, e]
      rw [List.mem_filter] at this
      simpa using this
    exact ⟨hra.lt_n, hm y hra⟩
  · rintro st1 b1 ⟨done, prev'⟩ - - ⟨rfl, h⟩
    exact .ite (fun _ => .pure ⟨rfl, h⟩) (fun _ => .ite (fun _ => .pure ⟨rfl, h⟩) (fun _ => .pure ⟨rfl, h⟩))

theorem contactLoop_sv {m : Monitor} (hn : m.treeSize = n) (hW : ∀ x v, ¬ W (.search x v true))
    (hts : ∀ x, x < n → W (.ts x)) : ∀ (rest prev ptrs : PMap) (b : Bool), rest.Pairwise (fun a b => a.1 > b.1) →
    (∀ e ∈ rest, e.1 < n ∧ e.2 < 2 ^ 31 - 1 ∧ ∀ y, RightAnc n e.1 y → (e.2 : Int) ≤ g y ∧ W (.monitor y e.2)) →
    rest.Pairwise (fun a b => a.2 > b.2) → (∀ e ∈ rest, ∀ y pv, prev.lookup y = some pv → e.2 < pv) →
    Sv ts g n W false b (contactLoop m rest prev ptrs) (fun st' _ _ => st' = false) := by
  intro rest
  induction rest with
  | nil => intro prev ptrs b _ _ _ _; unfold contactLoop; exact .pure rfl
  | cons e rest ih =>
    obtain ⟨x, ver⟩ := e
    intro prev ptrs b hs hn' hv hp
    rw [List.pairwise_cons] at hs
    obtain ⟨k1, k2, k3⟩ := hn' (x, ver) (by simp)
    unfold contactLoop
    refine .bind hW (contactMonitor1_sv hn hW hts k1 k2 k3 (fun y pv h => hp (x, ver) (by simp) y pv h)) ?_
    rintro st1 b1 ⟨u, prev'⟩ - - ⟨rfl, h⟩
    have key : ∀ ptrs', Sv ts g n W false b1 (contactLoop m rest prev' ptrs') (fun st' _ _ => st' = false) := by
      intro ptrs'
      refine ih _ _ _ hs.2 (fun e he => hn' e (by simp [he])) (List.pairwise_cons.1 hv).2 ?_
      intro e he y pv hy
      rcases h y pv hy with h | h
      · exact hp e (by simp [he]) y pv h
      · rw [h]; exact (List.pairwise_cons.1 hv).1 e he
    cases u with
    | none => exact key _
    | some y => exact key _

/-! ### owner monitoring -/

theorem expectLadder_sv {x : Nat} {b : Bool} (hx : x < n) (hv : g x < 2 ^ 31 - 1) (hW : ∀ x v, ¬ W (.search x v true))
    (hs : W (.search x (g x).toNat false)) : Sv ts g n W false b (expectLadder x (g x) false) (fun st' _ _ => st' = false) := by
  unfold expectLadder
  refine .ite (fun h0 => ?_) (fun h0 => ?_)
  · have e : (g x).toNat = 0 := by omega
    rw [e] at hs
    refine .bind hW (.search hx (by omega) hs) ?_
    rintro st1 b1 a - - ⟨rfl, rfl⟩
    refine .ite (fun h => absurd ?_ h) (fun _ => .pure rfl)
    rw [if_pos (by omega)]
  · have e : (g x).toNat % 2 ^ 32 = (g x).toNat := Nat.mod_eq_of_lt (by omega)
    rw [e]
    refine .bind hW (.search hx (by omega) hs) ?_
    rintro st1 b1 a - - ⟨rfl, rfl⟩
    refine .ite (fun h => absurd ?_ h) (fun _ => .pure rfl)
    rw [if_neg (by omega), if_neg (by omega)]

theorem expectLadder_proves {x : Nat} {v : Int} {om : Bool} {tr : List Ev} {r : G Unit} (h : Runs (expectLadder x v om) tr r) :
    tr.any (fun e => e.q.proves) = true := by
  unfold expectLadder at h
  rw [runs_ite] at h
  rcases h with ⟨-, h⟩ | ⟨-, h⟩
  all_goals
    change Runs (.op _ _) tr r at h
    cases h with
    | op a h => simp [Req.proves]

/-- The owner knows the versions up to `gv`, and what it expects is right. -/
structure OwnerInv (g : Nat → Int) (gv : Int) (o : Owner) : Prop where
  wf : o.WF
  right : ∀ y, o.starting ≤ y → o.versionAt y = min (g y) gv
  known : g o.starting ≤ gv

theorem OwnerInv.set {gv : Int} {o : Owner} (h : OwnerInv g gv o) {x : Nat} (hx : o.starting ≤ x) (hg : g x ≤ gv) :
    OwnerInv g gv (o.setStarting x) :=
  ⟨setStarting_WF h.wf x, fun y hy => by
    have hy' : x ≤ y := hy
    rw [setStarting_versionAt h.wf hy']; exact h.right y (by omega), hg⟩

theorem setStarting_self {o : Owner} (h : o.WF) : o.setStarting o.starting = o := by
  unfold Owner.setStarting
  have h0 : bsearch o.upcoming (o.starting + 1) = 0 := by
    rw [bsearch_count h.1, List.countP_eq_zero]
    intro u hu
    have := h.2 u hu
    simp only [decide_eq_true_eq]; omega
  simp only [h0, List.drop_zero]
  obtain ⟨a, b, c⟩ := o
  simp

theorem setStarting_twice {o : Owner} (h : o.WF) {x y : Nat} (hxy : x ≤ y) : (o.setStarting x).setStarting y = o.setStarting y := by
  have hd : (o.upcoming.drop (bsearch o.upcoming (x + 1))).Pairwise (· ≤ ·) := h.1.sublist (List.drop_sublist _ _)
  have hsplit : bsearch o.upcoming (y + 1) = bsearch o.upcoming (x + 1) +
      bsearch (o.upcoming.drop (bsearch o.upcoming (x + 1))) (y + 1) := by
    obtain ⟨h1, h2, -⟩ := bsearch_spec (t := x + 1) h.1
    rw [bsearch_count hd, bsearch_count h.1 (y := y)]
    conv_lhs => rw [← List.take_append_drop (bsearch o.upcoming (x + 1)) o.upcoming]
    rw [List.countP_append]
    congr 1
    rw [List.countP_eq_length.2 (fun u hu => by have := h2 u hu; simp only [decide_eq_true_eq]; omega), List.length_take]
    omega
  unfold Owner.setStarting
  simp only [List.drop_drop, hsplit]
  congr 1
  push_cast
  omega

theorem ownerWalk_sv {cfg : Config} {gv : Int} {s : Nat} (hgv : gv < 2 ^ 31 - 1) (hmono : ∀ x y, x ≤ y → g x ≤ g y)
    (hW : ∀ x v, ¬ W (.search x v true)) (hts : ∀ x, x < n → W (.ts x)) (hst : ∀ x v, W (.stop x v))
    (hse : ∀ x, s < x → x < n → g x ≤ gv → W (.search x (g x).toNat false)) :
    ∀ (fuel lo hi : Nat) (anc : List Nat) (l r : Nat) (o : Owner) (b : Bool), At n lo hi anc → hi - lo < fuel → OwnerInv g gv o → s ≤ o.starting →
    Sv ts g n W false b (ownerWalk cfg n fuel (rt lo hi) l r o)
      (fun st' b' o' => OwnerInv g gv o' ∧ o.starting ≤ o'.starting ∧ (o'.starting = o.starting ∨ o'.starting < hi) ∧
        o' = o.setStarting o'.starting ∧ (st' = true → b' = true ∨ ∃ z < hi, gv < g z)) := by
  intro fuel
  induction fuel with
  | zero => intro lo hi anc l r o b h hf; omega
  | succ fuel ih =>
    intro lo hi anc l r o b h hf ho hs
    have hb := h.bounds
    have hright : ¬ noRightChild (rt lo hi) n = true → ∀ (o1 : Owner) (b1 : Bool), OwnerInv g gv o1 → s ≤ o1.starting →
        Sv ts g n W false b1 (do
          let timestamp ← getTs (rt lo hi)
          let c ← lift (right (rt lo hi) n)
          ownerWalk cfg n fuel c timestamp r o1)
          (fun st' b' o' => OwnerInv g gv o' ∧ o1.starting ≤ o'.starting ∧ (o'.starting = o1.starting ∨ o'.starting < hi) ∧
            o' = o1.setStarting o'.starting ∧ (st' = true → b' = true ∨ ∃ z < hi, gv < g z)) := by
      intro hnr o1 b1 ho1 hs1
      have hne : rt lo hi + 1 < hi := by
        by_contra hcon
        exact hnr ((noRightChild_iff h).2 (by omega))
      refine .bind hW (.getTs (by omega) (hts _ (by omega))) ?_
      rintro st1 b2 t - - ⟨rfl, rfl⟩
      refine .bind hW (.lift (Q := fun st' _ c => st' = false ∧ c = rt (rt lo hi + 1) hi) (right_rt h (by omega)) ⟨rfl, rfl⟩) ?_
      rintro st2 b3 c - - ⟨rfl, rfl⟩
      exact ih (rt lo hi + 1) hi _ _ _ o1 _ (.right h (by omega)) (by omega) ho1 hs1
    unfold ownerWalk
    refine .ite (fun _ => .pure ⟨ho, le_refl _, .inl rfl, (setStarting_self ho.wf).symm, (fun h => by cases h)⟩) (fun _ => ?_)
    refine .ite (fun hle => ?_) (fun hgt => ?_)
    · exact .ite (fun _ => .pure ⟨ho, le_refl _, .inl rfl, (setStarting_self ho.wf).symm, (fun h => by cases h)⟩) (fun hnr => hright hnr o b ho hs)
    · refine .bind hW (Q := fun st' b' o' => OwnerInv g gv o' ∧ o.starting ≤ o'.starting ∧ o'.starting < rt lo hi ∧
        o' = o.setStarting o'.starting ∧ (st' = true → b' = true ∨ ∃ z < rt lo hi, gv < g z)) ?_ ?_
      · refine .ite (fun _ => .pure ⟨ho, le_refl _, by omega, (setStarting_self ho.wf).symm, (fun h => by cases h)⟩) (fun hnl => ?_)
        have hne : lo < rt lo hi := by
          by_contra hcon
          exact hnl ((noLeftChild_iff h).2 (by omega))
        refine .bind hW (.getTs (by omega) (hts _ (by omega))) ?_
        rintro st1 b2 t - - ⟨rfl, rfl⟩
        refine .bind hW (.lift (Q := fun st' _ c => st' = false ∧ c = rt lo (rt lo hi)) (a := rt lo (rt lo hi)) (by rw [left_rt h, if_pos (by omega)]) ⟨rfl, rfl⟩) ?_
        rintro st2 b3 c - - ⟨rfl, rfl⟩
        refine (ih lo (rt lo hi) _ _ _ o _ (.left h (by omega)) (by omega) ho hs).imp ?_
        rintro st' b' o' - ⟨h1, h2, h3, h5, h4⟩
        exact ⟨h1, h2, by omega, h5, h4⟩
      · rintro st1 b1 o1 - - ⟨ho1, hle1, hlt1, heq1, hst1⟩
        have htw : ∀ y, o1.starting ≤ y → o1.setStarting y = o.setStarting y := by
          intro y hy
          rw [heq1, setStarting_twice ho.wf]
          exact hy
        have hga : o1.greatestAt (rt lo hi) = min (g (rt lo hi)) gv := by rw [greatestAt_eq ho1.wf, ho1.right _ (by omega)]
        refine .stop_bind (hst _ _) ?_ ?_ ?_ ?_
        · intro h
          rcases hst1 h with h | ⟨z, hz, hgz⟩
          · exact .inl h
          · have := hmono z (rt lo hi) (by omega)
            exact .inr (by omega)
        · intro hc
          rw [if_pos rfl]
          refine .pure ⟨ho1, hle1, .inr (by omega), heq1, fun _ => ?_⟩
          rcases hc with h | h
          · exact .inl h
          · exact .inr ⟨rt lo hi, hb.2.1, by omega⟩
        · intro hc
          rw [if_neg (by simp)]
          have hle2 : g (rt lo hi) ≤ gv := by by_contra hcon; exact hc (.inr (by omega))
          have hge : o1.greatestAt (rt lo hi) = g (rt lo hi) := by omega
          rw [hge]
          refine .bind hW (expectLadder_sv (by omega) (by omega) hW (hse _ (by omega) (by omega) hle2)) ?_
          rintro st2 b2 u - - rfl
          refine .ite (fun _ => .pure ⟨ho1.set (by omega) hle2, ?_, .inr hb.2.1, htw _ (by omega), (fun h => by cases h)⟩) (fun hnr => ?_)
          · show o.starting ≤ rt lo hi
            omega
          · refine (hright hnr _ _ (ho1.set (by omega) hle2) (by show s ≤ rt lo hi; omega)).imp ?_
            rintro st' b' o' - ⟨k1, k2, k3, k5, k4⟩
            have k2' : rt lo hi ≤ o'.starting := k2
            have k3' : o'.starting = rt lo hi ∨ o'.starting < hi := k3
            refine ⟨k1, by omega, .inr (by omega), ?_, k4⟩
            rw [← htw _ (by omega), ← setStarting_twice ho1.wf k2']
            exact k5
        · intro hc tr r hr
          rw [if_neg (by simp)] at hr
          rcases runs_bind.1 hr with ⟨a, t1, t2, rfl, r1, r2⟩ | ⟨e, r1, -⟩
          · rw [List.any_append, expectLadder_proves r1]; rfl
          · exact expectLadder_proves r1

end

end Katie.Alg
