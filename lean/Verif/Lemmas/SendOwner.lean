import Verif.Lemmas.SendMonitor
import Verif.Lemmas.ServeMonitor

/-
How much the answer of the server to an owner monitoring request holds.
-/

namespace Katie.Alg
open Katie Katie.Wire Katie.Ladder Katie.Props Katie.SearchSpec Katie.SearchTree Prog

section
variable {n : Nat} {E : Nat → LogEntry} {db : ServerDB} {index : List Nat} {p p' : Provider Produced}

theorem getTs_run (hl : LogOf n E db) (ht : GoodTimes (fun x => (E x).timestamp) n) (hp : Held n E p) {x v : Nat}
    (h : p.run (Produced.handle db index) (getTs x) = (.ok v, p')) :
    Spent n E (fun y => y = x) 0 p p' ∧ p'.state.proofs.length = p.state.proofs.length := by
  have h1 := getTimestamp_spent (index := index) (A := fun y => y = x) hl ht hp rfl
  have e : p.getTimestamp (Produced.handle db index) x = (.ok v, p') := h
  rw [e] at h1
  refine ⟨h1, ?_⟩
  obtain ⟨new, e1, e2⟩ := h1.proofs
  rw [e1, List.length_append]
  omega

theorem getSearch_run (hl : LogOf n E db) (ht : GoodTimes (fun x => (E x).timestamp) n) (hp : Held n E p) {x v : Nat} {om : Bool} {r : Int}
    (h : p.run (Produced.handle db index) (getSearch x v om) = (.ok r, p')) :
    Spent n E (fun y => y = x) 1 p p' ∧ p'.state.proofs.length = p.state.proofs.length + 1 := by
  have h1 := answer_spent (index := index) hl ht hp (.search x v om)
  have e : p.getSearch (Produced.handle db index) x v om = (.ok r, p') := h
  have e' : p.answer (Produced.handle db index) (.search x v om) = (.ok r, p') := h
  rw [e'] at h1
  refine ⟨h1.mono (fun y hy => (Option.some.inj hy).symm) (by simp [Req.proves]), ?_⟩
  unfold Provider.getSearch at e
  split at e
  · cases e
  · rename_i w p2 hg
    have h2 := (getTs_run (index := index) (x := x) (v := w) hl ht hp hg).2
    simp only [Produced.handle, Produced.search] at e
    split at e
    · cases e
    · rename_i root res s hm
      unfold Provider.record at e
      split at e
      · cases e
      · obtain ⟨-, rfl⟩ := Prod.mk.inj e
        split at hm
        · cases hm
        · split at hm
          · cases hm
          · obtain ⟨-, rfl⟩ := Prod.mk.inj hm
            simp [h2]

theorem expectLadder_run (hl : LogOf n E db) (ht : GoodTimes (fun x => (E x).timestamp) n) (hp : Held n E p) {x : Nat} {v : Int} {om : Bool}
    (h : p.run (Produced.handle db index) (expectLadder x v om) = (.ok (), p')) :
    Spent n E (fun y => y = x) 1 p p' ∧ p'.state.proofs.length = p.state.proofs.length + 1 := by
  unfold expectLadder at h
  split at h
  · obtain ⟨r, q, h1, h2⟩ := Server.run_bind_ok h
    split at h2
    · cases h2
    · cases h2
      exact getSearch_run hl ht hp h1
  · obtain ⟨r, q, h1, h2⟩ := Server.run_bind_ok h
    split at h2
    · cases h2
    · cases h2
      exact getSearch_run hl ht hp h1

/-- the number of proofs recorded -/
abbrev Provider.len (p : Provider Produced) : Nat := p.state.proofs.length

theorem Spent.len {A : Nat → Prop} {k : Nat} (h : Spent n E A k p p') : p.len ≤ p'.len := by
  obtain ⟨new, e1, e2⟩ := h.proofs
  unfold Provider.len
  rw [e1, List.length_append]
  omega

/-- what a walk over the entries from `lo` to `hi` does: it asks about entries that it takes a proof from, and otherwise about
a path to the starting position and a path to where it stops -/
def WalkPost (n : Nat) (E : Nat → LogEntry) (index : List Nat) (gv : Int) (lo hi : Nat) (o : Owner) (p : Provider Produced) (o' : Owner)
    (p' : Provider Produced) : Prop :=
  OwnerInv (greatestAt index) gv o' ∧ (o'.starting = o.starting ∨ o'.starting < hi) ∧
    ∃ (T : List Nat) (s : Nat), Spent n E (fun y => y ∈ T) (p'.len - p.len) p p' ∧ p'.len ≤ max p.len 25 ∧
      T.length + p.len ≤ p'.len + s + (if lo ≤ o.starting then Nat.log2 (hi - lo) + 1 else 0) ∧ s ≤ Nat.log2 (hi - lo) + 1 ∧
      (s ≠ 0 → ∀ y, hi ≤ y → Produced.stop index y (o'.greatestAt y) p'.state = true)

theorem WalkPost.refl {gv : Int} {lo hi : Nat} {o : Owner} (h : OwnerInv (greatestAt index) gv o) : WalkPost n E index gv lo hi o p o p :=
  ⟨h, .inl rfl, [], 0, .refl, by omega, by simp only [List.length_nil]; omega, by omega, fun h => absurd rfl h⟩

theorem ownerWalk_few (hl : LogOf n E db) (ht : GoodTimes (fun x => (E x).timestamp) n) {cfg : Config} {gv : Int} :
    ∀ (fuel lo hi : Nat) (anc : List Nat) (l r : Nat) (o : Owner) (p : Provider Produced) (o' : Owner) (p' : Provider Produced),
    At n lo hi anc → Held n E p → OwnerInv (greatestAt index) gv o →
    p.run (Produced.handle db index) (ownerWalk cfg n fuel (rt lo hi) l r o) = (.ok o', p') → WalkPost n E index gv lo hi o p o' p' := by
  intro fuel
  induction fuel with
  | zero => intro lo hi anc l r o p o' p' h hp ho hr; cases hr
  | succ fuel ih =>
    intro lo hi anc l r o p o' p' h hp ho hr
    have hb := h.bounds
    obtain ⟨k1, k2⟩ := log2_spec (m := hi - lo) (by omega)
    have e : rt lo hi = lo + 2 ^ Nat.log2 (hi - lo) - 1 := rfl
    have e2 : 2 ^ (Nat.log2 (hi - lo) + 1) = 2 * 2 ^ Nat.log2 (hi - lo) := by ring
    have hlogr : rt lo hi + 1 < hi → Nat.log2 (hi - (rt lo hi + 1)) < Nat.log2 (hi - lo) := fun hr => log2_lt_of_lt_pow (by omega) (by omega)
    have hlogl : lo < rt lo hi → Nat.log2 (rt lo hi - lo) < Nat.log2 (hi - lo) := fun hr => log2_lt_of_lt_pow (by omega) (by omega)
    unfold ownerWalk at hr
    split at hr
    · cases hr; exact .refl ho
    split at hr
    · rename_i hle
      split at hr
      · cases hr; exact .refl ho
      · rename_i hnr
        have hlt : rt lo hi + 1 < hi := by
          by_contra hc
          exact hnr ((noRightChild_iff h).2 hc)
        obtain ⟨t, p1, r1, hr⟩ := Server.run_bind_ok hr
        obtain ⟨c, p2, r2, hr⟩ := Server.run_bind_ok hr
        rw [right_rt h hlt] at r2
        cases r2
        obtain ⟨s1, s2⟩ := getTs_run hl ht hp r1
        obtain ⟨i1, i2, T, s, i3, i4, i5, i6, i7⟩ := ih _ _ _ _ _ _ _ _ _ (.right h hlt) (s1.held hp) ho hr
        have hlg := hlogr hlt
        have hi3 := i3.len
        refine ⟨i1, i2, rt lo hi :: T, s, ?_, ?_, ?_, by omega, i7⟩
        · refine ((s1.mono (B := fun y => y ∈ rt lo hi :: T) (fun y hy => by rw [hy]; simp) (le_refl _)).trans
            (i3.mono (fun y hy => List.mem_cons_of_mem _ hy) (le_refl _))).mono (fun _ h => h) ?_
          simp only [Provider.len] at *
          omega
        · simp only [Provider.len] at *
          omega
        · rw [if_pos (by omega)]
          simp only [Provider.len, List.length_cons] at *
          split at i5 <;> omega
    · rename_i hgt
      obtain ⟨o1, p1, hleft, hr⟩ := Server.run_bind_ok hr
      -- the left part
      have left : OwnerInv (greatestAt index) gv o1 ∧ o1.starting < rt lo hi ∧ ∃ (T : List Nat) (s : Nat),
          Spent n E (fun y => y ∈ rt lo hi :: T) (p1.len - p.len) p p1 ∧ p1.len ≤ max p.len 25 ∧
          T.length + p.len ≤ p1.len + s + (if lo ≤ o.starting then Nat.log2 (hi - lo) else 0) ∧ s ≤ Nat.log2 (hi - lo) ∧
          (s ≠ 0 → ∀ y, rt lo hi ≤ y → Produced.stop index y (o1.greatestAt y) p1.state = true) := by
        split at hleft
        · cases hleft
          exact ⟨ho, by omega, [], 0, .refl, by omega, by simp only [List.length_nil]; omega, by omega, fun h => absurd rfl h⟩
        · rename_i hnl
          have hlt : lo < rt lo hi := by
            have := mt (noLeftChild_iff h).2 hnl
            omega
          obtain ⟨t, q1, r1, hleft⟩ := Server.run_bind_ok hleft
          obtain ⟨c, q2, r2, hleft⟩ := Server.run_bind_ok hleft
          rw [left_rt h, if_pos hlt] at r2
          cases r2
          obtain ⟨s1, s2⟩ := getTs_run hl ht hp r1
          obtain ⟨i1, i2, T, s, i3, i4, i5, i6, i7⟩ := ih _ _ _ _ _ _ _ _ _ (.left h hlt) (s1.held hp) ho hleft
          have hlg := hlogl hlt
          have hi3 := i3.len
          refine ⟨i1, by omega, T, s, ?_, ?_, ?_, by omega, i7⟩
          · refine ((s1.mono (B := fun y => y ∈ rt lo hi :: T) (fun y hy => by rw [hy]; simp) (le_refl _)).trans
              (i3.mono (fun y hy => List.mem_cons_of_mem _ hy) (le_refl _))).mono (fun _ h => h) ?_
            simp only [Provider.len] at *
            omega
          · simp only [Provider.len] at *
            omega
          · simp only [Provider.len] at *
            split at i5
            · rw [if_pos (by assumption)]; omega
            · rw [if_neg (by assumption)]; omega
      obtain ⟨ho1, hst, T, s, l1, l2, l3, l4, l5⟩ := left
      have hp1 := l1.held hp
      have hl1 := l1.len
      obtain ⟨b, p2, r1, hr⟩ := Server.run_bind_ok hr
      obtain ⟨rfl, rfl⟩ : Produced.stop index (rt lo hi) (o1.greatestAt (rt lo hi)) p1.state = b ∧ p1 = p2 := by
        obtain ⟨h1, h2⟩ := Prod.mk.inj r1
        exact ⟨Except.ok.inj h1, h2⟩
      have hcap := ho1.right (rt lo hi) hst.le
      split at hr
      · rename_i hstop
        cases hr
        refine ⟨ho1, .inr (by omega), rt lo hi :: T, s + 1, l1, l2, ?_, by omega, fun _ y hy => ?_⟩
        · simp only [List.length_cons]
          by_cases hlo : lo ≤ o.starting
          · rw [if_pos hlo] at l3 ⊢; omega
          · rw [if_neg hlo] at l3 ⊢; omega
        · unfold Produced.stop at hstop ⊢
          rw [Bool.or_eq_true, decide_eq_true_eq, decide_eq_true_eq] at hstop ⊢
          rcases hstop with hstop | hstop
          · exact .inl hstop
          · right
            rw [greatestAt_eq ho1.wf] at hstop ⊢
            rw [hcap] at hstop
            have hm := greatestAt_mono index (rt lo hi) y (by omega)
            rw [ho1.right y (by omega)]
            omega
      · rename_i hstop
        have hs0 : s = 0 := by
          by_contra hc
          exact hstop (l5 hc _ (le_refl _))
        subst hs0
        unfold Produced.stop at hstop
        rw [Bool.or_eq_true, decide_eq_true_eq, decide_eq_true_eq, not_or] at hstop
        obtain ⟨q1, q2⟩ := hstop
        rw [greatestAt_eq ho1.wf, hcap] at q2
        have hset := ho1.set (x := rt lo hi) hst.le (by omega)
        obtain ⟨u, p2, r2, hr⟩ := Server.run_bind_ok hr
        obtain ⟨m1, m2⟩ := expectLadder_run hl ht hp1 r2
        have hp2 := m1.held hp1
        have m1' : Spent n E (fun y => y ∈ rt lo hi :: T) 1 p1 p2 := m1.mono (fun y hy => by rw [hy]; simp) (le_refl _)
        split at hr
        · cases hr
          refine ⟨hset, .inr (by show rt lo hi < hi; omega), rt lo hi :: T, 0, (l1.trans m1').mono (fun _ h => h) ?_, ?_, ?_, by omega, fun h => absurd rfl h⟩
          · simp only [Provider.len] at *
            omega
          · simp only [Provider.len] at *
            omega
          · simp only [Provider.len, List.length_cons] at *
            by_cases hlo : lo ≤ o.starting
            · rw [if_pos hlo] at l3 ⊢; omega
            · rw [if_neg hlo] at l3 ⊢; omega
        · rename_i hnr
          have hlt : rt lo hi + 1 < hi := by
            by_contra hc
            exact hnr ((noRightChild_iff h).2 hc)
          obtain ⟨t, p3, r3, hr⟩ := Server.run_bind_ok hr
          obtain ⟨c, p4, r4, hr⟩ := Server.run_bind_ok hr
          rw [right_rt h hlt] at r4
          cases r4
          obtain ⟨s1, s2⟩ := getTs_run hl ht hp2 r3
          obtain ⟨i1, i2, T2, s', i3, i4, i5, i6, i7⟩ := ih _ _ _ _ _ _ _ _ _ (.right h hlt) (s1.held hp2) hset hr
          have hlg := hlogr hlt
          have hi3 := i3.len
          have hss : (o1.setStarting (rt lo hi)).starting = rt lo hi := rfl
          rw [hss, if_neg (by omega)] at i5
          refine ⟨i1, .inr (by omega), rt lo hi :: T ++ T2, s', ?_, ?_, ?_, by omega, i7⟩
          · refine ((((l1.trans m1').mono (B := fun y => y ∈ rt lo hi :: T ++ T2) (fun y hy => List.mem_append_left _ hy) (le_refl _)).trans
              (s1.mono (fun y hy => by rw [hy]; simp) (le_refl _))).trans (i3.mono (fun y hy => List.mem_append_right _ hy) (le_refl _))).mono (fun _ h => h) ?_
            simp only [Provider.len] at *
            omega
          · simp only [Provider.len] at *
            omega
          · simp only [Provider.len, List.length_cons, List.length_append] at *
            by_cases hlo : lo ≤ o.starting
            · rw [if_pos hlo] at l3 ⊢; omega
            · rw [if_neg hlo] at l3 ⊢; omega

end
end Katie.Alg

namespace Katie.Alg
open Katie Katie.Wire Katie.Ladder Katie.Props Katie.SearchSpec Katie.SearchTree Prog

theorem expectLadder_plain {x : Nat} {v : Int} : Always Plain (expectLadder x v false) := by
  unfold expectLadder
  split
  · exact .bind (.call ⟨by decide, rfl⟩) fun _ => .ite .ret .ret
  · exact .bind (.call ⟨Nat.mod_lt _ (by decide), rfl⟩) fun _ => .ite .ret .ret

theorem ownerWalk_plain {cfg : Config} {n : Nat} : ∀ fuel x l r o, Always Plain (ownerWalk cfg n fuel x l r o)
  | 0, _, _, _, _ => trivial
  | fuel + 1, x, l, r, o => by
    unfold ownerWalk
    refine .ite .ret (.ite (.ite .ret (.bind (.call trivial) fun _ => .bind .ret fun _ => ownerWalk_plain ..)) (.bind
      (.ite .ret (.bind (.call trivial) fun _ => .bind .ret fun _ => ownerWalk_plain ..)) fun o1 => .bind (.call trivial) fun b => ?_))
    exact .ite .ret (.bind expectLadder_plain fun _ => .ite .ret (.bind (.call trivial) fun _ => .bind .ret fun _ => ownerWalk_plain ..))

theorem ownerMonitor_plain {m : Monitor} : Always Plain (Alg.ownerMonitor m) := by
  unfold Alg.ownerMonitor
  split
  · exact .ret
  · exact .bind (ownerWalk_plain ..) fun _ => .ret

end Katie.Alg

namespace Katie.Server
open Katie Katie.Wire Katie.Alg Katie.Ladder Katie.Props Katie.SearchSpec Katie.SearchTree Katie.PrefixSpec Katie.ServedSpec Prog

section
variable {env : Env} {bs : List Batch} {n : Nat} {E : Nat → LogEntry} {t : Tree}

/-- The state that an accepted request describes is right. -/
theorem ownerState_knows {index : List Nat} (hs : index.Pairwise (· ≤ ·)) {req : OwnerMonitorRequest} {o : Owner}
    (h : ownerState index n req = .ok o) : OwnerKnows index n o.starting o.verAtStarting o.upcoming := by
  unfold ownerState at h
  split at h
  · cases h
  rename_i h1
  split at h
  · cases h
  simp only at h
  rw [apply_ite (· = Except.ok o)] at h
  split at h
  · cases h
  have key : ∀ last : Int, ((if last < 0 ∨ last > ((⟨0, -1, index⟩ : Owner).setStarting req.start).upcoming.length then goPanic "slice bounds out of range"
      else pure { (⟨0, -1, index⟩ : Owner).setStarting req.start with
        upcoming := ((⟨0, -1, index⟩ : Owner).setStarting req.start).upcoming.take last.toNat } : G Owner) = .ok o) →
      OwnerKnows index n o.starting o.verAtStarting o.upcoming := by
    intro last h
    split at h
    · cases h
    cases h
    refine ⟨by show req.start < n; omega, ?_, ?_⟩
    · simp only [Owner.setStarting, bsearch_count hs]
      omega
    · simp only [Owner.setStarting]
      have : (((bsearch index (req.start + 1) : Nat) : Int) + -1 + 1).toNat = bsearch index (req.start + 1) := by omega
      rw [this]
      exact List.take_prefix _ _
  exact key _ h

/-- How much the answer to an owner monitoring request holds. -/
theorem ownerMonitor_holds (hl : Live env bs n E t) {now : Nat} {req : OwnerMonitorRequest}
    (hi : ∀ index, getIndex t.tx req.label = .ok index → index.length ≤ 2 ^ 32)
    {res : MonitorResponse} (hres : ownerMonitor env now t req = .ok res) :
    (∃ h, fullTreeHead t req.last = .ok h ∧ res.fullTreeHead = h.fth) ∧
    Holds env.cs n ((req.entries.length + 5) * Nat.log2 n + 30) (max (req.entries.length * Nat.log2 n) 25) 62 res.monitor := by
  unfold ownerMonitor at hres
  obtain ⟨op, k1, hres⟩ := G.bind_eq_ok.1 hres
  have h0 := startMonitor_last k1
  obtain ⟨hw, hidx, hp, hv, hsz, -⟩ := (startMonitor_calm hl h0).2 op k1
  obtain ⟨hd, S, hS, hf⟩ := startMonitor_fetched hl h0 k1
  obtain ⟨ptrs, k2, hres⟩ := G.bind_eq_ok.1 hres
  obtain ⟨o, ko, hres⟩ := G.bind_eq_ok.1 hres
  simp only at hres
  obtain ⟨⟨m', p3⟩, k3, hres⟩ := G.bind_eq_ok.1 hres
  obtain ⟨⟨m2, p4⟩, k5, hres⟩ := G.bind_eq_ok.1 hres
  obtain ⟨⟨fth, proof⟩, k4, hres⟩ := G.bind_eq_ok.1 hres
  cases hres
  rw [hw.size] at k2 ko
  obtain ⟨index, hi1, hi3, hi2⟩ := hl.index req.label
  have hie : index = op.index := Except.ok.inj (hi1.symm.trans hidx)
  subst hie
  have hlen := hi _ hi1
  have hlp := verifyEntries_length k2
  obtain ⟨e1, e2⟩ := (verifyEntries_calm hi2).2 ptrs k2
  obtain ⟨S2, c1, c2⟩ := contactMonitor_costs (m := { op.monitor with contact := some ptrs, owner := some o }) (c := ptrs) rfl
    (fun e he => by simp only [hsz]; exact (e1 e he).1)
  have hpl : Always Plain (Alg.contactMonitor { op.monitor with contact := some ptrs, owner := some o }) :=
    contactMonitor_plain rfl (fun e he => by have := (e1 e he).2; omega)
  have hts : ({ op.monitor with contact := some ptrs, owner := some o } : Monitor).treeSize = n := hsz
  rw [hts] at c1 c2
  have hmul : ptrs.length * Nat.log2 n ≤ req.entries.length * Nat.log2 n := Nat.mul_le_mul_right _ hlp
  have h3 := (hf.run hl (S' := S ++ S2) (fun x hx => by simp [hx]) (c2 (S ++ S2) (fun x hx => by simp [hx])) hpl k3).1
  -- the owner's part
  obtain ⟨hm1, hm2⟩ : m'.owner = some o ∧ m'.treeSize = n := by
    have hr := k3
    unfold runOn handleFor at hr
    split at hr
    · cases hr
    rename_i a' q hrun
    cases hr
    unfold Alg.contactMonitor at hrun
    obtain ⟨c, q', -, hrun⟩ := run_bind_ok hrun
    cases hrun
    exact ⟨rfl, hsz⟩
  have hr := k5
  unfold runOn handleFor at hr
  split at hr
  · cases hr
  rename_i a' q hrun
  cases hr
  have hsr := run_plain (db := serverDB env t.tx) (index := op.index) (ownerMonitor_plain (m := m')) p3 h3.short
  have hst := (run_steady (index := op.index) hl.log (Alg.ownerMonitor m') h3.steady).1
  have hve := run_versions (db := serverDB env t.tx) (index := op.index) (Alg.ownerMonitor m') p3
  rw [hrun] at hsr hst hve
  unfold Alg.ownerMonitor at hrun
  rw [hm1] at hrun
  simp only at hrun
  obtain ⟨o', q', hwalk, hrun⟩ := run_bind_ok hrun
  cases hrun
  rw [hm2, root_eq hl.honest.pos] at hwalk
  have hknow := ownerState_knows hi3 ko
  obtain ⟨-, -, T, s, w1, w2, w3, w4, -⟩ := ownerWalk_few hl.log hl.honest.times _ _ _ _ _ _ _ _ _ _ (.root hl.honest.pos) h3.steady.agrees.ts
    (ownerInv_of hi3 hknow) hwalk
  obtain ⟨⟨fk, g1, g2⟩, -, g4, -⟩ := h3
  have hz : p3.len ≤ ptrs.length * Nat.log2 n := by
    obtain ⟨new, n1, n2⟩ := g2.proofs
    unfold Provider.len
    have hf0 : (retainedTables ({} : Produced) E [] fk).state.proofs = [] := g1.proofs
    rw [n1, hf0, List.nil_append]
    omega
  rw [Nat.sub_zero] at w3 w4
  have hl' := w1.len
  have hfin : Fetched n E (S ++ S2 ++ T) (max (req.entries.length * Nat.log2 n) 25) p4 := by
    refine ⟨⟨fk, g1, ?_⟩, hst, hve.trans g4, hsr⟩
    have tr := (g2.mono (B := fun x => x ∈ S ++ S2 ++ T) (fun x hx => List.mem_append_left _ hx) (le_refl _)).trans
      (w1.mono (fun x hx => List.mem_append_right _ hx) (le_refl _))
    have hf0 : (retainedTables ({} : Produced) E [] fk).state.proofs = [] := g1.proofs
    exact ⟨tr.ts, ⟨p4.state.proofs, by rw [hf0, List.nil_append], by simp only [Provider.len] at *; omega⟩, tr.roots, tr.logEntries⟩
  obtain ⟨r1, r2⟩ := finishMonitor_holds hl (op := { op with monitor := { m' with owner := some o' }, provider := p4 }) hw.size hfin
    (T := (req.entries.length + 5) * Nat.log2 n + 30) (P := max (req.entries.length * Nat.log2 n) 25)
    (by
      rw [List.length_append, List.length_append, Nat.add_mul]
      split at w3 <;> omega) (le_refl _) k4
  exact ⟨⟨_, hd, r1⟩, r2⟩

end
end Katie.Server
