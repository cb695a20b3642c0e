import Verif.Lemmas.MonitorCount
import Verif.Lemmas.ContactState
import Verif.Lemmas.Sendable

/-
How much the answer of the server to a monitoring request holds.
-/

namespace Katie.Alg
open Katie Katie.Wire Katie.Ladder Katie.Props Katie.SearchSpec Katie.SearchTree Prog

/-! ### paths -/

/-- each step down the search tree halves the range -/
theorem At.depth {n lo hi : Nat} {anc : List Nat} (h : At n lo hi anc) : anc.length + Nat.log2 (hi - lo) ≤ Nat.log2 n := by
  induction h with
  | root => simp
  | @left lo hi anc h hl ih =>
    have hb := h.bounds
    obtain ⟨k1, k2⟩ := log2_spec (m := hi - lo) (by omega)
    have e : rt lo hi = lo + 2 ^ Nat.log2 (hi - lo) - 1 := rfl
    have : Nat.log2 (rt lo hi - lo) < Nat.log2 (hi - lo) := log2_lt_of_lt_pow (by omega) (by omega)
    simp only [List.length_cons]
    omega
  | @right lo hi anc h hr ih =>
    have hb := h.bounds
    obtain ⟨k1, k2⟩ := log2_spec (m := hi - lo) (by omega)
    have e : rt lo hi = lo + 2 ^ Nat.log2 (hi - lo) - 1 := rfl
    have e2 : 2 ^ (Nat.log2 (hi - lo) + 1) = 2 * 2 ^ Nat.log2 (hi - lo) := by ring
    have : Nat.log2 (hi - (rt lo hi + 1)) < Nat.log2 (hi - lo) := log2_lt_of_lt_pow (by omega) (by omega)
    simp only [List.length_cons]
    omega

/-- the way down to an entry leads over its ancestors -/
theorem on_path {n lo hi lo' hi' : Nat} {anc A : List Nat} (h : At n lo hi anc) (hA : At n lo' hi' A)
    (h1 : lo ≤ rt lo' hi') (h2 : rt lo' hi' < hi) : rt lo hi = rt lo' hi' ∨ rt lo hi ∈ A := by
  rcases lt_trichotomy (rt lo' hi') (rt lo hi) with hx | hx | hx
  · right
    obtain ⟨l2, r2, a2, g1, g2, g3⟩ := exists_at_under (rt lo hi) _ _ _ _ (le_refl _) (.left h (by omega)) List.mem_cons_self _ h1 hx
    rw [anc_unique g1 hA g2] at g3
    exact g3
  · exact .inl hx.symm
  · right
    obtain ⟨l2, r2, a2, g1, g2, g3⟩ := exists_at_under (rt lo hi) _ _ _ _ (le_refl _) (.right h (by omega)) List.mem_cons_self _ hx h2
    rw [anc_unique g1 hA g2] at g3
    exact g3

/-! ### what the algorithms ask for -/

theorem distAncLoop_costs {m : Monitor} {lo' hi' : Nat} {A S : List Nat} (hA : At m.treeSize lo' hi' A) (hS : ∀ y ∈ A, y ∈ S) :
    ∀ (fuel lo hi : Nat) (anc : List Nat) (l r : Nat) (acc : Option Nat), At m.treeSize lo hi anc → lo ≤ rt lo' hi' → rt lo' hi' < hi →
    Costs S 0 0 (distAncLoop m (rt lo' hi') fuel (rt lo hi) l r acc) (fun _ => True) := by
  intro fuel
  induction fuel with
  | zero => intro lo hi anc l r acc h h1 h2; exact .ret _ (by rintro _ ⟨⟩)
  | succ fuel ih =>
    intro lo hi anc l r acc h h1 h2
    have hb := h.bounds
    unfold distAncLoop
    refine .ite (fun _ => .pure trivial) (fun _ => ?_)
    simp only []
    refine .ite (fun _ => .pure trivial) (fun hne => ?_)
    refine (Costs.bind (j := 0) (k := 0) (j' := 0) (k' := 0) (.getTs (hS _ ((on_path h hA h1 h2).resolve_left hne))) (fun t _ => ?_)).mono (by omega) (by omega) (fun _ h => h)
    refine .ite (fun hgt => .lift_bind (fun c hc => ?_)) (fun hgt => .lift_bind (fun c hc => ?_))
    · rw [left_rt h, if_pos (by omega)] at hc
      cases hc
      exact ih _ _ _ _ _ _ (.left h (by omega)) h1 (by omega)
    · rw [right_rt h (by omega)] at hc
      cases hc
      exact ih _ _ _ _ _ _ (.right h (by omega)) (by omega) h2

theorem inspectAll_costs {ver : Nat} {S : List Nat} : ∀ (L : List Nat) (prev : PMap), (∀ y ∈ L, y ∈ S) →
    Costs S 0 L.length (inspectAll ver L prev) (fun _ => True) := by
  intro L
  induction L with
  | nil => intro prev _; exact .pure trivial
  | cons y L ih =>
    intro prev hL
    unfold inspectAll
    split
    · exact .ite (fun _ => .fail) (fun _ => .pure trivial)
    · exact (Costs.bind (j := 0) (k := 1) (Costs.call (q := .monitor y ver) (by rintro x ⟨⟩; exact hL y (by simp))
        |>.mono (le_refl _) (by simp [Req.proves]) (fun _ h => h)) (fun _ _ => ih _ (fun z hz => hL z (by simp [hz])))).mono (by omega)
        (by simp only [List.length_cons]; omega) (fun _ h => h)

theorem inspectList_length {stop : Option Nat} {skip : Bool} : ∀ {l : List Nat}, (inspectList stop skip l).length ≤ l.length
  | [] => by simp [inspectList]
  | p :: l => by
    unfold inspectList
    split
    · split <;> simp
    · simpa using inspectList_length

theorem contactMonitor1_costs {m : Monitor} {lo' hi' ver : Nat} {A S : List Nat} {prev : PMap} (hA : At m.treeSize lo' hi' A) (hS : ∀ y ∈ A, y ∈ S) :
    Costs S 0 A.length (contactMonitor1 m (rt lo' hi') ver prev) (fun _ => True) := by
  have hn := hA.pos
  have hb := hA.bounds
  unfold contactMonitor1 distinguishedAncestor
  rw [root_eq hn]
  refine (Costs.bind (j := 0) (k := 0) (j' := 0) (k' := A.length) (distAncLoop_costs hA hS _ _ _ _ _ _ _ (.root hn) (by omega) (by omega))
    (fun stop _ => ?_)).mono (by omega) (by omega) (fun _ h => h)
  refine .ite (fun _ => .pure trivial) (fun _ => ?_)
  rw [rightDirectPath_eq hA]
  refine .lift_bind (fun path hp => ?_)
  cases hp
  simp only []
  refine (Costs.bind (j := 0) (j' := 0) (k' := 0) (inspectAll_costs _ _ (fun y hy => hS y (List.mem_filter.1 (inspectList_sub hy)).1)) ?_).mono (by omega)
    ((Nat.add_zero _).trans_le (inspectList_length.trans (List.length_filter_le ..))) (fun _ h => h)
  rintro ⟨done, prev'⟩ -
  exact .ite (fun _ => .pure trivial) (fun _ => .ite (fun _ => .pure trivial) (fun _ => .pure trivial))

theorem contactLoop_costs {m : Monitor} : ∀ (c : PMap), (∀ e ∈ c, e.1 < m.treeSize) →
    ∃ S : List Nat, S.length ≤ c.length * Nat.log2 m.treeSize ∧ ∀ S' : List Nat, (∀ y ∈ S, y ∈ S') → ∀ prev ptrs,
      Costs S' 0 (c.length * Nat.log2 m.treeSize) (contactLoop m c prev ptrs) (fun _ => True) := by
  intro c
  induction c with
  | nil => intro _; exact ⟨[], by simp, fun S' _ prev ptrs => .pure trivial⟩
  | cons e c ih =>
    intro h
    obtain ⟨S, h1, h2⟩ := ih (fun e' he' => h e' (by simp [he']))
    obtain ⟨x, ver⟩ := e
    have hx : x < m.treeSize := h (x, ver) (by simp)
    obtain ⟨lo, hi, A, hAt, rfl⟩ := exists_at m.treeSize 0 m.treeSize [] (by omega) (.root (by omega)) x (by omega) hx
    have hd := At.depth hAt
    refine ⟨A ++ S, by simp only [List.length_append, List.length_cons, Nat.succ_mul]; omega, fun S' hS' prev ptrs => ?_⟩
    unfold contactLoop
    refine (Costs.bind (j := 0) (j' := 0) (k' := c.length * Nat.log2 m.treeSize) (contactMonitor1_costs hAt (fun y hy => hS' y (by simp [hy]))) ?_).mono
      (by omega) (by simp only [List.length_cons, Nat.succ_mul]; omega) (fun _ h => h)
    rintro ⟨u, prev'⟩ -
    cases u with
    | none => exact h2 S' (fun y hy => hS' y (by simp [hy])) _ _
    | some y => exact h2 S' (fun y hy => hS' y (by simp [hy])) _ _

theorem sortDesc_length {c : PMap} : (sortDesc c).length = c.length := by
  have hins : ∀ (e : Nat × Nat) (l : PMap), (insertDesc e l).length = l.length + 1 := by
    intro e l
    induction l with
    | nil => rfl
    | cons f l ih =>
      unfold insertDesc
      split
      · rfl
      · simp [ih]
  unfold sortDesc
  induction c with
  | nil => rfl
  | cons e c ih => rw [List.foldr_cons, hins, ih]; rfl

theorem contactMonitor_costs {m : Monitor} {c : PMap} (hc : m.contact = some c) (h : ∀ e ∈ c, e.1 < m.treeSize) :
    ∃ S : List Nat, S.length ≤ c.length * Nat.log2 m.treeSize ∧ ∀ S' : List Nat, (∀ y ∈ S, y ∈ S') →
      Costs S' 0 (c.length * Nat.log2 m.treeSize) (Alg.contactMonitor m) (fun _ => True) := by
  obtain ⟨S, h1, h2⟩ := contactLoop_costs (m := m) (sortDesc c) (fun e he => h e (mem_sortDesc.1 he))
  rw [sortDesc_length] at h1 h2
  refine ⟨S, h1, fun S' hS' => ?_⟩
  unfold Alg.contactMonitor
  rw [hc]
  exact (Costs.bind (j := 0) (j' := 0) (k' := 0) (h2 S' hS' _ _) (fun _ _ => .pure trivial)).mono (by omega) (by omega) (fun _ h => h)

/-! ### owner initialization -/

theorem initWalk_costs {m : Monitor} {lo' hi' : Nat} {A S : List Nat} (hA : At m.treeSize lo' hi' A) (hS : ∀ y ∈ rt lo' hi' :: A, y ∈ S) :
    ∀ (fuel lo hi : Nat) (anc : List Nat) (l r : Nat), At m.treeSize lo hi anc → lo ≤ rt lo' hi' → rt lo' hi' < hi →
    Costs S 0 0 (initWalk m (rt lo' hi') fuel (rt lo hi) l r) (fun xs => xs.length ≤ Nat.log2 (hi - lo) + 1 ∧ ∀ x ∈ xs, x ∈ S) := by
  intro fuel
  induction fuel with
  | zero => intro lo hi anc l r h h1 h2; exact .ret _ (by rintro _ ⟨⟩)
  | succ fuel ih =>
    intro lo hi anc l r h h1 h2
    have hb := h.bounds
    have hmem : rt lo hi ∈ S := hS _ (List.mem_cons.2 (on_path h hA h1 h2))
    obtain ⟨k1, k2⟩ := log2_spec (m := hi - lo) (by omega)
    have e : rt lo hi = lo + 2 ^ Nat.log2 (hi - lo) - 1 := rfl
    have e2 : 2 ^ (Nat.log2 (hi - lo) + 1) = 2 * 2 ^ Nat.log2 (hi - lo) := by ring
    unfold initWalk
    refine .ite (fun _ => .fail) (fun _ => (Costs.bind (j := 0) (k := 0) (j' := 0) (k' := 0) (.getTs hmem) (fun t _ => ?_)).mono (by omega) (by omega) (fun _ h => h))
    simp only []
    refine .ite (fun hlt => .ite (fun _ => .fail) (fun hnr => .lift_bind (fun c hc => ?_))) (fun _ => .ite (fun he => .ite (fun _ => .fail)
      (fun _ => .pure ⟨by simp, by simpa using hmem⟩)) (fun _ => .ite (fun _ => .fail) (fun hnl => .lift_bind (fun c hc => ?_))))
    · rw [right_rt h (by omega)] at hc
      cases hc
      have : Nat.log2 (hi - (rt lo hi + 1)) < Nat.log2 (hi - lo) := log2_lt_of_lt_pow (by omega) (by omega)
      refine (Costs.bind (j := 0) (k := 0) (j' := 0) (k' := 0) (ih _ _ _ _ _ (.right h (by omega)) (by omega) h2) (fun xs hxs => .pure ?_)).mono (by omega) (by omega) (fun _ h => h)
      split
      · exact ⟨by omega, hxs.2⟩
      · refine ⟨by simp; omega, fun x hx => ?_⟩
        rcases List.mem_append.1 hx with hx | hx
        · exact hxs.2 x hx
        · rw [List.mem_singleton.1 hx]; exact hmem
    · rw [left_rt h, if_pos (by omega)] at hc
      cases hc
      have : Nat.log2 (rt lo hi - lo) < Nat.log2 (hi - lo) := log2_lt_of_lt_pow (by omega) (by omega)
      exact (ih _ _ _ _ _ (.left h (by omega)) h1 (by omega)).mono (by omega) (by omega) (fun _ h => ⟨by omega, h.2⟩)

theorem initLadders_costs {S : List Nat} : ∀ {xs vs : List Nat}, (∀ x ∈ xs, x ∈ S) → Costs S 0 xs.length (initLadders xs vs) (fun _ => True)
  | [], _, _ => by unfold initLadders; exact .pure trivial
  | x :: xs, [], h => by
    unfold initLadders
    exact (Costs.bind (j := 0) (k := 1) (.getSearch (h x List.mem_cons_self)) (fun _ _ => .ite (fun _ => .fail)
      (fun _ => initLadders_costs (fun w hw => h w (List.mem_cons_of_mem _ hw))))).mono (by omega) (by simp only [List.length_cons]; omega) (fun _ h => h)
  | x :: xs, v :: vs, h => by
    unfold initLadders
    exact (Costs.bind (j := 0) (k := 1) (.getSearch (h x List.mem_cons_self)) (fun _ _ => .ite (fun _ => .fail)
      (fun _ => initLadders_costs (fun w hw => h w (List.mem_cons_of_mem _ hw))))).mono (by omega) (by simp only [List.length_cons]; omega) (fun _ h => h)

theorem initEntries_costs {m : Monitor} {start : Nat} (hx : start < m.treeSize) :
    ∃ S : List Nat, S.length ≤ Nat.log2 m.treeSize + 1 ∧ ∀ S' : List Nat, (∀ y ∈ S, y ∈ S') →
      Costs S' 0 0 (initEntries m start) (fun xs => xs.length ≤ Nat.log2 m.treeSize + 1) ∧
      ∀ vers, Costs S' 0 (Nat.log2 m.treeSize + 1) (Alg.ownerInit m start vers) (fun _ => True) := by
  obtain ⟨lo, hi, A, hAt, rfl⟩ := exists_at m.treeSize 0 m.treeSize [] (by omega) (.root (by omega)) start (by omega) hx
  have hd := At.depth hAt
  have hn := hAt.pos
  refine ⟨rt lo hi :: A, by simp; omega, fun S' hS' => ?_⟩
  have hw := initWalk_costs hAt hS' (m.treeSize + 1) 0 m.treeSize [] 0 m.rightmost (.root hn) (by omega) hx
  have hi : Costs S' 0 0 (initEntries m (rt lo hi)) (fun xs => xs.length ≤ Nat.log2 m.treeSize + 1 ∧ ∀ x ∈ xs, x ∈ S') := by
    unfold initEntries
    rw [root_eq hn]
    exact hw
  refine ⟨hi.mono (le_refl _) (le_refl _) (fun _ h => h.1), fun vers => ?_⟩
  unfold Alg.ownerInit
  refine .ite (fun _ => .fail) (fun _ => (Costs.bind (j := 0) (k := 0) (j' := 0) (k' := Nat.log2 m.treeSize + 1) hi (fun xs hxs => ?_)).mono (by omega) (by omega) (fun _ h => h))
  refine .ite (fun _ => .fail) (fun _ => .ite (fun _ => .fail) (fun _ => ?_))
  exact (Costs.bind (j := 0) (j' := 0) (k' := 0) (initLadders_costs hxs.2) (fun _ _ => .pure trivial)).mono (by omega) (by omega) (fun _ h => h)

theorem stays_result {α : Type} {n : Nat} {Q : α → Prop} {prog : Prog α} (h : Stays n Q prog) {tr : List Ev} {a : α} (hr : Runs prog tr (.ok a)) : Q a := by
  induction prog generalizing tr with
  | ret r =>
    obtain ⟨-, rfl⟩ := runs_ret.1 hr
    exact h a rfl
  | op q k ih =>
    cases hr with
    | op b hr => exact ih b (h.2 b) hr

/-! ### the versions of each prefix proof -/

/-- every request of the program satisfies `R`, whatever the answers -/
def Always (R : Req → Prop) {α : Type} : Prog α → Prop
  | .ret _ => True
  | .op q k => R q ∧ ∀ a, Always R (k a)

namespace Always
variable {R : Req → Prop} {α β : Type}

theorem bind {p : Prog α} {f : α → Prog β} (h : Always R p) (hf : ∀ a, Always R (f a)) : Always R (p >>= f) := by
  show Always R (Prog.bind p f)
  induction p with
  | ret r =>
    cases r with
    | ok a => exact hf a
    | error e => trivial
  | op q k ih => exact ⟨h.1, fun a => ih a (h.2 a)⟩

theorem call {q : Req} (h : R q) : Always R (Prog.call q) := ⟨h, fun _ => trivial⟩

theorem ret {r : G α} : Always R (.ret r : Prog α) := trivial

theorem ite {c : Prop} [Decidable c] {p q : Prog α} (h1 : Always R p) (h2 : Always R q) : Always R (if c then p else q) := by
  split
  · exact h1
  · exact h2

end Always

/-- a request of a monitoring algorithm: for a timestamp, or for a ladder without omissions -/
def Plain : Req → Prop
  | .search _ v om => v < 2 ^ 32 ∧ om = false
  | .monitor _ v => v < 2 ^ 32
  | .incl _ _ => False
  | _ => True

theorem base_some {v : Nat} {b : List Nat} (h : baseBinaryLadder v = .ok b) (hv : v < 2 ^ 32) : b.length ≤ 62 ∧ ∃ tl, b = 0 :: tl := by
  refine ⟨C55_ladder_length h hv, ?_⟩
  by_cases hb : v < 2 ^ 31 - 1
  · obtain ⟨l', h1, -, -, h4, -⟩ := baseBinaryLadder_ok hb
    rw [h] at h1
    cases h1
    exact List.head?_eq_some_iff.1 h4
  · exfalso
    have := C19_ladder_diverges (by omega : 2 ^ 31 - 1 ≤ v) hv 64
    unfold baseBinaryLadder at h
    rw [h] at this
    cases this

theorem searchLoop_sublist {t n : Nat} {a b : List Nat} : ∀ (l : List Nat), (searchLoop t n a b l).Sublist l
  | [] => by simp [searchLoop]
  | v :: l => by
    unfold searchLoop
    have ih := searchLoop_sublist (t := t) (n := n) (a := a) (b := b) l
    simp only
    split <;> split
    · simp
    · exact ih.cons_cons v
    · simp
    · exact ih.cons v

theorem run_plain {db : ServerDB} {index : List Nat} {α : Type} {prog : Prog α} (h : Always Plain prog) (p : Provider Produced)
    (hp : ∀ need ∈ p.state.proofs, need.2 ≠ [] ∧ need.2.length ≤ 62) :
    ∀ need ∈ (p.run (Produced.handle db index) prog).2.state.proofs, need.2 ≠ [] ∧ need.2.length ≤ 62 := by
  induction prog generalizing p with
  | ret r => exact hp
  | op q k ih =>
    refine ih _ (h.2 _) _ ?_
    have hq := h.1
    have hts : ∀ x, (p.getTimestamp (Produced.handle db index) x).2.state.proofs = p.state.proofs := by
      intro x
      unfold Provider.getTimestamp
      split
      · rfl
      · simp only [Produced.handle, Produced.getTs]
        cases db.entry x with
        | error e => rfl
        | ok e => simp only; split <;> rfl
    have hvia : ∀ {γ : Type} (x : Nat) (f : Produced → G (Bytes × γ) × Produced),
        (∀ s, s.proofs = p.state.proofs → ∀ need ∈ (f s).2.proofs, need.2 ≠ [] ∧ need.2.length ≤ 62) →
        ∀ need ∈ (viaRoot (Produced.handle db index) x f p).2.state.proofs, need.2 ≠ [] ∧ need.2.length ≤ 62 := by
      intro γ x f hf
      unfold viaRoot
      have h1 := hts x
      revert h1
      generalize p.getTimestamp (Produced.handle db index) x = r
      obtain ⟨r1, p'⟩ := r
      intro h1
      simp only at h1
      cases r1 with
      | error e => simp only; rw [h1]; exact hp
      | ok t =>
        simp only
        have h2 := hf _ h1
        revert h2
        generalize f p'.state = r
        obtain ⟨r1, s⟩ := r
        intro h2
        cases r1 with
        | error e => exact h2
        | ok a =>
          simp only
          rw [(record_spec _ _ _ _).2.2.1]
          exact h2
    cases q with
    | ts x => change ∀ need ∈ (p.getTimestamp (Produced.handle db index) x).2.state.proofs, _; rw [hts x]; exact hp
    | search x v om =>
      have he : p.answer (Produced.handle db index) (.search x v om) = viaRoot (Produced.handle db index) x _ p :=
        getSearch_eq _ x v om p
      rw [he]
      apply hvia
      intro s hs
      obtain ⟨hv, rfl⟩ := hq
      simp only [Produced.handle, Produced.search]
      cases hpl : produceLadder s.tracker x v false (greatestAt index x) with
      | error e => simp only; rw [hs]; exact hp
      | ok r =>
        obtain ⟨w, res, vt'⟩ := r
        cases db.entry x with
        | error e => simp only; rw [hs]; exact hp
        | ok e =>
          simp only
          intro need hn
          rcases List.mem_append.1 hn with hn | hn
          · rw [hs] at hn; exact hp need hn
          · rw [List.mem_singleton.1 hn]
            unfold produceLadder at hpl
            obtain ⟨l, hl, hpl⟩ := G.bind_eq_ok.1 hpl
            obtain ⟨rfl, -⟩ := Prod.mk.inj (Except.ok.inj hpl)
            unfold producedVersions at hl
            split at hl
            · cases hl
              simp
            · unfold searchBinaryLadder at hl
              obtain ⟨b, hb, hl⟩ := G.bind_eq_ok.1 hl
              cases hl
              obtain ⟨b1, tl, rfl⟩ := base_some hb hv
              refine ⟨?_, ?_⟩
              · simp only [Tracker.searchMaps, Bool.not_false, if_true]
                unfold searchLoop
                simp
              · refine ((searchLoop_sublist _).length_le).trans b1
    | monitor x v =>
      have he : p.answer (Produced.handle db index) (.monitor x v) = viaRoot (Produced.handle db index) x _ p :=
        getMonitor_eq _ x v p
      rw [he]
      apply hvia
      intro s hs
      simp only [withUnit, Produced.handle, Produced.monitor]
      cases db.entry x with
      | error e => simp only; rw [hs]; exact hp
      | ok e =>
        simp only
        cases hpl : monitoringBinaryLadder v with
        | error e => simp only; rw [hs]; exact hp
        | ok r =>
          simp only
          intro need hn
          rcases List.mem_append.1 hn with hn | hn
          · rw [hs] at hn; exact hp need hn
          · rw [List.mem_singleton.1 hn]
            unfold monitoringBinaryLadder at hpl
            obtain ⟨b, hb, hpl⟩ := G.bind_eq_ok.1 hpl
            cases hpl
            obtain ⟨b1, tl, rfl⟩ := base_some hb hq
            exact ⟨by simp, (List.length_filter_le ..).trans b1⟩
    | incl x vers => exact absurd hq id
    | stop x v => exact hp
    | addLadder x om g l => exact hp

theorem newMonitor_plain {cfg : Config} {n : Nat} : Always Plain (newMonitor cfg n) :=
  .ite .ret (.bind (.call trivial) fun _ => .ret)

theorem distAncLoop_plain {m : Monitor} {target : Nat} : ∀ fuel curr l r acc, Always Plain (distAncLoop m target fuel curr l r acc)
  | 0, _, _, _, _ => trivial
  | fuel + 1, curr, l, r, acc => by
    unfold distAncLoop
    exact .ite .ret (.ite .ret (.bind (.call trivial) fun _ => .ite (.bind .ret fun _ => distAncLoop_plain ..) (.bind .ret fun _ => distAncLoop_plain ..)))

theorem inspectAll_plain {ver : Nat} (hv : ver < 2 ^ 32) : ∀ ys prev, Always Plain (inspectAll ver ys prev)
  | [], _ => trivial
  | y :: ys, prev => by
    unfold inspectAll
    split
    · exact .ite .ret .ret
    · exact .bind (.call hv) fun _ => inspectAll_plain hv ys _

theorem contactLoop_plain {m : Monitor} : ∀ (c prev ptrs : PMap), (∀ e ∈ c, e.2 < 2 ^ 32) → Always Plain (contactLoop m c prev ptrs)
  | [], _, _, _ => trivial
  | (x, ver) :: rest, prev, ptrs, h => by
    unfold contactLoop contactMonitor1 distinguishedAncestor
    refine .bind (.bind (distAncLoop_plain ..) fun _ => .ite .ret (.bind .ret fun _ => .bind (inspectAll_plain (h (x, ver) (by simp)) ..) fun _ =>
      .ite .ret (.ite .ret .ret))) fun r => ?_
    have hr : ∀ e ∈ rest, e.2 < 2 ^ 32 := fun e he => h e (by simp [he])
    obtain ⟨u, prev'⟩ := r
    cases u with
    | none => exact contactLoop_plain rest _ _ hr
    | some y => exact contactLoop_plain rest _ _ hr

theorem contactMonitor_plain {m : Monitor} {c : PMap} (hc : m.contact = some c) (h : ∀ e ∈ c, e.2 < 2 ^ 32) : Always Plain (Alg.contactMonitor m) := by
  unfold Alg.contactMonitor
  rw [hc]
  exact .bind (contactLoop_plain _ _ _ (fun e he => h e (mem_sortDesc.1 he))) fun _ => .ret

theorem initWalk_plain {m : Monitor} {start : Nat} : ∀ fuel x l r, Always Plain (initWalk m start fuel x l r)
  | 0, _, _, _ => trivial
  | fuel + 1, x, l, r => by
    unfold initWalk
    exact .ite .ret (.bind (.call trivial) fun _ => .ite (.ite .ret (.bind .ret fun _ => .bind (initWalk_plain ..) fun _ => .ret))
      (.ite (.ite .ret .ret) (.ite .ret (.bind .ret fun _ => initWalk_plain ..))))

theorem initLadders_plain : ∀ {xs vs : List Nat}, (∀ v ∈ vs, v < 2 ^ 32) → Always Plain (initLadders xs vs)
  | [], _, _ => by unfold initLadders; exact .ret
  | x :: xs, [], h => by
    unfold initLadders
    exact .bind (.call ⟨by decide, rfl⟩) fun _ => .ite .ret (initLadders_plain h)
  | x :: xs, v :: vs, h => by
    unfold initLadders
    exact .bind (.call ⟨h v (by simp), rfl⟩) fun _ => .ite .ret (initLadders_plain (fun v hv => h v (by simp [hv])))

theorem ownerInit_plain {m : Monitor} {start : Nat} {vers : List Nat} (h : ∀ v ∈ vers, v < 2 ^ 32) : Always Plain (Alg.ownerInit m start vers) := by
  unfold Alg.ownerInit
  exact .ite .ret (.bind (initWalk_plain ..) fun _ => .ite .ret (.ite .ret (.bind (initLadders_plain h) fun _ => .ret)))

end Katie.Alg

namespace Katie.Server
open Katie Katie.Wire Katie.Alg Katie.Ladder Katie.Props Katie.SearchSpec Katie.SearchTree Katie.PrefixSpec Prog

section
variable {env : Env} {bs : List Batch} {n : Nat} {E : Nat → LogEntry} {t : Tree}

theorem addRequired_times {l : Bytes} : ∀ {vs : List Nat} {s s' : Produced},
    addRequired env l vs s = .ok s' → s'.timestamps = s.timestamps
  | [], s, s', h => by cases h; rfl
  | v :: vs, s, s', h => by
    unfold addRequired at h
    obtain ⟨out, -, h⟩ := G.bind_eq_ok.1 h
    obtain ⟨s1, h1, h⟩ := G.bind_eq_ok.1 h
    rw [addRequired_times h]
    unfold Produced.addVersion at h1
    obtain ⟨vs, -, h1⟩ := G.bind_eq_ok.1 h1
    cases h1
    rfl

/-- what a monitoring operation has fetched so far -/
structure Fetched (n : Nat) (E : Nat → LogEntry) (S : List Nat) (k : Nat) (p : Provider Produced) : Prop where
  from' : ∃ fk : List Nat, Fresh n E (retainedTables {} E [] fk) ∧ Spent n E (fun x => x ∈ S) k (retainedTables {} E [] fk) p
  steady : Steady n E p
  versions : p.state.versions = []
  short : ∀ need ∈ p.state.proofs, need.2 ≠ [] ∧ need.2.length ≤ 62

/-- running a further part of the operation -/
theorem Fetched.run {S S' : List Nat} {k k' : Nat} {p p' : Provider Produced} {index : List Nat} {α : Type} {prog : Prog α} {a : α} {Q : α → Prop}
    (h : Fetched n E S k p) (hl : Live env bs n E t) (hS : ∀ x ∈ S, x ∈ S') (hc : Costs S' 0 k' prog Q) (hp : Always Plain prog)
    (hr : runOn (handleFor env t index) prog p = .ok (a, p')) : Fetched n E S' (k + k') p' ∧ Q a := by
  obtain ⟨⟨fk, h1, h2⟩, h3, h4, h5⟩ := h
  unfold runOn handleFor at hr
  split at hr
  · cases hr
  rename_i a' q hrun
  cases hr
  have hh := hl.honest
  obtain ⟨T, t1, t2⟩ := run_costs (index := index) hl.log hh.times hc h3.agrees.ts h3.ts
  have : T = [] := List.eq_nil_of_length_eq_zero (by omega)
  subst this
  have hst := (run_steady (index := index) hl.log prog h3).1
  have hv := run_versions (db := serverDB env t.tx) (index := index) prog p
  have hs := run_plain (db := serverDB env t.tx) (index := index) hp p h5
  obtain ⟨-, -, hruns, -⟩ := run_spec (Produced.handle (serverDB env t.tx) index) prog p h3.ts
  rw [hrun] at t2 hst hv hs hruns
  refine ⟨⟨⟨fk, h1, ((h2.mono hS (le_refl _)).trans (t2.mono (fun x hx => by simpa using hx) (le_refl _)))⟩, hst, by rw [hv, h4], hs⟩, ?_⟩
  exact (hc _ _ hruns).2.2 a rfl

theorem startMonitor_fetched (hl : Live env bs n E t) {now : Nat} {last : Option Nat} (h0 : last ≠ some 0) {label : Bytes} {op : MonitorOp}
    (h : startMonitor env now t last label = .ok op) :
    fullTreeHead t last = .ok op.heads ∧ ∃ S : List Nat, S.length ≤ 3 * Nat.log2 n + 3 ∧ Fetched n E S 0 op.provider := by
  unfold startMonitor at h
  obtain ⟨hd, j1, h⟩ := G.bind_eq_ok.1 h
  obtain ⟨index', j2, h⟩ := G.bind_eq_ok.1 h
  obtain ⟨p1, j3, h⟩ := G.bind_eq_ok.1 h
  obtain ⟨⟨m, p2⟩, j4, h⟩ := G.bind_eq_ok.1 h
  cases h
  have hw := (fullTreeHead_calm hl h0).2 hd j1
  rw [hw.size] at j4
  obtain ⟨fk, S, hf, sp0, p1s, p1v, s1, s2, s3⟩ := updateView_spent hl hw.last rfl rfl rfl j3
  have hz : p1.state.proofs = [] := by
    obtain ⟨new, e1, e2⟩ := sp0.proofs
    rw [e1, hf.proofs, List.nil_append]
    exact List.eq_nil_of_length_eq_zero (by omega)
  have h1 : Fetched n E S 0 p1 := ⟨⟨fk, hf, sp0⟩, p1s, p1v, by rw [hz]; simp⟩
  have hc : Costs S 0 0 (newMonitor env.cfg n) (fun _ => True) := by
    unfold newMonitor
    exact .ite (fun _ => .fail) (fun _ => (Costs.bind (j := 0) (k := 0) (j' := 0) (k' := 0) (.getTs s1) (fun _ _ => .pure trivial)).mono
      (by omega) (by omega) (fun _ h => h))
  exact ⟨j1, S, s3, (h1.run hl (fun _ h => h) hc newMonitor_plain j4).1⟩

theorem finishMonitor_holds (hl : Live env bs n E t) {label : Bytes} {op : MonitorOp} (hn : op.heads.n = n) {S : List Nat} {k T P : Nat}
    (hp : Fetched n E S k op.provider) (hT : S.length ≤ T) (hP : k ≤ P) {fth : FullTreeHead} {proof : CombinedTreeProof}
    (h : finishMonitor env t label op = .ok (fth, proof)) : fth = op.heads.fth ∧ Holds env.cs n T P 62 proof := by
  obtain ⟨⟨fk, hf, sp⟩, qs, qv, hV⟩ := hp
  unfold finishMonitor at h
  obtain ⟨s, l1, h⟩ := G.bind_eq_ok.1 h
  obtain ⟨⟨proof', p4⟩, l2, h⟩ := G.bind_eq_ok.1 h
  cases h
  refine ⟨rfl, ?_⟩
  have hh := hl.honest
  have lp := addRequired_proofs l1
  have lt := addRequired_times l1
  have lv := ((addRequired_calm (env := env) (fun v k h => by rw [qv] at h; cases h)).2 s l1).1
  obtain ⟨new, n1, n2, n3, n4⟩ := sp.few qs.ts
  obtain ⟨pf, f1, f2⟩ := sp.proofs
  have hp0 : (retainedTables ({} : Produced) E [] fk).state.proofs = [] := hf.proofs
  have ht0 : (retainedTables ({} : Produced) E [] fk).state.timestamps = [] := hf.times
  rw [hp0, List.nil_append] at f1
  rw [ht0, List.nil_append] at n2
  unfold outputOf at l2
  split at l2
  · cases l2
  rename_i r' p5 hout
  cases l2
  rw [hn] at hout
  refine (output_holds (T := T) (P := P) (V := 62) hh hl.typed (qs.setState (by rw [lp]; exact qs.proofs)) lv ?_ ?_ ?_ ?_ ?_ hout).1
  · simp only
    rw [lt, n2, List.length_reverse, List.length_map]
    omega
  · simp only
    rw [lt, n2]
    intro e he
    rw [List.mem_reverse] at he
    obtain ⟨e', he', rfl⟩ := List.mem_map.1 he
    obtain ⟨m1, m2⟩ := n3 e' he'
    rw [m2]
    exact (hl.typed _ m1).1
  · simp only
    rw [lp, f1]
    omega
  · simp only
    rw [lp]
    exact hV
  · refine (newLeaves_length (new := new) (old := (retainedTables ({} : Produced) E [] fk).timestamps) n1 ?_).trans (n4.trans hT)
    rw [show ({ op.provider with state := s } : Provider Produced).logEntries = op.provider.logEntries from rfl, sp.logEntries]
    intro e he
    simp only [retainedTables, List.mem_reverse, List.mem_map] at he
    obtain ⟨x, hx, rfl⟩ := he
    intro hnone
    have := List.lookup_eq_none_iff.1 hnone (x, E x) (List.mem_map.2 ⟨x, hx, rfl⟩)
    simp at this

theorem verifyEntries_length {index : List Nat} {es : List MonitorMapEntry} {m : PMap} (h : verifyEntries es index n = .ok m) : m.length ≤ es.length := by
  have hset : ∀ (l : PMap) (a b : Nat), (l.set a b).length ≤ l.length + 1 := by
    intro l a b
    unfold PMap.set
    simp only [List.length_cons]
    have := List.length_filter_le (fun e : Nat × Nat => decide (e.1 ≠ a)) l
    omega
  have key : ∀ (es : List MonitorMapEntry) (ptrs m : PMap), entriesPlaced index n es ptrs = .ok m → m.length ≤ ptrs.length + es.length := by
    intro es
    induction es with
    | nil => intro ptrs m h; cases h; simp
    | cons e es ih =>
      intro ptrs m h
      unfold entriesPlaced at h
      split at h
      · cases h
      · obtain ⟨path, -, h⟩ := G.bind_eq_ok.1 h
        split at h
        · cases h
        · have h1 := ih _ _ h
          have := hset ptrs e.position e.version
          simp only [List.length_cons]
          omega
  unfold verifyEntries at h
  obtain ⟨-, -, h⟩ := G.bind_eq_ok.1 h
  simpa using key _ _ _ h

theorem startMonitor_last {now : Nat} {last : Option Nat} {label : Bytes} {op : MonitorOp} (h : startMonitor env now t last label = .ok op) :
    last ≠ some 0 := by
  intro hl
  unfold startMonitor at h
  obtain ⟨hd, j1, h⟩ := G.bind_eq_ok.1 h
  obtain ⟨index', j2, h⟩ := G.bind_eq_ok.1 h
  obtain ⟨p1, j3, h⟩ := G.bind_eq_ok.1 h
  obtain ⟨th, hth, -⟩ := fullTreeHead_facts j1
  obtain ⟨m, hm⟩ := updateView_zero (env := env) (now := now) (index := index') (p := newProvider {}) hth
  rw [hl, hm] at j3
  cases j3

/-- How much the answer to a contact monitoring request holds. -/
theorem contactMonitor_holds (hl : Live env bs n E t) {now : Nat} {req : ContactMonitorRequest}
    (hi : ∀ index, getIndex t.tx req.label = .ok index → index.length ≤ 2 ^ 32)
    {res : MonitorResponse} (hres : contactMonitor env now t req = .ok res) :
    (∃ h, fullTreeHead t req.last = .ok h ∧ res.fullTreeHead = h.fth) ∧
    Holds env.cs n ((req.entries.length + 3) * Nat.log2 n + 3) (req.entries.length * Nat.log2 n) 62 res.monitor := by
  unfold contactMonitor at hres
  obtain ⟨op, k1, hres⟩ := G.bind_eq_ok.1 hres
  have h0 := startMonitor_last k1
  obtain ⟨hw, hidx, hp, hv, hsz, -⟩ := (startMonitor_calm hl h0).2 op k1
  obtain ⟨hd, S, hS, hf⟩ := startMonitor_fetched hl h0 k1
  obtain ⟨ptrs, k2, hres⟩ := G.bind_eq_ok.1 hres
  obtain ⟨⟨m', p3⟩, k3, hres⟩ := G.bind_eq_ok.1 hres
  obtain ⟨⟨fth, proof⟩, k4, hres⟩ := G.bind_eq_ok.1 hres
  cases hres
  rw [hw.size] at k2
  obtain ⟨index, hi1, -, hi2⟩ := hl.index req.label
  have hie : index = op.index := Except.ok.inj (hi1.symm.trans hidx)
  subst hie
  have hlen := hi _ hi1
  have hlp := verifyEntries_length k2
  obtain ⟨e1, e2⟩ := (verifyEntries_calm hi2).2 ptrs k2
  obtain ⟨S2, c1, c2⟩ := contactMonitor_costs (m := { op.monitor with contact := some ptrs }) (c := ptrs) rfl
    (fun e he => by simp only [hsz]; exact (e1 e he).1)
  have hpl : Always Plain (Alg.contactMonitor { op.monitor with contact := some ptrs }) :=
    contactMonitor_plain rfl (fun e he => by have := (e1 e he).2; omega)
  have hts : ({ op.monitor with contact := some ptrs } : Monitor).treeSize = n := hsz
  rw [hts] at c1 c2
  have hmul : ptrs.length * Nat.log2 n ≤ req.entries.length * Nat.log2 n := Nat.mul_le_mul_right _ hlp
  have h3 := (hf.run hl (S' := S ++ S2) (fun x hx => by simp [hx]) (c2 (S ++ S2) (fun x hx => by simp [hx])) hpl k3).1
  obtain ⟨r1, r2⟩ := finishMonitor_holds hl (op := { op with monitor := m', provider := p3 }) hw.size h3
    (T := (req.entries.length + 3) * Nat.log2 n + 3) (P := req.entries.length * Nat.log2 n)
    (by rw [List.length_append, Nat.add_mul]; omega) (by omega) k4
  exact ⟨⟨_, hd, r1⟩, r2⟩

theorem initVersions_length {index : List Nat} : ∀ {xs : List Nat}, (initVersions index xs).length ≤ xs.length ∧ ∀ v ∈ initVersions index xs, v < 2 ^ 32
  | [] => by simp [initVersions]
  | x :: xs => by
    unfold initVersions
    simp only
    split
    · simp
    · obtain ⟨h1, h2⟩ := initVersions_length (index := index) (xs := xs)
      refine ⟨by simpa using h1, fun v hv => ?_⟩
      rcases List.mem_cons.1 hv with rfl | hv
      · exact Nat.mod_lt _ (by decide)
      · exact h2 v hv

theorem ladders_length : ∀ {vs l : List Nat}, (∀ v ∈ vs, v < 2 ^ 32) → ladders vs = .ok l → l.length ≤ 62 * vs.length
  | [], l, _, h => by cases h; simp
  | v :: vs, l, hv, h => by
    unfold ladders at h
    obtain ⟨a, h1, h⟩ := G.bind_eq_ok.1 h
    obtain ⟨b, h2, h⟩ := G.bind_eq_ok.1 h
    cases h
    have i2 := ladders_length (fun w hw => hv w (by simp [hw])) h2
    unfold searchBinaryLadder at h1
    obtain ⟨base, h3, h1⟩ := G.bind_eq_ok.1 h1
    cases h1
    have := ((searchLoop_sublist (t := v) (n := v) (a := []) (b := []) base).length_le).trans (base_some h3 (hv v (by simp))).1
    simp only [List.length_append, List.length_cons]
    omega

theorem sortedSet_length : ∀ {l : List Nat}, (sortedSet l).length ≤ l.length := by
  have hins : ∀ (v : Nat) (l : List Nat), (insertNat v l).length ≤ l.length + 1 := by
    intro v l
    induction l with
    | nil => simp [insertNat]
    | cons w l ih =>
      unfold insertNat
      split
      · simp
      · split
        · simp
        · simpa using ih
  intro l
  unfold sortedSet
  induction l with
  | nil => simp
  | cons v l ih =>
    rw [List.foldr_cons]
    have := hins v (l.foldr insertNat [])
    simp only [List.length_cons]
    omega

theorem getBinaryLadder_length {label : Bytes} {vs : List Nat} {g : Int} {ladder : List BinaryLadderStep}
    (h : getBinaryLadder env t label vs g n = .ok ladder) : ladder.length = vs.length := by
  have hv : ∀ (vs : List Nat) (r : List Bytes × List Bytes), ladderVrfs env label g vs = .ok r → r.1.length = vs.length := by
    intro vs
    induction vs with
    | nil => intro r h; cases h; rfl
    | cons v vs ih =>
      intro r h
      unfold ladderVrfs at h
      obtain ⟨out, -, h⟩ := G.bind_eq_ok.1 h
      obtain ⟨⟨a, b⟩, h1, h⟩ := G.bind_eq_ok.1 h
      cases h
      simpa using ih _ h1
  have ha : ∀ (ps : List Bytes) (cs : List (Option Bytes)) (r : List BinaryLadderStep), assignCommitments ps cs = .ok r → r.length = ps.length := by
    intro ps
    induction ps with
    | nil =>
      intro cs r h
      cases cs with
      | nil => cases h; rfl
      | cons c cs => cases h
    | cons p ps ih =>
      intro cs r h
      cases cs with
      | nil => cases h; simp
      | cons c cs =>
        unfold assignCommitments at h
        obtain ⟨rest, h1, h⟩ := G.bind_eq_ok.1 h
        cases h
        simpa using ih _ _ h1
  unfold getBinaryLadder at h
  obtain ⟨⟨ps, os⟩, h1, h⟩ := G.bind_eq_ok.1 h
  obtain ⟨results, -, h⟩ := G.bind_eq_ok.1 h
  split at h
  · cases h
  · rw [ha _ _ _ h]
    exact hv _ _ h1

/-- How much the answer to an owner initialization request holds. -/
theorem ownerInit_holds (hl : Live env bs n E t) {now : Nat} {req : OwnerInitRequest} {res : OwnerInitResponse} (hres : ownerInit env now t req = .ok res) :
    (∃ h, fullTreeHead t req.last = .ok h ∧ res.fullTreeHead = h.fth) ∧ res.greatestVersions.length ≤ Nat.log2 n + 1 ∧
    res.binaryLadder.length ≤ 62 * (Nat.log2 n + 1) + 1 ∧ Holds env.cs n (4 * Nat.log2 n + 4) (Nat.log2 n + 1) 62 res.init := by
  unfold ownerInit at hres
  obtain ⟨op, k1, hres⟩ := G.bind_eq_ok.1 hres
  have h0 := startMonitor_last k1
  obtain ⟨hw, hidx, hp, hv, hsz, -⟩ := (startMonitor_calm hl h0).2 op k1
  obtain ⟨hd, S, hS, hf⟩ := startMonitor_fetched hl h0 k1
  simp only at hres
  obtain ⟨⟨entries, p2⟩, k2, hres⟩ := G.bind_eq_ok.1 hres
  obtain ⟨all, k3, hres⟩ := G.bind_eq_ok.1 hres
  obtain ⟨ladder, k4, hres⟩ := G.bind_eq_ok.1 hres
  obtain ⟨⟨r, p3⟩, k5, hres⟩ := G.bind_eq_ok.1 hres
  obtain ⟨⟨fth, proof⟩, k6, hres⟩ := G.bind_eq_ok.1 hres
  cases hres
  have hpos := hl.honest.pos
  have hst : req.start < n := by
    have hrun := k2
    unfold runOn handleFor at hrun
    split at hrun
    · cases hrun
    rename_i xs q hrun'
    obtain ⟨-, -, hruns, -⟩ := run_spec (Produced.handle (serverDB env t.tx) op.index) (initEntries op.monitor req.start) op.provider hp.ts
    rw [hrun'] at hruns
    have := stays_result (initEntries_stays (m := op.monitor) (by rw [hsz]; exact hpos) (start := req.start)) hruns
    rw [hsz] at this
    exact this.1
  obtain ⟨S2, c1, c2⟩ := initEntries_costs (m := op.monitor) (start := req.start) (by rw [hsz]; exact hst)
  rw [hsz] at c1 c2
  obtain ⟨d1, d2⟩ := c2 (S ++ S2) (fun x hx => by simp [hx])
  obtain ⟨f2, e2⟩ := hf.run hl (S' := S ++ S2) (fun x hx => by simp [hx]) d1 (initWalk_plain ..) k2
  obtain ⟨v1, v2⟩ := initVersions_length (index := op.index) (xs := entries)
  obtain ⟨f3, -⟩ := f2.run hl (S' := S ++ S2) (fun x hx => hx) (d2 _) (ownerInit_plain v2) k5
  obtain ⟨r1, r2⟩ := finishMonitor_holds hl (op := { op with monitor := r.1, provider := p3 }) hw.size f3
    (T := 4 * Nat.log2 n + 4) (P := Nat.log2 n + 1) (by rw [List.length_append]; omega) (by omega) k6
  refine ⟨⟨_, hd, r1⟩, by simp only; omega, ?_, r2⟩
  simp only
  rw [getBinaryLadder_length k4]
  unfold allLadderVersions at k3
  obtain ⟨l, l1, k3⟩ := G.bind_eq_ok.1 k3
  cases k3
  have h1 := ladders_length v2 l1
  have h2 := sortedSet_length (l := 0 :: l)
  simp only [List.length_cons] at h2
  have h3 : 62 * (initVersions op.index entries).length ≤ 62 * (Nat.log2 n + 1) := Nat.mul_le_mul_left _ (by omega)
  omega

end
end Katie.Server
