import Verif.Lemmas.ClientSound
import Verif.Lemmas.ServeMonitor
import Verif.Props.C30_OwnerMonitor

/-
What a client has learned from the answer of an arbitrary server to a monitoring request.  Used by
Verif/Props/C69_MonitorSound.lean.
-/

namespace Katie.Alg
open Katie Katie.Wire Katie.Ladder Katie.SearchSpec Katie.SearchTree Katie.ServedSpec Prog

/-! ### the programs -/

theorem newMonitor_noCatch {cfg : Config} {n : Nat} : NoCatch (newMonitor cfg n) := by
  unfold newMonitor
  exact .ite (.fail _) (.bind (.call _) (fun _ => .pure' _))

theorem distAncLoop_noCatch {m : Monitor} {t : Nat} : ∀ (fuel c l r : Nat) (acc : Option Nat),
    NoCatch (distAncLoop m t fuel c l r acc) := by
  intro fuel
  induction fuel with
  | zero => intro c l r acc; exact .ret _
  | succ fuel ih =>
    intro c l r acc
    unfold distAncLoop
    exact .ite (.pure' _) (.ite (.pure' _) (.bind (.call _) (fun _ => .ite
      (.bind (.lift _) (fun _ => ih _ _ _ _)) (.bind (.lift _) (fun _ => ih _ _ _ _)))))

theorem inspectAll_noCatch {ver : Nat} : ∀ (ys : List Nat) (prev : PMap), NoCatch (inspectAll ver ys prev) := by
  intro ys
  induction ys with
  | nil => intro prev; exact .pure' _
  | cons y ys ih =>
    intro prev
    unfold inspectAll
    split
    · exact .ite (.fail _) (.pure' _)
    · exact .bind (.call _) (fun _ => ih _)

theorem contactLoop_noCatch {m : Monitor} : ∀ (l prev ptrs : PMap), NoCatch (contactLoop m l prev ptrs) := by
  intro l
  induction l with
  | nil => intro prev ptrs; exact .pure' _
  | cons e l ih =>
    obtain ⟨x, ver⟩ := e
    intro prev ptrs
    unfold contactLoop
    refine .bind ?_ ?_
    · unfold contactMonitor1
      refine .bind (distAncLoop_noCatch _ _ _ _ _) (fun stop => .ite (.pure' _) (.bind (.lift _) (fun path => ?_)))
      refine .bind (inspectAll_noCatch _ _) ?_
      rintro ⟨done, prev⟩
      exact .ite (.pure' _) (.ite (.pure' _) (.pure' _))
    · rintro ⟨updated, prev⟩
      cases updated with
      | none => exact ih _ _
      | some y => exact ih _ _

theorem contactMonitor_noCatch {m : Monitor} : NoCatch (contactMonitor m) := by
  unfold contactMonitor
  split
  · exact .pure' _
  · exact .bind (contactLoop_noCatch _ _ _) (fun _ => .pure' _)

theorem expectLadder_noCatch {x : Nat} {v : Int} {om : Bool} : NoCatch (expectLadder x v om) := by
  unfold expectLadder
  exact .ite (.bind (.call _) (fun _ => .ite (.fail _) (.pure' _))) (.bind (.call _) (fun _ => .ite (.fail _) (.pure' _)))

theorem ownerWalk_noCatch {cfg : Config} {n : Nat} : ∀ (fuel x l r : Nat) (o : Owner), NoCatch (ownerWalk cfg n fuel x l r o) := by
  intro fuel
  induction fuel with
  | zero => intro x l r o; exact .ret _
  | succ fuel ih =>
    intro x l r o
    unfold ownerWalk
    refine .ite (.pure' _) (.ite (.ite (.pure' _) (.bind (.call _) (fun _ => .bind (.lift _) (fun _ => ih _ _ _ _)))) ?_)
    refine .bind (.ite (.pure' _) (.bind (.call _) (fun _ => .bind (.lift _) (fun _ => ih _ _ _ _)))) (fun o => ?_)
    exact .bind (.call _) (fun _ => .ite (.pure' _) (.bind expectLadder_noCatch (fun _ => .ite (.pure' _)
      (.bind (.call _) (fun _ => .bind (.lift _) (fun _ => ih _ _ _ _))))))

theorem ownerMonitor_noCatch {m : Monitor} : NoCatch (ownerMonitor m) := by
  unfold ownerMonitor
  split
  · exact .fail _
  · exact .bind (ownerWalk_noCatch _ _ _ _ _) (fun _ => .pure' _)

theorem monitorProg_noCatch {cfg : Config} {n : Nat} {c : PMap} {o : Option Owner} : NoCatch (monitorProg cfg n c o) := by
  unfold monitorProg
  refine .bind newMonitor_noCatch (fun _ => .bind contactMonitor_noCatch (fun _ => ?_))
  cases o with
  | none => exact .pure' _
  | some o => exact ownerMonitor_noCatch

theorem newMonitor_reads {cfg : Config} {n : Nat} : OnlyReads (newMonitor cfg n) := by
  unfold newMonitor
  exact .ite (.ret' _) (.bind (.call rfl) (fun _ => .ret' _))

theorem distAncLoop_reads {m : Monitor} {t : Nat} : ∀ (fuel c l r : Nat) (acc : Option Nat),
    OnlyReads (distAncLoop m t fuel c l r acc) := by
  intro fuel
  induction fuel with
  | zero => intro c l r acc; exact .ret' _
  | succ fuel ih =>
    intro c l r acc
    unfold distAncLoop
    exact .ite (.ret' _) (.ite (.ret' _) (.bind (.call rfl) (fun _ => .ite
      (.bind (.ret' _) (fun _ => ih _ _ _ _)) (.bind (.ret' _) (fun _ => ih _ _ _ _)))))

theorem inspectAll_reads {ver : Nat} : ∀ (ys : List Nat) (prev : PMap), OnlyReads (inspectAll ver ys prev) := by
  intro ys
  induction ys with
  | nil => intro prev; exact .ret' _
  | cons y ys ih =>
    intro prev
    unfold inspectAll
    split
    · exact .ite (.ret' _) (.ret' _)
    · exact .bind (.call rfl) (fun _ => ih _)

theorem contactLoop_reads {m : Monitor} : ∀ (l prev ptrs : PMap), OnlyReads (contactLoop m l prev ptrs) := by
  intro l
  induction l with
  | nil => intro prev ptrs; exact .ret' _
  | cons e l ih =>
    obtain ⟨x, ver⟩ := e
    intro prev ptrs
    unfold contactLoop
    refine .bind ?_ ?_
    · unfold contactMonitor1
      refine .bind (distAncLoop_reads _ _ _ _ _) (fun stop => .ite (.ret' _) (.bind (.ret' _) (fun path => ?_)))
      refine .bind (inspectAll_reads _ _) ?_
      rintro ⟨done, prev⟩
      exact .ite (.ret' _) (.ite (.ret' _) (.ret' _))
    · rintro ⟨updated, prev⟩
      cases updated with
      | none => exact ih _ _
      | some y => exact ih _ _

theorem contactMonitor_reads {m : Monitor} : OnlyReads (contactMonitor m) := by
  unfold contactMonitor
  split
  · exact .ret' _
  · exact .bind (contactLoop_reads _ _ _) (fun _ => .ret' _)

theorem expectLadder_reads {x : Nat} {v : Int} {om : Bool} : OnlyReads (expectLadder x v om) := by
  unfold expectLadder
  exact .ite (.bind (.call rfl) (fun _ => .ite (.ret' _) (.ret' _))) (.bind (.call rfl) (fun _ => .ite (.ret' _) (.ret' _)))

theorem ownerWalk_reads {cfg : Config} {n : Nat} : ∀ (fuel x l r : Nat) (o : Owner), OnlyReads (ownerWalk cfg n fuel x l r o) := by
  intro fuel
  induction fuel with
  | zero => intro x l r o; exact .ret' _
  | succ fuel ih =>
    intro x l r o
    unfold ownerWalk
    refine .ite (.ret' _) (.ite (.ite (.ret' _) (.bind (.call rfl) (fun _ => .bind (.ret' _) (fun _ => ih _ _ _ _)))) ?_)
    refine .bind (.ite (.ret' _) (.bind (.call rfl) (fun _ => .bind (.ret' _) (fun _ => ih _ _ _ _)))) (fun o => ?_)
    exact .bind (.call rfl) (fun _ => .ite (.ret' _) (.bind expectLadder_reads (fun _ => .ite (.ret' _)
      (.bind (.call rfl) (fun _ => .bind (.ret' _) (fun _ => ih _ _ _ _))))))

theorem ownerMonitor_reads {m : Monitor} : OnlyReads (ownerMonitor m) := by
  unfold ownerMonitor
  split
  · exact .ret' _
  · exact .bind (ownerWalk_reads _ _ _ _ _) (fun _ => .ret' _)

theorem monitorProg_reads {cfg : Config} {n : Nat} {c : PMap} {o : Option Owner} : OnlyReads (monitorProg cfg n c o) := by
  unfold monitorProg
  refine .bind newMonitor_reads (fun _ => .bind contactMonitor_reads (fun _ => ?_))
  cases o with
  | none => exact .ret' _
  | some o => exact ownerMonitor_reads

/-! ### an exhausted proof stays exhausted -/

/-- no request adds a prefix proof -/
theorem answer_exhausted {cs : Log.Suite} (q : Req) (p : Provider Received) (h : p.state.inner.prefixProofs = []) :
    (p.answer (Received.handle cs) q).2.state.inner.prefixProofs = [] := by
  have hi : HInv p.state.versions { p.state.inner with prefixProofs := [] } p.state :=
    ⟨rfl, fun pf hpf => (h ▸ hpf : pf ∈ []), fun _ h => h, rfl, rfl⟩
  have := (client_answer (cs := cs) (known := p.timestamps) q p hi (fun e he => Or.inl he)).1.proofs
  exact List.eq_nil_iff_forall_not_mem.2 (fun pf hpf => by cases this pf hpf)

theorem trace_exhausted {cs : Log.Suite} {α : Type} (prog : Prog α) (p : Provider Received) (h : p.state.inner.prefixProofs = []) :
    ∀ x v b, (⟨.stop x v, .ok b⟩ : Ev) ∈ p.trace (Received.handle cs) prog → b = true := by
  induction prog generalizing p with
  | ret r => intro x v b hb; cases hb
  | op q k ih =>
    intro x v b hb
    rcases List.mem_cons.1 hb with hb | hb
    · cases q with
      | stop x' v' =>
        have h1 : (⟨.stop x v, .ok b⟩ : Ev) = ⟨.stop x' v', .ok p.state.inner.prefixProofs.isEmpty⟩ := hb
        rw [h] at h1
        cases h1
        rfl
      | ts => cases hb
      | search => cases hb
      | monitor => cases hb
      | incl => cases hb
      | addLadder => cases hb
    · exact ih _ _ (answer_exhausted q p h) x v b hb

/-- A received proof: once it is exhausted it stays so. -/
theorem trace_stopSticks {cs : Log.Suite} {α : Type} (prog : Prog α) (p : Provider Received) :
    StopSticks (p.trace (Received.handle cs) prog) := by
  induction prog generalizing p with
  | ret r =>
    intro t1 t2 e hs
    obtain ⟨rfl, rfl⟩ := List.nil_eq_append_iff.1 e
    obtain ⟨x, v, h⟩ := hs
    cases h
  | op q k ih =>
    intro t1 t2 e hs x v b hb
    cases t1 with
    | nil => obtain ⟨x, v, h⟩ := hs; cases h
    | cons f t1 =>
      have e : (⟨q, (p.answer (Received.handle cs) q).1⟩ : Ev) ::
          Provider.trace (Received.handle cs) (k (p.answer (Received.handle cs) q).1) (p.answer (Received.handle cs) q).2 =
          f :: (t1 ++ t2) := e
      obtain ⟨e1, e2⟩ := List.cons.inj e
      subst e1
      obtain ⟨y, w, hs⟩ := hs
      rcases List.mem_cons.1 hs with hs | hs
      · have hex : p.state.inner.prefixProofs = [] := by
          cases q with
          | stop x' v' =>
            have h1 : (⟨.stop y w, .ok true⟩ : Ev) = ⟨.stop x' v', .ok p.state.inner.prefixProofs.isEmpty⟩ := hs
            have h2 : p.state.inner.prefixProofs.isEmpty = true := by
              generalize p.state.inner.prefixProofs.isEmpty = b at h1
              cases h1
              rfl
            simpa using h2
          | ts => cases hs
          | search => cases hs
          | monitor => cases hs
          | incl => cases hs
          | addLadder => cases hs
        exact trace_exhausted _ _ (answer_exhausted q p hex) x v b (e2 ▸ List.mem_append_right _ hb)
      · exact ih _ _ t1 t2 e2 ⟨y, w, hs⟩ x v b hb

/-! ### from the facts to the log -/

section
variable {cs : Log.Suite} {Vs : Versions} {proofs : List Prefix.Proof} {E : List (List Prefix.Entry × Prefix.Proof)}
  {M : List (Nat × Nat)} {roots : Nat → Option Bytes} {ts : Nat → Nat} {g : Nat → Int} {n : Nat}

theorem Facts.mem_ts {vs : List Visit} {tr : List Ev} (h : Facts cs Vs proofs E M roots vs tr) {x a : Nat}
    (hm : (⟨.ts x, .ok a⟩ : Ev) ∈ tr) : (x, a) ∈ M := by
  induction h with
  | nil => cases hm
  | ts h1 _ ih =>
    rcases List.mem_cons.1 hm with hm | hm
    · cases hm; exact h1
    · exact ih hm
  | search _ _ _ _ _ _ ih | monitor _ _ _ _ ih | incl _ _ _ ih | stop _ ih =>
    rcases List.mem_cons.1 hm with hm | hm
    · cases hm
    · exact ih hm

theorem Facts.mem_monitor {vs : List Visit} {tr : List Ev} (h : Facts cs Vs proofs E M roots vs tr) {x ver : Nat}
    (hm : (⟨.monitor x ver, .ok ()⟩ : Ev) ∈ tr) :
    x ∈ M.map Prod.fst ∧ ∃ l, monitoringBinaryLadder ver = .ok l ∧ ∀ v ∈ l, Shown cs Vs proofs E roots x v true := by
  induction h with
  | nil => cases hm
  | monitor h1 h2 h3 _ ih =>
    rcases List.mem_cons.1 hm with hm | hm
    · cases hm; exact ⟨h1, _, h2, h3⟩
    · exact ih hm
  | search _ _ _ _ _ _ ih | ts _ _ ih | incl _ _ _ ih | stop _ ih =>
    rcases List.mem_cons.1 hm with hm | hm
    · cases hm
    · exact ih hm

theorem Facts.mem_search {vs : List Visit} {tr : List Ev} (h : Facts cs Vs proofs E M roots vs tr) {x ver : Nat} {om : Bool}
    {res : Int} (hm : (⟨.search x ver om, .ok res⟩ : Ev) ∈ tr) :
    x ∈ M.map Prod.fst ∧ ∃ vt vt' w flags, receiveLadder vt x ver om flags = .ok (w, res, vt') ∧
      ∀ v b, (v, b) ∈ w.zip flags → Shown cs Vs proofs E roots x v b := by
  induction h with
  | nil => cases hm
  | search h1 h2 h3 h4 h5 _ ih =>
    rcases List.mem_cons.1 hm with hm | hm
    · cases hm; exact ⟨h2, _, _, _, _, h3, h5⟩
    · exact ih hm
  | monitor _ _ _ _ ih | ts _ _ ih | incl _ _ _ ih | stop _ ih =>
    rcases List.mem_cons.1 hm with hm | hm
    · cases hm
    · exact ih hm

theorem Facts.tsTrace {vs : List Visit} {tr : List Ev} (h : Facts cs Vs proofs E M roots vs tr)
    (hT : Truth cs Vs proofs E M roots ts g n) : TsTrace tr ts := fun _ _ hm => hT.times _ _ (h.mem_ts hm)

/-- a ladder in which nothing is left out, with true results, is interpreted correctly -/
theorem ladder_full {vt vt' : Tracker} {x ver : Nat} {flags : List Bool} {w : List Nat} {res : Int} (hver : ver < 2 ^ 32)
    (h : receiveLadder vt x ver false flags = .ok (w, res, vt')) (hfl : ∀ v b, (v, b) ∈ w.zip flags → b = decide ((v : Int) ≤ g x)) :
    res = cmp3 (g x) ver ∧
    (res = 0 → ∃ b, searchBinaryLadder ver ver [] [] = .ok b ∧ ∀ v ∈ b, (v, decide (v ≤ ver)) ∈ w.zip flags) := by
  unfold receiveLadder at h
  obtain ⟨l, hl, h⟩ := G.bind_eq_ok.1 h
  obtain ⟨r, hr, h⟩ := G.bind_eq_ok.1 h
  obtain ⟨vt2, -, h⟩ := G.bind_eq_ok.1 h
  obtain ⟨rfl, rfl, -⟩ : l.take flags.length = w ∧ r = res ∧ vt2 = vt' := by
    have := Except.ok.inj h; simpa using this
  rw [take_zip] at hfl ⊢
  have hl : searchBinaryLadder ver ver [] [] = .ok l := hl
  have hl0 := hl
  have hsmall : ver < 2 ^ 31 - 1 := by
    by_contra hc
    unfold searchBinaryLadder baseBinaryLadder at hl
    rw [base_diverges (by omega) hver] at hl
    cases hl
  obtain ⟨b, hb, hbis, -⟩ := baseBinaryLadder_ok hsmall
  unfold searchBinaryLadder at hl
  rw [hb, G.ok_bind] at hl
  have hl := Except.ok.inj hl
  rw [searchLoop_self] at hl
  have hbl : ∀ v ∈ b, v ∈ l := by
    intro v hv
    rw [← hl, List.mem_filter]
    exact ⟨hv, by simp⟩
  have hvm : ver ∈ b := (List.mem_filter.1 (getLast?_mem hbis.lowEnd)).1
  have hvm1 : ver + 1 ∈ b := (List.mem_filter.1 (getLast?_mem hbis.highEnd)).1
  obtain ⟨c0, c1, cm, call⟩ := Props.C20_interpretation l ver flags
  rcases call r hr with rfl | rfl | rfl
  · have hfe := c0.1 hr
    have hz : ∀ v ∈ l, (v, decide (v ≤ ver)) ∈ l.zip flags := by
      intro v hv
      rw [hfe, List.zip_map_right]
      refine List.mem_map.2 ⟨(v, v), ?_, rfl⟩
      rw [List.mem_iff_getElem]
      obtain ⟨i, hi, rfl⟩ := List.mem_iff_getElem.1 hv
      exact ⟨i, by simpa using hi, by simp⟩
    refine ⟨?_, fun _ => ⟨l, hl0, hz⟩⟩
    have h1 := hfl _ _ (hz ver (hbl _ hvm))
    have h2 := hfl _ _ (hz (ver + 1) (hbl _ hvm1))
    simp only [le_refl, decide_true] at h1
    have h1 : (ver : Int) ≤ g x := by simpa using h1.symm
    have h2 : ¬ (((ver + 1 : Nat) : Int) ≤ g x) := by
      intro hc
      rw [decide_eq_true hc] at h2
      simp at h2
    push_cast at h2
    unfold cmp3
    rw [if_neg (by omega), if_neg (by omega)]
  · obtain ⟨pre, v, post, e1, e2, e3⟩ := c1.1 hr
    have hm : (v, true) ∈ l.zip flags := by
      rw [e1, e3, List.zip_append (by simp)]
      simp
    have h3 : (v : Int) ≤ g x := by simpa using (hfl _ _ hm).symm
    refine ⟨?_, fun h => absurd h (by decide)⟩
    unfold cmp3
    rw [if_neg (by omega), if_pos (by omega)]
  · obtain ⟨pre, v, post, e1, e2, e3⟩ := cm.1 hr
    have hm : (v, false) ∈ l.zip flags := by
      rw [e1, e3, List.zip_append (by simp)]
      simp
    have h3 : ¬ (v : Int) ≤ g x := by
      have := (hfl _ _ hm).symm
      simpa using this
    refine ⟨?_, fun h => absurd h (by decide)⟩
    unfold cmp3
    rw [if_pos (by omega)]

end

/-! ### the versions that are asked for -/

/-- all monitoring ladders are for versions in `A` -/
def Monitors {α : Type} (A : List Nat) : Prog α → Prop
  | .ret _ => True
  | .op q k => (∀ x v, q = .monitor x v → v ∈ A) ∧ ∀ a, Monitors A (k a)

theorem Monitors.bind {α β : Type} {A : List Nat} {p : Prog α} {f : α → Prog β} (h : Monitors A p) (hf : ∀ a, Monitors A (f a)) :
    Monitors A (p >>= f) := by
  change Monitors A (p.bind f)
  induction p with
  | ret r =>
    cases r with
    | ok a => exact hf a
    | error e => trivial
  | op q k ih => exact ⟨h.1, fun a => ih a (h.2 a)⟩

theorem Monitors.ite {α : Type} {A : List Nat} {c : Prop} [Decidable c] {p q : Prog α} (hp : Monitors A p) (hq : Monitors A q) :
    Monitors A (if c then p else q) := by split <;> assumption

theorem Monitors.ret' {α : Type} {A : List Nat} (r : G α) : Monitors A (Prog.ret r) := trivial

theorem Monitors.runs {α : Type} {A : List Nat} {p : Prog α} (h : Monitors A p) {tr : List Ev} {r : G α} (hr : Runs p tr r) :
    ∀ e ∈ tr, ∀ x v, e.q = .monitor x v → v ∈ A := by
  induction hr with
  | ret => simp
  | op a _ ih =>
    intro e he
    rcases List.mem_cons.1 he with rfl | he
    · exact h.1
    · exact ih (h.2 _) e he

theorem contactMonitor_monitors {m : Monitor} {c : PMap} (hc : m.contact = some c) : Monitors (c.map Prod.snd) (contactMonitor m) := by
  have dist : ∀ (t fuel x l r : Nat) (acc : Option Nat), Monitors (c.map Prod.snd) (distAncLoop m t fuel x l r acc) := by
    intro t fuel
    induction fuel with
    | zero => intro x l r acc; exact .ret' _
    | succ fuel ih =>
      intro x l r acc
      unfold distAncLoop
      exact .ite (.ret' _) (.ite (.ret' _) (.bind ⟨(fun _ _ h => by cases h), fun _ => trivial⟩ (fun _ => .ite
        (.bind (.ret' _) (fun _ => ih _ _ _ _)) (.bind (.ret' _) (fun _ => ih _ _ _ _)))))
  have insp : ∀ ver, ver ∈ c.map Prod.snd → ∀ (ys : List Nat) (prev : PMap), Monitors (c.map Prod.snd) (inspectAll ver ys prev) := by
    intro ver hv ys
    induction ys with
    | nil => intro prev; exact .ret' _
    | cons y ys ih =>
      intro prev
      unfold inspectAll
      split
      · exact .ite (.ret' _) (.ret' _)
      · exact .bind ⟨(fun _ _ h => by cases h; exact hv), fun _ => trivial⟩ (fun _ => ih _)
  have loop : ∀ (l prev ptrs : PMap), (∀ e ∈ l, e.2 ∈ c.map Prod.snd) → Monitors (c.map Prod.snd) (contactLoop m l prev ptrs) := by
    intro l
    induction l with
    | nil => intro prev ptrs _; exact .ret' _
    | cons e l ih =>
      obtain ⟨x, ver⟩ := e
      intro prev ptrs hl
      have ih := fun prev ptrs => ih prev ptrs (fun e he => hl e (List.mem_cons_of_mem _ he))
      unfold contactLoop
      refine .bind ?_ ?_
      · unfold contactMonitor1
        refine .bind (dist _ _ _ _ _ _) (fun stop => .ite (.ret' _) (.bind (.ret' _) (fun path => ?_)))
        refine .bind (insp _ (hl (x, ver) List.mem_cons_self) _ _) ?_
        rintro ⟨done, prev⟩
        exact .ite (.ret' _) (.ite (.ret' _) (.ret' _))
      · rintro ⟨updated, prev⟩
        cases updated with
        | none => exact ih _ _
        | some y => exact ih _ _
  unfold contactMonitor
  rw [hc]
  exact .bind (loop _ _ _ (fun e he => List.mem_map_of_mem (mem_sortDesc.1 he))) (fun _ => .ret' _)

/-- A run of the whole, as runs of its parts. -/
theorem monitorProg_parts {cfg : Config} {n : Nat} {c : PMap} {o : Option Owner} {tr : List Ev} {m : Monitor} {ts : Nat → Nat}
    (hT : TsTrace tr ts) (hS : StopSticks tr) (h : Runs (monitorProg cfg n c o) tr (.ok m)) :
    0 < n ∧ ∃ m1 tr1, (∀ e ∈ tr1, e ∈ tr) ∧ TsTrace tr1 ts ∧
      Runs (contactMonitor (monitorOf c o ⟨cfg, ts (n - 1), n, none, none⟩)) tr1 (.ok m1) ∧
      (o = none → m = m1) ∧
      ∀ o', o = some o' → ∃ tr2, (∀ e ∈ tr2, e ∈ tr) ∧ TsTrace tr2 ts ∧ StopSticks tr2 ∧ Runs (ownerMonitor m1) tr2 (.ok m) := by
  unfold monitorProg at h
  obtain ⟨m0, t1, t23, e1, h1, h'⟩ := runs_bind_ok.1 h
  obtain ⟨m1, t2, t3, e2, h2, h3⟩ := runs_bind_ok.1 h'
  subst e1 e2
  unfold newMonitor at h1
  by_cases hn : n = 0
  · rw [if_pos hn] at h1; cases h1
  rw [if_neg hn] at h1
  obtain ⟨t, t11, t12, e1, h11, h12⟩ := runs_bind_ok.1 h1
  subst e1
  obtain ⟨e3, e4⟩ := runs_pure.1 h12
  have e4 := Except.ok.inj e4
  subst e3 e4
  have e5 := runs_call.1 h11
  subst e5
  have ht : t = ts (n - 1) := hT (n - 1) t List.mem_cons_self
  subst ht
  refine ⟨by omega, m1, t2, fun e he => by simp [he], hT.right.left, h2, ?_, ?_⟩
  · rintro rfl
    obtain ⟨-, e⟩ := runs_pure.1 h3
    exact Except.ok.inj e
  · rintro o' rfl
    exact ⟨t3, fun e he => by simp [he], hT.right.right, hS.right.right, h3⟩

end Katie.Alg

namespace Katie.Client
open Katie Katie.Wire Katie.Alg Katie.Ladder Katie.Server Katie.CommittedSpec Katie.SearchTree Katie.SearchSpec Katie.Props

theorem addRetainedVersions_versions {env : CEnv} : ∀ (rs : List RetainedVersion) (v w : Verifier),
    addRetainedVersions env rs v = .ok w →
    (∃ Vs, w.p = { v.p with state := { v.p.state with versions := Vs } }) ∧
    ∀ ver k, w.p.state.versions.lookup ver = some k → v.p.state.versions.lookup ver = some k ∨
      ∃ r ∈ rs, r.version = ver ∧ k.vrf = r.vrfOutput ∧ k.com = r.commitment := by
  intro rs
  induction rs with
  | nil => intro v w h; cases h; exact ⟨⟨_, rfl⟩, fun _ _ h => Or.inl h⟩
  | cons r rs ih =>
    intro v w h
    unfold addRetainedVersions at h
    obtain ⟨u, h4, h⟩ := G.bind_eq_ok.1 h
    unfold Verifier.addVersion at h4
    obtain ⟨s, h5, h4⟩ := G.bind_eq_ok.1 h4
    have h4 := Except.ok.inj h4
    subst h4
    unfold Received.addVersion at h5
    obtain ⟨vs, h6, h5⟩ := G.bind_eq_ok.1 h5
    have h5 := Except.ok.inj h5
    subst h5
    unfold Alg.addVersion at h6
    split at h6
    · cases h6
    split at h6
    · cases h6
    split at h6
    · cases h6
    have h6 := Except.ok.inj h6
    subst h6
    obtain ⟨⟨Vs, e1⟩, e2⟩ := ih _ _ h
    refine ⟨⟨Vs, by rw [e1]⟩, fun y k hy => ?_⟩
    rcases e2 y k hy with h7 | ⟨r', h7, h8⟩
    · simp only [List.lookup_cons] at h7
      split at h7
      · next heq =>
        rw [beq_iff_eq] at heq
        subst heq
        have h7 := Option.some.inj h7
        subst h7
        exact Or.inr ⟨r, by simp, rfl, rfl, rfl⟩
      · exact Or.inl h7
    · exact Or.inr ⟨r', List.mem_cons_of_mem _ h7, h8⟩

end Katie.Client

namespace Katie.Alg
open Katie Katie.Wire Katie.Ladder Katie.SearchSpec Katie.SearchTree Katie.ServedSpec Prog

theorem searchLadder_self_mem {k : Nat} {l : List Nat} (hk : k < 2 ^ 32) (h : searchBinaryLadder k k [] [] = .ok l) : k ∈ l := by
  have hsmall : k < 2 ^ 31 - 1 := by
    by_contra hc
    unfold searchBinaryLadder baseBinaryLadder at h
    rw [base_diverges (by omega) hk] at h
    cases h
  obtain ⟨b, hb, hbis, -⟩ := baseBinaryLadder_ok hsmall
  unfold searchBinaryLadder at h
  rw [hb, G.ok_bind] at h
  have h := Except.ok.inj h
  rw [searchLoop_self] at h
  rw [← h, List.mem_filter]
  exact ⟨(List.mem_filter.1 (getLast?_mem hbis.lowEnd)).1, by simp⟩

theorem contactMonitor_keeps {m m1 : Monitor} {tr : List Ev} (h : Runs (contactMonitor m) tr (.ok m1)) :
    m1.owner = m.owner ∧ m1.treeSize = m.treeSize ∧ m1.cfg = m.cfg ∧ m1.rightmost = m.rightmost := by
  unfold contactMonitor at h
  split at h
  · obtain ⟨-, e⟩ := runs_pure.1 h
    cases Except.ok.inj e
    exact ⟨rfl, rfl, rfl, rfl⟩
  · obtain ⟨out, t1, t2, -, -, h2⟩ := runs_bind_ok.1 h
    obtain ⟨-, e⟩ := runs_pure.1 h2
    cases Except.ok.inj e
    exact ⟨rfl, rfl, rfl, rfl⟩

theorem ownerMonitor_keeps {m m1 : Monitor} {tr : List Ev} (h : Runs (ownerMonitor m) tr (.ok m1)) : m1.contact = m.contact := by
  unfold ownerMonitor at h
  split at h
  · cases h
  · obtain ⟨out, t1, t2, -, -, h2⟩ := runs_bind_ok.1 h
    obtain ⟨-, e⟩ := runs_pure.1 h2
    cases Except.ok.inj e
    rfl

/-! ### monitoring ladders have only inclusion proofs -/

/-- only timestamps and monitoring ladders are asked for -/
def Req.contact : Req → Bool
  | .ts _ => true
  | .monitor _ _ => true
  | _ => false

def OnlyContact {α : Type} : Prog α → Prop
  | .ret _ => True
  | .op q k => q.contact = true ∧ ∀ a, OnlyContact (k a)

theorem OnlyContact.bind {α β : Type} {p : Prog α} {f : α → Prog β} (h : OnlyContact p) (hf : ∀ a, OnlyContact (f a)) :
    OnlyContact (p >>= f) := by
  change OnlyContact (p.bind f)
  induction p with
  | ret r =>
    cases r with
    | ok a => exact hf a
    | error e => trivial
  | op q k ih => exact ⟨h.1, fun a => ih a (h.2 a)⟩

theorem OnlyContact.call {q : Req} (h : q.contact = true) : OnlyContact (Prog.call q) := ⟨h, fun _ => trivial⟩

theorem OnlyContact.ite {α : Type} {c : Prop} [Decidable c] {p q : Prog α} (hp : OnlyContact p) (hq : OnlyContact q) :
    OnlyContact (if c then p else q) := by split <;> assumption

theorem OnlyContact.ret' {α : Type} (r : G α) : OnlyContact (Prog.ret r) := trivial

theorem contactMonitor_onlyContact {m : Monitor} : OnlyContact (contactMonitor m) := by
  have dist : ∀ (t fuel x l r : Nat) (acc : Option Nat), OnlyContact (distAncLoop m t fuel x l r acc) := by
    intro t fuel
    induction fuel with
    | zero => intro x l r acc; exact .ret' _
    | succ fuel ih =>
      intro x l r acc
      unfold distAncLoop
      exact .ite (.ret' _) (.ite (.ret' _) (.bind (.call rfl) (fun _ => .ite
        (.bind (.ret' _) (fun _ => ih _ _ _ _)) (.bind (.ret' _) (fun _ => ih _ _ _ _)))))
  have insp : ∀ ver (ys : List Nat) (prev : PMap), OnlyContact (inspectAll ver ys prev) := by
    intro ver ys
    induction ys with
    | nil => intro prev; exact .ret' _
    | cons y ys ih =>
      intro prev
      unfold inspectAll
      split
      · exact .ite (.ret' _) (.ret' _)
      · exact .bind (.call rfl) (fun _ => ih _)
  have loop : ∀ (l prev ptrs : PMap), OnlyContact (contactLoop m l prev ptrs) := by
    intro l
    induction l with
    | nil => intro prev ptrs; exact .ret' _
    | cons e l ih =>
      obtain ⟨x, ver⟩ := e
      intro prev ptrs
      unfold contactLoop
      refine .bind ?_ ?_
      · unfold contactMonitor1
        refine .bind (dist _ _ _ _ _ _) (fun stop => .ite (.ret' _) (.bind (.ret' _) (fun path => ?_)))
        refine .bind (insp _ _ _) ?_
        rintro ⟨done, prev⟩
        exact .ite (.ret' _) (.ite (.ret' _) (.ret' _))
      · rintro ⟨updated, prev⟩
        cases updated with
        | none => exact ih _ _
        | some y => exact ih _ _
  unfold contactMonitor
  split
  · exact .ret' _
  · exact .bind (loop _ _ _) (fun _ => .ret' _)

theorem monitorProg_onlyContact {cfg : Config} {n : Nat} {c : PMap} : OnlyContact (monitorProg cfg n c none) := by
  unfold monitorProg newMonitor
  exact .bind (.ite (.ret' _) (.bind (.call rfl) (fun _ => .ret' _))) (fun _ => .bind contactMonitor_onlyContact (fun _ => .ret' _))

open CommittedSpec in
/-- If all requests succeed, every proof evaluated has inclusion proofs only. -/
theorem contact_consistent {cs : Log.Suite} {α : Type} (prog : Prog α) (p : Provider Received) (hm : TsMap p.timestamps)
    (hp : OnlyContact prog) (hok : ∀ e ∈ p.trace (Received.handle cs) prog, ∃ a, e.a = .ok a) :
    ∀ e ∈ Provider.evals cs prog p, Consistent e.1 e.2 := by
  induction prog generalizing p with
  | ret r => intro e he; cases he
  | op rq k ih =>
    obtain ⟨g1, m1, t1⟩ := answer_spec (Received.handle cs) rq p hm
    have hok1 : ∃ a, (p.answer (Received.handle cs) rq).1 = .ok a := hok ⟨rq, _⟩ List.mem_cons_self
    have ih' := ih (p.answer (Received.handle cs) rq).1 (p.answer (Received.handle cs) rq).2 m1 (hp.2 _)
      (fun e he => hok e (List.mem_cons_of_mem _ he))
    intro e he
    rcases List.mem_append.1 he with he | he
    swap
    · exact ih' e he
    obtain ⟨a, ha⟩ := hok1
    have hreq := hp.1
    cases rq with
    | ts x =>
      unfold Received.evals at he
      split at he
      · cases he
      · cases he
    | monitor x ver =>
      rw [← getTimestamp_evals (cs := cs) x p] at he
      have hq : p.answer (Received.handle cs) (.monitor x ver) = _ := getMonitor_eq _ x ver p
      obtain ⟨-, -, h3⟩ := viaRoot_spec (Received.handle cs) x (withUnit ((Received.handle cs).monitor x ver)) p hm
      rw [← hq] at h3
      obtain ⟨-, root, s, hs, -, -⟩ := h3 a ha
      revert hs he
      generalize (p.getTimestamp (Received.handle cs) x).2.state = s0
      intro he hs
      change withUnit (Received.monitor cs x ver) s0 = _ at hs
      unfold withUnit Received.monitor at hs
      split at hs
      · cases hs
      next root' s' hm' =>
      split at hm'
      · cases hm'
      next pf rest hpf =>
      split at hm'
      · cases hm'
      next rt hrt =>
      unfold Received.evalMonitor at hrt
      obtain ⟨l, hl, hrt⟩ := G.bind_eq_ok.1 hrt
      split at hrt
      · cases hrt
      split at hrt
      · cases hrt
      next hall =>
      have hall' : ∀ r ∈ pf.results, r.isInclusion = true := by
        simpa [List.all_eq_true] using hall
      have he2 : e.2 = pf := by
        unfold Received.evals at he
        rw [hpf] at he
        simp only at he
        split at he
        · rw [List.mem_singleton.1 he]
        · cases he
      intro en r her
      rw [he2] at her ⊢
      rw [if_pos (hall' r (List.of_mem_zip her).2)]
      intro c d hcd
      have := hall' _ hcd
      simp [Prefix.Res.isInclusion] at this
    | search => cases hreq
    | incl => cases hreq
    | stop => cases hreq
    | addLadder => cases hreq

end Katie.Alg

namespace Katie.Client
open Katie Katie.Wire Katie.Alg Katie.Ladder Katie.Server Katie.CommittedSpec Katie.SearchTree Katie.SearchSpec Katie.Props

theorem contactMonitor_keys {m m1 : Monitor} {c : PMap} {tr : List Ev} (hc : m.contact = some c)
    (hr : Runs (Alg.contactMonitor m) tr (.ok m1)) : Keys (m1.contact.getD []) := by
  unfold Alg.contactMonitor at hr
  rw [hc] at hr
  simp only [] at hr
  obtain ⟨out, t1, t2, -, h1, h2⟩ := runs_bind_ok.1 hr
  obtain ⟨-, h2⟩ := runs_pure.1 h2
  have h3 := contactLoop_keys _ _ _ .nil h1
  have h2 := Except.ok.inj h2
  subst h2
  simp only
  by_cases e : out = []
  · rw [if_pos e]; exact .nil
  · rw [if_neg e]; exact h3

/-- `Finish` does not touch the table of versions -/
theorem finish_versions {cs : Log.Suite} {n : Nat} {nP m : Option Nat} {p q : Provider Received} {r : Provider.Result}
    (h : p.finish cs (Received.handle cs) n nP m = (.ok r, q)) : q.state.versions = p.state.versions := by
  have pt : ∀ (xs : List Nat) (s : Received) x, (Received.handle cs).prefixTrees xs s = x → x.2.versions = s.versions := by
    rintro xs s x rfl
    change (Received.prefixTrees xs s).2.versions = _
    unfold Received.prefixTrees
    split <;> rfl
  have key : ∀ x, p.inspectedLeaves (Received.handle cs) = x → x.2.state.versions = p.state.versions := by
    rintro x rfl
    unfold Provider.inspectedLeaves
    simp only
    split
    · next heq => exact pt _ _ _ heq
    · next heq =>
      have := pt _ _ _ heq
      split <;> exact this
  unfold Provider.finish at h
  split at h
  · cases h
  next ls p1 hl =>
  have k1 : p1.state.versions = p.state.versions := key _ hl
  split at h
  · cases h
  split at h
  · cases h
  next proof s hf =>
  obtain ⟨-, rfl⟩ := Prod.mk.inj h
  rw [← k1]
  change Received.finish p1.state = _ at hf
  unfold Received.finish at hf
  split at hf
  · cases hf
  split at hf
  · cases hf
  split at hf
  · cases hf
  obtain ⟨-, rfl⟩ := Prod.mk.inj hf
  rfl

theorem retainAll_mem {vs : Versions} : ∀ {l : List Nat} {out : List RetainedVersion}, retainAll vs l = .ok out →
    (∀ r ∈ out, vs.lookup r.version = some ⟨r.vrfOutput, r.commitment⟩) ∧ out.map (·.version) = l
  | [], out, h => by cases h; exact ⟨(fun r hr => by cases hr), rfl⟩
  | v :: rest, out, h => by
    unfold retainAll at h
    split at h
    · cases h
    next k hk =>
    obtain ⟨more, h1, h⟩ := G.bind_eq_ok.1 h
    have h := Except.ok.inj h
    subst h
    obtain ⟨i1, i2⟩ := retainAll_mem h1
    refine ⟨?_, by simp [i2]⟩
    intro r hr
    rcases List.mem_cons.1 hr with rfl | hr
    · exact hk
    · exact i1 r hr

theorem updateRetainedVersions_ok {ls ls' : ClientLabelState} {s : Received} (h : updateRetainedVersions ls s = .ok ls') :
    ls'.contact = ls.contact ∧ ls'.owner = ls.owner ∧
    ∀ r ∈ ls'.versions, s.versions.lookup r.version = some ⟨r.vrfOutput, r.commitment⟩ := by
  unfold updateRetainedVersions at h
  obtain ⟨a, -, h⟩ := G.bind_eq_ok.1 h
  obtain ⟨b, -, h⟩ := G.bind_eq_ok.1 h
  obtain ⟨vs, h1, h⟩ := G.bind_eq_ok.1 h
  have h := Except.ok.inj h
  subst h
  exact ⟨rfl, rfl, (retainAll_mem h1).1⟩

theorem verifyTreeHead_versions {env : CEnv} {v w : Verifier} {root rootP : Bytes} (h : verifyTreeHead env v root rootP = .ok w) :
    w.p.state.versions = v.p.state.versions := by
  unfold verifyTreeHead at h
  split at h
  · split at h
    · cases h
    · cases h; rfl
  split at h
  · cases h
  obtain ⟨_, -, h⟩ := G.bind_eq_ok.1 h
  split at h
  · cases h
  split at h
  · cases h; rfl
  unfold verifyAuditor at h
  obtain ⟨_, -, h⟩ := G.bind_eq_ok.1 h
  split at h
  · cases h
  next t p hp =>
  have hi := (client_getTimestamp (cs := env.cs) (Vs := v.p.state.versions) (proof := v.p.state.inner) (known := v.p.timestamps)
    (sub64 v.n 1) v.p ⟨rfl, fun _ h => h, fun _ h => h, rfl, rfl⟩ (fun e he => .inl he)).1.versions
  rw [hp] at hi
  split at h
  · cases h
  split at h
  · cases h
  split at h
  · cases h
  obtain ⟨_, -, h⟩ := G.bind_eq_ok.1 h
  split at h
  · cases h
  split at h
  · cases h
  cases h
  exact hi

end Katie.Client
