import Verif.Lemmas.ClientSound
import Verif.Lemmas.MonitorSound
import Verif.Lemmas.OwnerUpdate

/-
As `Lemmas/ClientRun`, for algorithms that also change the tracker of omitted lookups (`Update`): the tracker is
carried along.
-/

namespace Katie.Alg
open Katie Katie.Wire Katie.Ladder

/-- the facts behind the answers of a run in which nothing failed, and the tracker before and after it -/
inductive TFacts (cs : Log.Suite) (Vs : Versions) (proofs : List Prefix.Proof)
    (E : List (List Prefix.Entry × Prefix.Proof)) (M : List (Nat × Nat))
    (roots : Nat → Option Bytes) : Tracker → List Ev → Tracker → Prop
  | nil (vt) : TFacts cs Vs proofs E M roots vt [] vt
  | ts {vt tr z x a} : (x, a) ∈ M → TFacts cs Vs proofs E M roots vt tr z →
      TFacts cs Vs proofs E M roots vt (⟨.ts x, .ok a⟩ :: tr) z
  | search {vt tr z x ver om} {res : Int} {vt' w flags} : x ∈ M.map Prod.fst →
      receiveLadder vt x ver om flags = .ok (w, res, vt') →
      (∀ v b, (v, b) ∈ w.zip flags → Shown cs Vs proofs E roots x v b) →
      TFacts cs Vs proofs E M roots vt' tr z →
      TFacts cs Vs proofs E M roots vt (⟨.search x ver om, .ok res⟩ :: tr) z
  | monitor {vt tr z x ver l} : x ∈ M.map Prod.fst → monitoringBinaryLadder ver = .ok l →
      (∀ v ∈ l, Shown cs Vs proofs E roots x v true) →
      TFacts cs Vs proofs E M roots vt tr z → TFacts cs Vs proofs E M roots vt (⟨.monitor x ver, .ok ()⟩ :: tr) z
  | incl {vt tr z x vers} : (vers ≠ [] → x ∈ M.map Prod.fst) → (∀ v ∈ vers, Shown cs Vs proofs E roots x v true) →
      TFacts cs Vs proofs E M roots vt tr z → TFacts cs Vs proofs E M roots vt (⟨.incl x vers, .ok ()⟩ :: tr) z
  | stop {vt tr z x ver b} : TFacts cs Vs proofs E M roots vt tr z → TFacts cs Vs proofs E M roots vt (⟨.stop x ver, .ok b⟩ :: tr) z
  | add {vt tr z x om g l} : TFacts cs Vs proofs E M roots (vt.addLadder x om g l) tr z →
      TFacts cs Vs proofs E M roots vt (⟨.addLadder x om g l, .ok ()⟩ :: tr) z

variable {cs : Log.Suite} {Vs : Versions} {proof : CombinedTreeProof} {known : List (Nat × Nat)}

/-- the facts behind the answers -/
theorem client_tfacts {α : Type} (prog : Prog α) (p : Provider Received) (hm : TsMap p.timestamps)
    (hi : HInv Vs proof p.state) (ht : TimesFrom known proof p.timestamps)
    (hok : ∀ e ∈ p.trace (Received.handle cs) prog, ∃ a, e.a = .ok a)
    (q : Provider Received) (hq : Grows (p.run (Received.handle cs) prog).2 q)
    {E : List (List Prefix.Entry × Prefix.Proof)} (hE : ∀ e ∈ Provider.evals cs prog p, e ∈ E) :
    ∃ vt, TFacts cs Vs proof.prefixProofs E q.timestamps (fun x => q.prefixTrees.lookup x) p.state.tracker (p.trace (Received.handle cs) prog) vt := by
  induction prog generalizing p with
  | ret r => exact ⟨_, .nil _⟩
  | op rq k ih =>
    obtain ⟨i1, i2⟩ := client_answer (cs := cs) rq p hi ht
    obtain ⟨g1, m1, t1⟩ := answer_spec (Received.handle cs) rq p hm
    have hok1 : ∃ a, (p.answer (Received.handle cs) rq).1 = .ok a :=
      hok ⟨rq, _⟩ List.mem_cons_self
    have hrest : ∀ e ∈ Provider.trace (Received.handle cs) (k (p.answer (Received.handle cs) rq).1)
        (p.answer (Received.handle cs) rq).2, ∃ a, e.a = .ok a :=
      fun e he => hok e (List.mem_cons_of_mem _ he)
    have g2 : Grows (p.answer (Received.handle cs) rq).2 q :=
      (run_spec (Received.handle cs) (k (p.answer (Received.handle cs) rq).1) _ m1).1.trans hq
    obtain ⟨vt, ih'⟩ := ih (p.answer (Received.handle cs) rq).1 (p.answer (Received.handle cs) rq).2 m1 i1 i2
      hrest hq (fun e he => hE e (List.mem_append_right _ he))
    have hE1 : ∀ x e, e ∈ Received.evals rq (p.getTimestamp (Received.handle cs) x).2.state → e ∈ E :=
      fun x e he => hE e (List.mem_append_left _ (by rw [getTimestamp_evals] at he; exact he))
    obtain ⟨a, ha⟩ := hok1
    have hpos : ∀ x, rq.pos? = some x → x ∈ q.timestamps.map Prod.fst := by
      intro x hx
      obtain ⟨e, he, rfl⟩ := List.mem_map.1 (t1 a ha x hx)
      exact List.mem_map.2 ⟨e, g2.ts e he, rfl⟩
    refine ⟨vt, ?_⟩
    change TFacts cs Vs proof.prefixProofs E q.timestamps (fun x => q.prefixTrees.lookup x) p.state.tracker
      (⟨rq, (p.answer (Received.handle cs) rq).1⟩ :: Provider.trace (Received.handle cs)
        (k (p.answer (Received.handle cs) rq).1) (p.answer (Received.handle cs) rq).2) vt
    have hev : (⟨rq, (p.answer (Received.handle cs) rq).1⟩ : Ev) = ⟨rq, .ok a⟩ := by rw [ha]
    rw [hev]
    cases rq with
    | ts x =>
      refine .ts (g2.ts _ ((getTimestamp_spec (Received.handle cs) x p hm).2.2 a ha)) ?_
      have : (p.answer (Received.handle cs) (.ts x)).2.state.tracker = p.state.tracker :=
        (client_getTimestamp (cs := cs) x p hi ht).2.2
      rw [this] at ih'; exact ih'
    | search x ver om =>
      have he : p.answer (Received.handle cs) (.search x ver om) = _ := getSearch_eq _ x ver om p
      obtain ⟨-, -, h3⟩ := viaRoot_spec (Received.handle cs) x ((Received.handle cs).search x ver om) p hm
      rw [← he] at h3
      obtain ⟨-, root, s, hs, hst, hroot⟩ := h3 a ha
      obtain ⟨j1, -, j3⟩ := client_getTimestamp (cs := cs) x p hi ht
      have hE2 := hE1 x
      revert hs j1 j3 hE2
      generalize (p.getTimestamp (Received.handle cs) x).2.state = s0
      intro hs j1 j3 hE2
      change Received.search cs x ver om s0 = _ at hs
      unfold Received.search at hs
      split at hs
      · cases hs
      next pf rest hpf =>
      split at hs
      · cases hs
      next r hr =>
      obtain ⟨⟨rfl, rfl⟩, rfl⟩ : (r.1 = root ∧ r.2.1 = a) ∧ { s0.pop rest with tracker := r.2.2 } = s := by
        have := Prod.mk.inj hs
        exact ⟨Prod.mk.inj (Except.ok.inj this.1), this.2⟩
      unfold Received.evalSearch at hr
      obtain ⟨rl, hrl, hr⟩ := G.bind_eq_ok.1 hr
      obtain ⟨es, hes, hr⟩ := G.bind_eq_ok.1 hr
      obtain ⟨rt, hrt, hr⟩ := G.bind_eq_ok.1 hr
      have hr := (Except.ok.inj hr).symm
      subst hr
      obtain ⟨w, res, vt'⟩ := rl
      rw [hst] at ih'
      rw [j3] at hrl
      refine .search (hpos x rfl) hrl ?_ ih'
      intro v b hvb
      obtain ⟨e1, e2, e3, e4⟩ := entriesFor_ok hes
      rw [j1.versions] at e3 e4
      obtain ⟨kk, rr, f1, f2, f3, f4⟩ := e4 v b hvb
      refine ⟨es, pf, rt, kk, rr, j1.proofs pf (by rw [hpf]; exact List.mem_cons_self), hE2 _ ?_, e3, hrt,
        g2.roots _ _ hroot, f1, f2, f3, f4⟩
      unfold Received.evals
      rw [hpf]
      rw [j3]
      simp only [hrl, G.ok_bind, hes]
      exact List.mem_singleton.2 rfl
    | monitor x ver =>
      have he : p.answer (Received.handle cs) (.monitor x ver) = _ := getMonitor_eq _ x ver p
      obtain ⟨-, -, h3⟩ := viaRoot_spec (Received.handle cs) x (withUnit ((Received.handle cs).monitor x ver)) p hm
      rw [← he] at h3
      obtain ⟨-, root, s, hs, hst, hroot⟩ := h3 a ha
      obtain ⟨j1, -, j3⟩ := client_getTimestamp (cs := cs) x p hi ht
      have hE2 := hE1 x
      revert hs j1 j3 hE2
      generalize (p.getTimestamp (Received.handle cs) x).2.state = s0
      intro hs j1 j3 hE2
      change withUnit (Received.monitor cs x ver) s0 = _ at hs
      unfold withUnit Received.monitor at hs
      split at hs
      · cases hs
      next root' s' hm' =>
      split at hm'
      · cases hm'
      next pf rest hpf =>
      split at hm'
      · cases hm'
      next rt hrt =>
      obtain ⟨h1, rfl⟩ := Prod.mk.inj hm'
      obtain rfl := Except.ok.inj h1
      obtain ⟨h1, rfl⟩ := Prod.mk.inj hs
      obtain ⟨rfl, -⟩ := Prod.mk.inj (Except.ok.inj h1)
      unfold Received.evalMonitor at hrt
      obtain ⟨l, hl, hrt⟩ := G.bind_eq_ok.1 hrt
      split at hrt
      · cases hrt
      next hlen =>
      split at hrt
      · cases hrt
      next hall =>
      obtain ⟨es, hes, hrt⟩ := G.bind_eq_ok.1 hrt
      have hE3 : (es, pf) ∈ E := by
        refine hE2 _ ?_
        unfold Received.evals
        rw [hpf]
        simp only [hl, G.ok_bind, hes]
        exact List.mem_singleton.2 rfl
      rw [j1.versions] at hes
      have hall' : ∀ r ∈ pf.results, r.isInclusion = true := by
        simpa [List.all_eq_true] using hall
      have hlen' : l.length = pf.results.length := by
        simp only [ne_eq, not_not] at hlen; exact hlen.symm
      cases a
      exact .monitor (hpos x rfl) hl (allEntries_shown hes hlen' hall'
        (j1.proofs pf (by rw [hpf]; exact List.mem_cons_self)) hE3 hrt (g2.roots _ _ hroot))
        (by rw [hst] at ih'; rw [← j3]; exact ih')
    | incl x vers =>
      have he : p.answer (Received.handle cs) (.incl x vers) = _ := getIncl_eq _ x vers p
      cases a
      by_cases hv : vers.length = 0
      · have hv' : vers = [] := List.length_eq_zero_iff.1 hv
        subst hv'
        have he : p.answer (Received.handle cs) (.incl x []) = (.ok (), p) := he
        refine .incl (fun h => absurd rfl h) (by simp) ?_
        rw [he] at ih'
        exact ih'
      rw [if_neg hv] at he
      obtain ⟨-, -, h3⟩ := viaRoot_spec (Received.handle cs) x (withUnit ((Received.handle cs).incl x vers)) p hm
      rw [← he] at h3
      obtain ⟨-, root, s, hs, hst, hroot⟩ := h3 () ha
      obtain ⟨j1, -, j3⟩ := client_getTimestamp (cs := cs) x p hi ht
      have hE2 := hE1 x
      revert hs j1 j3 hE2
      generalize (p.getTimestamp (Received.handle cs) x).2.state = s0
      intro hs j1 j3 hE2
      change withUnit (Received.incl cs x vers) s0 = _ at hs
      unfold withUnit Received.incl at hs
      split at hs
      · cases hs
      next root' s' hm' =>
      split at hm'
      · cases hm'
      next pf rest hpf =>
      split at hm'
      · cases hm'
      next rt hrt =>
      obtain ⟨h1, rfl⟩ := Prod.mk.inj hm'
      obtain rfl := Except.ok.inj h1
      obtain ⟨h1, rfl⟩ := Prod.mk.inj hs
      obtain ⟨rfl, -⟩ := Prod.mk.inj (Except.ok.inj h1)
      unfold Received.evalIncl at hrt
      split at hrt
      swap
      · cases hrt
      next r0 hr0 =>
      split at hrt
      · cases hrt
      next hall =>
      obtain ⟨es, hes, hrt⟩ := G.bind_eq_ok.1 hrt
      have hE3 : (es, pf) ∈ E := by
        refine hE2 _ ?_
        unfold Received.evals
        rw [hpf]
        simp only [hes]
        exact List.mem_singleton.2 rfl
      rw [j1.versions] at hes
      have hall' : ∀ r ∈ pf.results, r.isInclusion = true := by
        rw [hr0]; simpa using hall
      have hlen' : vers.length = pf.results.length := by
        have h1 := (allEntries_ok hes).1
        have h2 := Prefix.evaluateRoot_length hrt
        omega
      refine .incl (fun _ => hpos x (by simp only [Req.pos?, if_neg hv])) (allEntries_shown hes hlen' hall'
        (j1.proofs pf (by rw [hpf]; exact List.mem_cons_self)) hE3 hrt (g2.roots _ _ hroot))
        (by rw [hst] at ih'; rw [← j3]; exact ih')
    | stop x ver => exact .stop ih'
    | addLadder x om g l => exact .add ih'

/-! ### the tracker along a walk from left to right -/

/-- the log entry of a request that may change the tracker -/
def Req.mark : Req → Option Nat
  | .search x _ _ => some x
  | .addLadder x _ _ _ => some x
  | _ => none

/-- nothing above version `G` is taken to be included: the ladders added are those up to `G`, and a search showed that
`G` or an earlier version is the greatest one, or that there is none -/
def Ev.Calm (G : Int) (e : Ev) : Prop :=
  (∀ x om g l a, e = ⟨.addLadder x om g l, a⟩ → g ≤ G) ∧
  ∀ x (ver : Nat) om res, e = ⟨.search x ver om, .ok res⟩ → (res = (0 : Int) ∧ (ver : Int) ≤ G) ∨ (G < 0 ∧ ver = 0 ∧ res = (-1 : Int))

/-- the tracker has no version above `G` as included, and no entry right of `b` -/
structure TOK (G : Int) (b : Nat) (vt : Tracker) : Prop where
  left : ∀ e ∈ vt.inclusion, ∀ v ∈ e.2, (v : Int) ≤ G
  right : ∀ e ∈ vt.nonInclusion, e.1 ≤ b

theorem TOK.mono {G : Int} {b c : Nat} {vt : Tracker} (h : TOK G b vt) (hbc : b ≤ c) : TOK G c vt :=
  ⟨h.left, fun e he => le_trans (h.right e he) hbc⟩

theorem TOK.empty {G : Int} {b : Nat} : TOK G b {} := ⟨by simp, by simp⟩

theorem TOK.addLadder {G : Int} {b : Nat} {vt : Tracker} (h : TOK G b vt) {x : Nat} {om : Bool} {g : Int} {l : List Nat}
    (hg : g ≤ G) (hx : x ≤ b) : TOK G b (vt.addLadder x om g l) := by
  unfold Tracker.addLadder
  split
  · exact h
  · constructor
    · intro e he v hv
      rcases List.mem_append.1 he with he | he
      · exact h.left e he v hv
      · rw [List.mem_singleton.1 he] at hv
        have := (List.mem_filter.1 hv).2
        simp only [decide_eq_true_eq] at this
        omega
    · intro e he
      rcases List.mem_append.1 he with he | he
      · exact h.right e he
      · rw [List.mem_singleton.1 he]; exact hx

theorem receiveLadder_parts {vt vt' : Tracker} {x ver : Nat} {om : Bool} {flags : List Bool} {w : List Nat} {res : Int}
    (h : receiveLadder vt x ver om flags = .ok (w, res, vt')) :
    ∃ base, baseBinaryLadder ver = .ok base ∧
      ∃ l, l = base.filter (fun v => !((vt.searchMaps x om).1.contains v || (vt.searchMaps x om).2.contains v)) ∧
      interpretSearchLadder l ver flags = .ok res ∧ w.zip flags = l.zip flags ∧ vt.addResults x om l flags = .ok vt' := by
  unfold receiveLadder at h
  obtain ⟨l, hl, h⟩ := G.bind_eq_ok.1 h
  obtain ⟨r, hr, h⟩ := G.bind_eq_ok.1 h
  obtain ⟨vt2, hv, h⟩ := G.bind_eq_ok.1 h
  obtain ⟨rfl, rfl, rfl⟩ : l.take flags.length = w ∧ r = res ∧ vt2 = vt' := by
    have := Except.ok.inj h; simpa using this
  unfold searchBinaryLadder at hl
  obtain ⟨base, hb, hl⟩ := G.bind_eq_ok.1 hl
  have hl := Except.ok.inj hl
  rw [searchLoop_self] at hl
  exact ⟨base, hb, l, hl.symm, hr, take_zip l flags, hv⟩

theorem mem_zip_map {α β : Type} {f : α → β} {l : List α} {v : α} {b : β} (h : (v, b) ∈ l.zip (l.map f)) : b = f v := by
  rw [List.zip_map_right] at h
  obtain ⟨⟨a, c⟩, h1, h2⟩ := List.mem_map.1 h
  simp only [Prod.map_apply, id_eq, Prod.mk.injEq] at h2
  obtain ⟨rfl, rfl⟩ := h2
  obtain ⟨i, hi, e⟩ := List.mem_iff_getElem.1 h1
  simp only [List.getElem_zip, Prod.mk.injEq] at e
  rw [← e.1, ← e.2]

theorem zip_map_mem {α β : Type} {f : α → β} {l : List α} {v : α} (h : v ∈ l) : (v, f v) ∈ l.zip (l.map f) := by
  obtain ⟨i, hi, rfl⟩ := List.mem_iff_getElem.1 h
  rw [List.mem_iff_getElem]
  exact ⟨i, by simpa using hi, by simp⟩

theorem base_zero {base : List Nat} (h : baseBinaryLadder 0 = .ok base) : base = [0, 1] := by
  have : baseBinaryLadder 0 = .ok [0, 1] := by decide
  rw [this] at h
  exact (Except.ok.inj h).symm

/-- what is included according to the results is at most `G` -/
theorem calm_results {vt vt' : Tracker} {x ver : Nat} {om : Bool} {flags : List Bool} {w : List Nat} {res : Int} {G : Int}
    (h : receiveLadder vt x ver om flags = .ok (w, res, vt'))
    (hc : (res = 0 ∧ (ver : Int) ≤ G) ∨ (G < 0 ∧ ver = 0 ∧ res = -1)) :
    ∀ v, (v, true) ∈ w.zip flags → (v : Int) ≤ G := by
  obtain ⟨base, hb, l, hl, hr, hz, -⟩ := receiveLadder_parts h
  rw [hz]
  obtain ⟨c0, -, cm, -⟩ := Props.C20_interpretation l ver flags
  intro v hv
  rcases hc with ⟨rfl, hle⟩ | ⟨hG, rfl, rfl⟩
  · rw [c0.1 hr] at hv
    have := mem_zip_map hv
    have : v ≤ ver := by simpa using this.symm
    omega
  · exfalso
    obtain ⟨pre, u, post, e1, e2, e3⟩ := cm.1 hr
    have hb := base_zero hb
    subst hb
    obtain rfl : u = 0 := by omega
    have hpre : pre = [] := by
      have hs : l.Sublist [0, 1] := by rw [hl]; exact List.filter_sublist
      rw [e1] at hs
      have hp : (pre ++ 0 :: post).Pairwise (· < ·) := List.Pairwise.sublist hs (by decide)
      cases pre with
      | nil => rfl
      | cons a pre =>
        exfalso
        have := List.rel_of_pairwise_cons hp (a' := 0) (by simp)
        omega
    subst hpre
    rw [e1, e3] at hv
    simp at hv

theorem TOK.addResults {G : Int} {b : Nat} {vt vt' : Tracker} (h : TOK G b vt) {x : Nat} {om : Bool} {l : List Nat} {flags : List Bool}
    (hr : vt.addResults x om l flags = .ok vt') (hG : ∀ v, (v, true) ∈ l.zip flags → (v : Int) ≤ G) (hx : x ≤ b) : TOK G b vt' := by
  unfold Tracker.addResults at hr
  split at hr
  · rw [← Except.ok.inj hr]; exact h
  split at hr
  · cases hr
  rw [← Except.ok.inj hr]
  constructor
  · intro e he v hv
    rcases List.mem_append.1 he with he | he
    · exact h.left e he v hv
    · rw [List.mem_singleton.1 he] at hv
      obtain ⟨p, hp, rfl⟩ := List.mem_map.1 hv
      obtain ⟨h1, h2⟩ := List.mem_filter.1 hp
      refine hG _ ?_
      have : p = (p.1, true) := Prod.ext rfl h2
      rw [← this]; exact h1
  · intro e he
    rcases List.mem_append.1 he with he | he
    · exact h.right e he
    · rw [List.mem_singleton.1 he]; exact hx

/-- In an entry right of everything seen, the versions above `G` of the ladder are all looked up. -/
theorem ladder_edge {vt vt' : Tracker} {x ver : Nat} {flags : List Bool} {w : List Nat} {G : Int} (hver : ver < 2 ^ 32) (ht : TOK G x vt)
    (h : receiveLadder vt x ver true flags = .ok (w, 0, vt')) :
    ∃ b, searchBinaryLadder ver ver [] [] = .ok b ∧ (∀ v ∈ b, G < v → (v, decide (v ≤ ver)) ∈ w.zip flags) ∧ ver ∈ b ∧ ver + 1 ∈ b := by
  obtain ⟨base, hb, l, hl, hr, hz, -⟩ := receiveLadder_parts h
  obtain ⟨c0, -, -, -⟩ := Props.C20_interpretation l ver flags
  have hb' : searchBinaryLadder ver ver [] [] = .ok base := by
    unfold searchBinaryLadder
    rw [hb, Katie.G.ok_bind, searchLoop_self]
    simp
  have hsmall : ver < 2 ^ 31 - 1 := by
    by_contra hc
    unfold baseBinaryLadder at hb
    rw [base_diverges (by omega) hver] at hb
    cases hb
  obtain ⟨b, hb2, hbis, -⟩ := baseBinaryLadder_ok hsmall
  rw [hb] at hb2
  cases hb2
  refine ⟨base, hb', ?_, (List.mem_filter.1 (getLast?_mem hbis.lowEnd)).1, (List.mem_filter.1 (getLast?_mem hbis.highEnd)).1⟩
  intro v hv hG
  rw [hz, c0.1 hr]
  refine zip_map_mem ?_
  rw [hl, List.mem_filter]
  refine ⟨hv, ?_⟩
  simp only [Bool.not_eq_true', Bool.or_eq_false_iff, List.contains_eq_mem, decide_eq_false_iff_not]
  unfold Tracker.searchMaps
  simp only [Bool.not_true, Bool.false_eq_true, if_false]
  constructor
  · intro hm
    obtain ⟨e, he, hve⟩ := List.mem_flatMap.1 hm
    have := ht.left e (List.mem_filter.1 he).1 v hve
    omega
  · intro hm
    obtain ⟨e, he, -⟩ := List.mem_flatMap.1 hm
    obtain ⟨h1, h2⟩ := List.mem_filter.1 he
    have := ht.right e h1
    simp only [gt_iff_lt, decide_eq_true_eq] at h2
    omega

/-- The ladder for version 0 that shows that there is none: version 0 is looked up. -/
theorem ladder_none {vt vt' : Tracker} {x : Nat} {om : Bool} {flags : List Bool} {w : List Nat}
    (h : receiveLadder vt x 0 om flags = .ok (w, -1, vt')) : (0, false) ∈ w.zip flags := by
  obtain ⟨base, hb, l, hl, hr, hz, -⟩ := receiveLadder_parts h
  obtain ⟨-, -, cm, -⟩ := Props.C20_interpretation l 0 flags
  obtain ⟨pre, v, post, e1, e2, e3⟩ := cm.1 hr
  obtain rfl : v = 0 := by omega
  rw [hz, e1, e3, List.zip_append (by simp)]
  simp

section
variable {E : List (List Prefix.Entry × Prefix.Proof)} {M : List (Nat × Nat)} {roots : Nat → Option Bytes} {proofs : List Prefix.Proof}

theorem TFacts.split {t1 t2 : List Ev} {vt z : Tracker} (h : TFacts cs Vs proofs E M roots vt (t1 ++ t2) z) :
    ∃ y, TFacts cs Vs proofs E M roots vt t1 y ∧ TFacts cs Vs proofs E M roots y t2 z := by
  induction t1 generalizing vt with
  | nil => exact ⟨vt, .nil _, h⟩
  | cons e t1 ih =>
    cases h with
    | ts a h => obtain ⟨y, y1, y2⟩ := ih h; exact ⟨y, .ts a y1, y2⟩
    | search a b c h => obtain ⟨y, y1, y2⟩ := ih h; exact ⟨y, .search a b c y1, y2⟩
    | monitor a b c h => obtain ⟨y, y1, y2⟩ := ih h; exact ⟨y, .monitor a b c y1, y2⟩
    | incl a b h => obtain ⟨y, y1, y2⟩ := ih h; exact ⟨y, .incl a b y1, y2⟩
    | stop h => obtain ⟨y, y1, y2⟩ := ih h; exact ⟨y, .stop y1, y2⟩
    | add h => obtain ⟨y, y1, y2⟩ := ih h; exact ⟨y, .add y1, y2⟩

theorem TFacts.tok {tr : List Ev} {vt z : Tracker} (h : TFacts cs Vs proofs E M roots vt tr z) {G : Int} {b : Nat} (ht : TOK G b vt)
    (hc : ∀ e ∈ tr, e.Calm G) (hm : ∀ e ∈ tr, ∀ x, e.q.mark = some x → x ≤ b) : TOK G b z := by
  induction h with
  | nil => exact ht
  | ts _ _ ih | monitor _ _ _ _ ih | incl _ _ _ ih | stop _ ih =>
    exact ih ht (fun e he => hc e (List.mem_cons_of_mem _ he)) (fun e he => hm e (List.mem_cons_of_mem _ he))
  | @search vt tr z x ver om res vt' w flags a b' c h ih =>
    refine ih ?_ (fun e he => hc e (List.mem_cons_of_mem _ he)) (fun e he => hm e (List.mem_cons_of_mem _ he))
    have hcal := (hc _ List.mem_cons_self).2 _ _ _ _ rfl
    have hres := calm_results b' hcal
    obtain ⟨base, hb, l, hl, hr, hz, hadd⟩ := receiveLadder_parts b'
    rw [hz] at hres
    exact ht.addResults hadd hres (hm _ List.mem_cons_self x rfl)
  | @add vt tr z x om g l h ih =>
    refine ih ?_ (fun e he => hc e (List.mem_cons_of_mem _ he)) (fun e he => hm e (List.mem_cons_of_mem _ he))
    exact ht.addLadder ((hc _ List.mem_cons_self).1 _ _ _ _ _ rfl) (hm _ List.mem_cons_self x rfl)

theorem TFacts.mem_ts {tr : List Ev} {vt z : Tracker} (h : TFacts cs Vs proofs E M roots vt tr z) {x a : Nat}
    (hm : (⟨.ts x, .ok a⟩ : Ev) ∈ tr) : (x, a) ∈ M := by
  induction h with
  | nil => cases hm
  | ts h1 _ ih =>
    rcases List.mem_cons.1 hm with hm | hm
    · cases hm; exact h1
    · exact ih hm
  | search _ _ _ _ ih | monitor _ _ _ _ ih | incl _ _ _ ih | stop _ ih | add _ ih =>
    rcases List.mem_cons.1 hm with hm | hm
    · cases hm
    · exact ih hm

theorem TFacts.mem_incl {tr : List Ev} {vt z : Tracker} (h : TFacts cs Vs proofs E M roots vt tr z) {x : Nat} {vers : List Nat}
    (hm : (⟨.incl x vers, .ok ()⟩ : Ev) ∈ tr) : (vers ≠ [] → x ∈ M.map Prod.fst) ∧ ∀ v ∈ vers, Shown cs Vs proofs E roots x v true := by
  induction h with
  | nil => cases hm
  | incl h1 h2 _ ih =>
    rcases List.mem_cons.1 hm with hm | hm
    · cases hm; exact ⟨h1, h2⟩
    · exact ih hm
  | search _ _ _ _ ih | monitor _ _ _ _ ih | ts _ _ ih | stop _ ih | add _ ih =>
    rcases List.mem_cons.1 hm with hm | hm
    · cases hm
    · exact ih hm

theorem TFacts.tsTrace {tr : List Ev} {vt z : Tracker} {ts : Nat → Nat} {g : Nat → Int} {n : Nat} (h : TFacts cs Vs proofs E M roots vt tr z)
    (hT : Truth cs Vs proofs E M roots ts g n) : TsTrace tr ts := fun _ _ hm => hT.times _ _ (h.mem_ts hm)

/-- the ladder behind a search in a walk from left to right -/
theorem TFacts.mem_search {tr : List Ev} {vt z : Tracker} (h : TFacts cs Vs proofs E M roots vt tr z) {G : Int} {x ver : Nat} {om : Bool} {res : Int}
    (hm : (⟨.search x ver om, .ok res⟩ : Ev) ∈ tr) (ht : TOK G 0 vt) (hc : ∀ t1 e t2, tr = t1 ++ ⟨.search x ver om, .ok res⟩ :: t2 → e ∈ t1 → e.Calm G)
    (ho : (tr.filterMap (fun e => e.q.mark)).Pairwise (· ≤ ·)) :
    x ∈ M.map Prod.fst ∧ ∃ vt1 vt2 w flags, TOK G x vt1 ∧ receiveLadder vt1 x ver om flags = .ok (w, res, vt2) ∧
      ∀ v b, (v, b) ∈ w.zip flags → Shown cs Vs proofs E roots x v b := by
  obtain ⟨t1, t2, rfl⟩ := List.append_of_mem hm
  obtain ⟨y, y1, y2⟩ := h.split
  rw [List.filterMap_append, List.filterMap_cons_some (f := fun e : Ev => e.q.mark) (a := ⟨.search x ver om, .ok res⟩) (b := x) rfl, List.pairwise_append] at ho
  have hy : TOK G x y := y1.tok (ht.mono (Nat.zero_le _)) (fun e he => hc t1 e t2 rfl he)
    (fun e he u hu => ho.2.2 u (List.mem_filterMap.2 ⟨e, he, hu⟩) x List.mem_cons_self)
  cases y2 with
  | search a b c _ => exact ⟨a, _, _, _, _, hy, b, c⟩

end

/-! ### the walk of an update -/

theorem nonDistinguishedAncestor_asks {m : Monitor} {t : Nat} : Asks (fun _ => True) (nonDistinguishedAncestor m t) := by
  have loop : ∀ (fuel x l r : Nat), Asks (fun _ => True) (nonDistLoop m.cfg m.treeSize t fuel x l r) := by
    intro fuel
    induction fuel with
    | zero => intro x l r; trivial
    | succ fuel ih =>
      intro x l r
      unfold nonDistLoop
      refine .ite (fun _ => .pure _) (fun _ => .ite (fun _ => .pure _) (fun _ => ?_))
      refine .bind (.getTs trivial) (fun a => .ite (fun _ => ?_) (fun _ => ?_))
      · exact .lift_bind (fun c _ => ih _ _ _)
      · exact .lift_bind (fun c _ => ih _ _ _)
  unfold nonDistinguishedAncestor
  exact .bind (.getTs trivial) (fun a => loop _ _ _ _)

/-- a trace without changes of the tracker -/
theorem Asks.unmarked {α : Type} {p : Prog α} {P : Nat → Prop} (h : Asks P p) {tr : List Ev} {r : G α} (hr : Runs p tr r) :
    tr.filterMap (fun e => e.q.mark) = [] ∧ ∀ e ∈ tr, ∀ G, e.Calm G := by
  have := h.runs hr
  constructor
  · rw [List.filterMap_eq_nil_iff]
    intro e he
    obtain ⟨x, hx, -⟩ := this e he
    rw [hx]; rfl
  · intro e he G
    obtain ⟨x, hx, -⟩ := this e he
    exact ⟨fun _ _ _ _ _ h => (by subst h; simp at hx), fun _ _ _ _ h => (by subst h; simp at hx)⟩

theorem expectLadder_calm {x : Nat} {G : Int} {om : Bool} {tr : List Ev} (hG : G < 2 ^ 32) (h : Runs (expectLadder x G om) tr (.ok ())) :
    tr.filterMap (fun e => e.q.mark) = [x] ∧ ∀ e ∈ tr, e.Calm G := by
  unfold expectLadder at h
  rw [runs_ite] at h
  rcases h with ⟨hneg, h⟩ | ⟨hneg, h⟩
  · obtain ⟨r, t1, t2, rfl, h1, h2⟩ := runs_bind_ok.1 h
    have h1 := runs_call.1 h1
    subst h1
    rw [runs_ite] at h2
    rcases h2 with ⟨-, h2⟩ | ⟨h0, h2⟩
    · exact absurd h2 runs_fail_ok
    obtain ⟨rfl, -⟩ := runs_pure.1 h2
    have h0 : r = (-1 : Int) := by simpa using h0
    subst h0
    refine ⟨rfl, ?_⟩
    intro e he
    obtain rfl := List.mem_singleton.1 he
    refine ⟨by rintro _ _ _ _ _ ⟨⟩, ?_⟩
    rintro _ _ _ _ ⟨⟩
    exact Or.inr ⟨hneg, rfl, rfl⟩
  · obtain ⟨r, t1, t2, rfl, h1, h2⟩ := runs_bind_ok.1 h
    have h1 := runs_call.1 h1
    subst h1
    rw [runs_ite] at h2
    rcases h2 with ⟨-, h2⟩ | ⟨h0, h2⟩
    · exact absurd h2 runs_fail_ok
    obtain ⟨rfl, -⟩ := runs_pure.1 h2
    have h0 : r = (0 : Int) := by simpa using h0
    subst h0
    refine ⟨rfl, ?_⟩
    intro e he
    obtain rfl := List.mem_singleton.1 he
    refine ⟨by rintro _ _ _ _ _ ⟨⟩, ?_⟩
    rintro _ _ _ _ ⟨⟩
    exact Or.inl ⟨rfl, by omega⟩

theorem previousTreeLoop_marks {pos lastUpdate : Nat} {G : Int} (hG : G < 2 ^ 32) : ∀ (fuel lo : Nat) (anc : List Nat) (tr : List Ev), SearchSpec.At pos lo pos anc →
    Runs (previousTreeLoop pos lastUpdate G fuel (SearchSpec.rt lo pos)) tr (.ok ()) →
    (∀ e ∈ tr, e.Calm G) ∧ (∀ x ∈ tr.filterMap (fun e => e.q.mark), SearchSpec.rt lo pos ≤ x ∧ x < pos) ∧
      (tr.filterMap (fun e => e.q.mark)).Pairwise (· ≤ ·) := by
  intro fuel
  induction fuel with
  | zero => intro lo anc tr h hr; unfold previousTreeLoop at hr; cases hr
  | succ fuel ih =>
    intro lo anc tr h hr
    have hb := h.bounds
    unfold previousTreeLoop at hr
    obtain ⟨u, t1, t2, rfl, h1, h2⟩ := runs_bind_ok.1 hr
    have hself : (∀ e ∈ t1, e.Calm G) ∧ (t1.filterMap (fun e => e.q.mark) = [] ∨ t1.filterMap (fun e => e.q.mark) = [SearchSpec.rt lo pos]) := by
      rw [runs_ite] at h1
      rcases h1 with ⟨-, h1⟩ | ⟨-, h1⟩
      · obtain ⟨rfl, -⟩ := runs_pure.1 h1
        exact ⟨by simp, Or.inl rfl⟩
      · obtain ⟨k1, k2⟩ := expectLadder_calm hG h1
        exact ⟨k2, Or.inr k1⟩
    have hrest : (∀ e ∈ t2, e.Calm G) ∧ (∀ x ∈ t2.filterMap (fun e => e.q.mark), SearchSpec.rt lo pos ≤ x ∧ x < pos) ∧
      (t2.filterMap (fun e => e.q.mark)).Pairwise (· ≤ ·) := by
      rw [runs_ite] at h2
      rcases h2 with ⟨-, h2⟩ | ⟨hne, h2⟩
      · obtain ⟨rfl, -⟩ := runs_pure.1 h2
        exact ⟨by simp, by simp, .nil⟩
      · obtain ⟨c, t3, t4, rfl, hl, h2⟩ := runs_bind_ok.1 h2
        obtain ⟨rfl, hl2⟩ := runs_lift.1 hl
        rw [SearchTree.right_rt h (by omega)] at hl2
        have hl3 := Except.ok.inj hl2
        subst hl3
        obtain ⟨k1, k2, k3⟩ := ih _ _ _ (.right h (by omega)) h2
        have hb2 := (SearchSpec.At.right h (by omega)).bounds
        refine ⟨k1, fun x hx => ?_, k3⟩
        obtain ⟨j1, j2⟩ := k2 x hx
        exact ⟨by omega, j2⟩
    obtain ⟨s1, s2⟩ := hself
    obtain ⟨r1, r2, r3⟩ := hrest
    refine ⟨?_, ?_, ?_⟩
    · intro e he
      rcases List.mem_append.1 he with he | he
      · exact s1 e he
      · exact r1 e he
    · rw [List.filterMap_append]
      intro x hx
      rcases List.mem_append.1 hx with hx | hx
      · rcases s2 with s2 | s2
        · rw [s2] at hx; cases hx
        · rw [s2, List.mem_singleton] at hx
          subst hx
          exact ⟨le_refl _, by omega⟩
      · exact r2 x hx
    · rw [List.filterMap_append, List.pairwise_append]
      refine ⟨?_, r3, ?_⟩
      · rcases s2 with s2 | s2 <;> rw [s2] <;> simp
      · intro a ha b hb'
        rcases s2 with s2 | s2
        · rw [s2] at ha; cases ha
        · rw [s2, List.mem_singleton] at ha
          subst ha
          exact (r2 b hb').1

theorem prepareTracker_marks {o : Owner} {pos x lo : Nat} {anc : List Nat} {tr : List Ev} (hwf : ∀ y, o.greatestAt y ≤ o.greatest)
    (hAt : SearchSpec.At pos lo pos anc) (hx : SearchSpec.rt lo pos = x) (h : Runs (prepareTracker o pos x) tr (.ok ())) :
    (∀ e ∈ tr, e.Calm o.greatest) ∧ (∀ y ∈ tr.filterMap (fun e => e.q.mark), y ≤ x) ∧
      (tr.filterMap (fun e => e.q.mark)).Pairwise (· ≤ ·) := by
  have hb := hAt.bounds
  have calm : ∀ y (g : Int) l, g ≤ o.greatest → ∀ e ∈ [(⟨.addLadder y true g l, .ok ()⟩ : Ev)], e.Calm o.greatest := by
    intro y g l hg e he
    obtain rfl := List.mem_singleton.1 he
    refine ⟨?_, by rintro _ _ _ _ ⟨⟩⟩
    rintro _ _ _ _ _ ⟨⟩
    exact hg
  unfold prepareTracker at h
  rw [runs_ite] at h
  rcases h with ⟨-, h⟩ | ⟨-, h⟩
  · obtain ⟨rfl, -⟩ := runs_pure.1 h
    exact ⟨by simp, by simp, .nil⟩
  obtain ⟨l, t1, t2, rfl, hl, h3⟩ := runs_bind_ok.1 h
  obtain ⟨rfl, -⟩ := runs_lift.1 hl
  rw [runs_ite] at h3
  rcases h3 with ⟨hne, h3⟩ | ⟨-, h3⟩
  · obtain ⟨p, t3, t4, rfl, hp0, h4⟩ := runs_bind_ok.1 h3
    obtain ⟨rfl, hp⟩ := runs_lift.1 hp0
    obtain ⟨u, t5, t6, rfl, h1, h2⟩ := runs_bind_ok.1 h4
    have h1 := runs_call.1 h1
    have h2 := runs_call.1 h2
    subst h1 h2
    have hpx : p < x := by
      cases anc with
      | nil =>
        exfalso
        cases hAt
        exact hne (by rw [SearchTree.root_eq (by omega), hx])
      | cons a anc =>
        have := hAt.parent
        rw [hx, ← hp] at this
        have := Except.ok.inj this
        subst this
        rcases SearchTree.anc_outside hAt p (by simp) with h | h
        · omega
        · have := SearchTree.anc_lt hAt p (by simp)
          omega
    refine ⟨?_, ?_, ?_⟩
    · intro e he
      simp only [List.nil_append, List.cons_append, List.mem_cons, List.not_mem_nil, or_false] at he
      rcases he with rfl | rfl
      · exact calm _ _ _ (hwf _) _ (List.mem_singleton.2 rfl)
      · exact calm _ _ _ (le_refl _) _ (List.mem_singleton.2 rfl)
    · intro y hy
      simp only [List.nil_append, List.cons_append, List.filterMap_cons, Req.mark, List.filterMap_nil, List.mem_cons, List.not_mem_nil, or_false] at hy
      omega
    · simp only [List.nil_append, List.cons_append, List.filterMap_cons, Req.mark, List.filterMap_nil]
      simp
      omega
  · have h2 := runs_call.1 h3
    subst h2
    refine ⟨calm _ _ _ (le_refl _), ?_, ?_⟩
    · intro y hy
      simp only [List.filterMap_cons, Req.mark, List.filterMap_nil, List.mem_cons, List.not_mem_nil, or_false, List.nil_append] at hy
      omega
    · simp [Req.mark]

theorem verifyPreviousTree_marks {m : Monitor} {o : Owner} {pos : Nat} {tr : List Ev} (hp : pos < m.treeSize)
    (hwf : ∀ y, o.greatestAt y ≤ o.greatest) (hG : o.greatest < 2 ^ 32) (h : Runs (verifyPreviousTree m o pos) tr (.ok ())) :
    (∀ e ∈ tr, e.Calm o.greatest) ∧ (∀ x ∈ tr.filterMap (fun e => e.q.mark), x < pos) ∧
      (tr.filterMap (fun e => e.q.mark)).Pairwise (· ≤ ·) := by
  unfold verifyPreviousTree at h
  rw [runs_ite] at h
  rcases h with ⟨-, h⟩ | ⟨h0, h⟩
  · have := (runs_lift.1 h).2
    cases this
  obtain ⟨res, t1, t2, rfl, hr, h⟩ := runs_bind_ok.1 h
  obtain ⟨u1, u2⟩ := nonDistinguishedAncestor_asks.unmarked hr
  have hsp := (nonDistinguishedAncestor_spec (m := m) (by omega : pos - 1 < m.treeSize)).ok _ _ hr
  have key : (∀ e ∈ t2, e.Calm o.greatest) ∧ (∀ x ∈ t2.filterMap (fun e => e.q.mark), x < pos) ∧
      (t2.filterMap (fun e => e.q.mark)).Pairwise (· ≤ ·) := by
    cases res with
    | none =>
      obtain ⟨rfl, -⟩ := runs_pure.1 h
      exact ⟨by simp, by simp, .nil⟩
    | some x =>
      obtain ⟨lo, hi, anc, rfl, hAt, h1, h2⟩ := hsp x rfl
      obtain ⟨hi', anc', hl, hAt', h3, h4⟩ := leftUntil_eq (by omega : 0 < pos) (SearchSpec.rt lo hi + 1) lo hi anc hAt (by omega) (by omega) (by omega)
      obtain ⟨c, t3, t4, rfl, hc, h⟩ := runs_bind_ok.1 h
      obtain ⟨rfl, hc2⟩ := runs_lift.1 hc
      rw [hl] at hc2
      have hc3 := Except.ok.inj hc2
      subst hc3
      obtain ⟨u, t5, t6, rfl, hpt, h⟩ := runs_bind_ok.1 h
      have hb' := hAt'.bounds
      rw [← rt_shrink (by omega) h3 h4] at h
      have hsh := at_shrink hAt (pos := pos) (by omega) (by omega)
      obtain ⟨a1, a2, a3⟩ := prepareTracker_marks hwf hsh (rt_shrink (by omega) h3 h4) hpt
      obtain ⟨b1, b2, b3⟩ := previousTreeLoop_marks hG _ _ _ _ hsh h
      have hbs := hsh.bounds
      rw [List.nil_append, List.filterMap_append]
      refine ⟨?_, ?_, ?_⟩
      · intro e he
        rcases List.mem_append.1 he with he | he
        · exact a1 e he
        · exact b1 e he
      · intro y hy
        rcases List.mem_append.1 hy with hy | hy
        · have := a2 y hy; omega
        · exact (b2 y hy).2
      · rw [List.pairwise_append]
        refine ⟨a3, b3, ?_⟩
        intro a ha b hb
        have k1 := a2 a ha
        have k2 := (b2 b hb).1
        rw [rt_shrink (by omega) h3 h4] at k2
        omega
  rw [List.filterMap_append, u1, List.nil_append]
  refine ⟨?_, key.2.1, key.2.2⟩
  intro e he
  rcases List.mem_append.1 he with he | he
  · exact u2 e he _
  · exact key.1 e he

end Katie.Alg
