import Verif.Lemmas.Simulate
import Verif.Lemmas.ClientSearch
import Verif.Spec.HonestLog

/-
The server's provider answers like an honest log, and the requests of the algorithms on an honest log are of the kind
that a client can follow (`Fits`).
-/

namespace Katie.Alg
open Katie Katie.Wire Katie.Ladder Katie.Props Katie.SearchSpec Katie.SearchTree Prog

/-- the tables of the provider hold what is in the log -/
structure Agrees {σ : Type} (n : Nat) (E : Nat → LogEntry) (p : Provider σ) : Prop where
  ts : ∀ e ∈ p.timestamps, e.1 < n ∧ e.2 = (E e.1).timestamp
  roots : ∀ x r, p.prefixTrees.lookup x = some r → r = (E x).prefixTree

theorem addTimestamp_agrees {m : List (Nat × Nat)} {n : Nat} {E : Nat → LogEntry} (ht : GoodTimes (fun x => (E x).timestamp) n)
    (hm : ∀ e ∈ m, e.1 < n ∧ e.2 = (E e.1).timestamp) {x : Nat} (hx : x < n) (hl : m.lookup x = none) :
    addTimestamp m x (E x).timestamp = .ok ((x, (E x).timestamp) :: m) := by
  unfold addTimestamp
  have h1 := lookup_none hl
  rw [if_neg, if_neg]
  · rw [List.any_eq_true]
    rintro ⟨e, he, h⟩
    obtain ⟨h2, h3⟩ := hm e he
    rw [decide_eq_true_eq, h3] at h
    rcases h with ⟨ha, hb⟩ | ⟨ha, hb⟩
    · have := ht.1 x e.1 (by omega) h2
      simp only at this
      omega
    · have := ht.1 e.1 x (by omega) hx
      simp only at this
      omega
  · rw [List.any_eq_true]
    rintro ⟨e, he, h⟩
    rw [beq_iff_eq] at h
    exact h1 (List.mem_map.2 ⟨e, he, h.symm⟩)

theorem addPrefixTree_agrees {m : List (Nat × Bytes)} {E : Nat → LogEntry}
    (hm : ∀ x r, m.lookup x = some r → r = (E x).prefixTree) (x : Nat) :
    ∃ m', addPrefixTree m x (E x).prefixTree = .ok m' ∧ ∀ x r, m'.lookup x = some r → r = (E x).prefixTree := by
  unfold addPrefixTree
  cases hl : m.lookup x with
  | some r =>
    simp only
    rw [if_neg (by rw [hm x r hl]; simp)]
    exact ⟨m, rfl, hm⟩
  | none =>
    refine ⟨_, rfl, ?_⟩
    intro y r hy
    rw [List.lookup_cons] at hy
    by_cases hk : y = x
    · subst hk; simp at hy; exact hy.symm
    · rw [show (y == x) = false by simpa using hk] at hy
      exact hm y r hy

section
variable {cs : Log.Suite} {db : ServerDB} {index : List Nat} {n : Nat} {E : Nat → LogEntry} {stop : Nat → Int → Bool}

theorem getTimestamp_honest (hE : ∀ x < n, db.entry x = .ok (E x)) (ht : GoodTimes (fun x => (E x).timestamp) n)
    {p : Provider Produced} (hp : Agrees n E p) {x : Nat} (hx : x < n) :
    (p.getTimestamp (Produced.handle db index) x).1 = .ok (E x).timestamp ∧
      Agrees n E (p.getTimestamp (Produced.handle db index) x).2 ∧
      (p.getTimestamp (Produced.handle db index) x).2.state.tracker = p.state.tracker := by
  unfold Provider.getTimestamp
  cases hl : p.timestamps.lookup x with
  | some t => exact ⟨congrArg Except.ok (hp.ts _ (Alg.lookup_mem hl)).2, hp, rfl⟩
  | none =>
    simp only [Produced.handle, Produced.getTs, hE x hx, addTimestamp_agrees ht hp.ts hx hl]
    refine ⟨trivial, ⟨?_, hp.roots⟩, trivial⟩
    intro e he
    rcases List.mem_cons.1 he with rfl | he
    · exact ⟨hx, rfl⟩
    · exact hp.ts e he

theorem record_honest {β : Type} {p : Provider Produced} (hp : Agrees n E p) (x : Nat) (b : β) :
    (Provider.record x (E x).prefixTree b p).1 = .ok b ∧ Agrees n E (Provider.record x (E x).prefixTree b p).2 ∧
      (Provider.record x (E x).prefixTree b p).2.state = p.state := by
  unfold Provider.record
  obtain ⟨m', h1, h2⟩ := addPrefixTree_agrees hp.roots x
  rw [h1]
  exact ⟨rfl, ⟨hp.ts, h2⟩, rfl⟩

theorem viaRoot_honest {γ : Type} (hE : ∀ x < n, db.entry x = .ok (E x)) (ht : GoodTimes (fun x => (E x).timestamp) n)
    {p : Provider Produced} (hp : Agrees n E p) {x : Nat} (hx : x < n) {w : List Nat}
    {fp : Produced → G (Bytes × γ) × Produced} {c : γ} {vt' : Tracker}
    (hfp : ∀ s, s.tracker = p.state.tracker → fp s = (.ok ((E x).prefixTree, c), { s with proofs := s.proofs ++ [(x, w)], tracker := vt' })) :
    (viaRoot (Produced.handle db index) x fp p).1 = .ok c ∧
      Agrees n E (viaRoot (Produced.handle db index) x fp p).2 ∧
      (viaRoot (Produced.handle db index) x fp p).2.state.tracker = vt' := by
  unfold viaRoot
  obtain ⟨h1, h2, h3⟩ := getTimestamp_honest (index := index) hE ht hp hx
  revert h1 h2 h3
  generalize p.getTimestamp (Produced.handle db index) x = r
  obtain ⟨r1, p'⟩ := r
  rintro rfl h2 h3
  simp only at h2 h3 ⊢
  rw [hfp _ h3]
  simp only
  obtain ⟨a1, a2, a3⟩ := record_honest (p := { p' with state := { p'.state with proofs := p'.state.proofs ++ [(x, w)], tracker := vt' } })
    ⟨h2.ts, h2.roots⟩ x c
  exact ⟨a1, a2, by rw [a3]⟩

/-- the entries searched with omission after a request -/
def doneAfter (done : List Nat) : Req → List Nat
  | .search x _ om => if om then done ++ [x] else done
  | _ => done

theorem fits_tail {g : Nat → Int} {n : Nat} {more : Bool} {done : List Nat} {e : Ev} {k : List Ev} (h : Fits g n more done (e :: k)) :
    Fits g n more (doneAfter done e.q) k := by
  obtain ⟨q, a⟩ := e
  cases q with
  | ts x => exact h.2
  | search x v om => exact h.2.2.2
  | monitor x v => exact h.2.2.2
  | incl x vers => exact h.2
  | stop x v => exact h.2
  | addLadder x om g l => exact absurd h (by simp [Fits])

/-- The server answers a request that fits as an honest log does (apart from "stop"). -/
theorem answer_honest (hE : ∀ x < n, db.entry x = .ok (E x)) (ht : GoodTimes (fun x => (E x).timestamp) n)
    (hi : index.length ≤ 2 ^ 32) {q : Req} {a : G q.Resp} {k : List Ev} {more : Bool} {done : List Nat} {p : Provider Produced}
    (hp : Agrees n E p) (hrec : Recorded (greatestAt index) done p.state.tracker)
    (hfit : Fits (greatestAt index) n more done (⟨q, a⟩ :: k))
    (hst : ∀ x v, q ≠ .stop x v) :
    (p.answer (Produced.handle db index) q).1 = honest (fun x => (E x).timestamp) (greatestAt index) stop q ∧
      Agrees n E (p.answer (Produced.handle db index) q).2 ∧
      Recorded (greatestAt index) (doneAfter done q) (p.answer (Produced.handle db index) q).2.state.tracker := by
  cases q with
  | ts x =>
    obtain ⟨h1, h2, h3⟩ := getTimestamp_honest (index := index) hE ht hp hfit.1
    exact ⟨h1, h2, h3.symm ▸ hrec⟩
  | search x v om =>
    obtain ⟨hx, hv, hdir, hk⟩ := hfit
    have he : p.answer (Produced.handle db index) (.search x v om) = viaRoot (Produced.handle db index) x _ p :=
      getSearch_eq _ x v om p
    have key : ∃ w vt', produceLadder p.state.tracker x v om (greatestAt index x) = .ok (w, cmp3 (greatestAt index x) v, vt') ∧
        receiveLadder p.state.tracker x v om (w.map (fun (v : Nat) => decide ((v : Int) ≤ greatestAt index x))) =
          .ok (w, cmp3 (greatestAt index x) v, vt') ∧
        Recorded (greatestAt index) (if om then done ++ [x] else done) vt' := by
      cases om with
      | true =>
        obtain ⟨w, vt', h1, h2, h3, h4, h5, _⟩ := visit_served hv (greatestAt_lt hi x) (greatestAt_mono index) hrec (hdir rfl)
        exact ⟨w, vt', h1, h2, h3⟩
      | false =>
        obtain ⟨w, h1, h2, h4, h5, _⟩ := visit_served_full hv p.state.tracker (greatestAt_lt hi x) (greatestAt_mono index)
        exact ⟨w, _, h1, h2, hrec⟩
    obtain ⟨w, vt', h1, h2, h3⟩ := key
    obtain ⟨s1, -⟩ := search_sim (cs := ⟨fun b => b, 0⟩) hE hx h1 h2
    obtain ⟨a1, a2, a3⟩ := viaRoot_honest (index := index) (fp := (Produced.handle db index).search x v om) hE ht hp hx s1
    rw [he]
    exact ⟨a1, a2, a3.symm ▸ h3⟩
  | monitor x v =>
    obtain ⟨hx, hv, hg, hk⟩ := hfit
    have he : p.answer (Produced.handle db index) (.monitor x v) = viaRoot (Produced.handle db index) x _ p :=
      getMonitor_eq _ x v p
    obtain ⟨b, hb, hbis, -, -, -⟩ := baseBinaryLadder_ok hv
    have h1 : monitoringBinaryLadder v = .ok (b.filter (fun u => u ≤ v)) := by
      unfold monitoringBinaryLadder; rw [hb]; rfl
    obtain ⟨s1, -⟩ := monitor_sim (cs := ⟨fun b => b, 0⟩) hE hx p.state.tracker h1
      (fun u hu => of_decide_eq_true (List.mem_filter.1 hu).2) hg
    obtain ⟨a1, a2, a3⟩ := viaRoot_honest (index := index) (fp := withUnit ((Produced.handle db index).monitor x v)) hE ht hp hx s1
    rw [he]
    refine ⟨?_, a2, a3.symm ▸ hrec⟩
    simp only [honest, if_pos hg]
    exact a1
  | incl x vers =>
    obtain ⟨hc, hk⟩ := hfit
    have he : p.answer (Produced.handle db index) (.incl x vers) = _ := getIncl_eq (Produced.handle db index) x vers p
    rcases hc with rfl | ⟨hx, v, rfl, hg⟩
    · rw [he]
      exact ⟨rfl, hp, hrec⟩
    · rw [if_neg (by simp)] at he
      obtain ⟨s1, -⟩ := incl_sim (cs := ⟨fun b => b, 0⟩) (index := index) hE hx p.state.tracker hg
      obtain ⟨a1, a2, a3⟩ := viaRoot_honest (index := index) (fp := withUnit ((Produced.handle db index).incl x [v])) hE ht hp hx s1
      rw [he]
      refine ⟨?_, a2, a3.symm ▸ hrec⟩
      simp only [honest, List.all_cons, List.all_nil, Bool.and_true]
      rw [if_pos (by simpa using hg)]
      exact a1
  | stop x v => exact absurd rfl (hst x v)
  | addLadder x om g l => exact absurd hfit (by simp [Fits])

/-- A run of the server is the run on the honest log. -/
theorem run_honest (hE : ∀ x < n, db.entry x = .ok (E x)) (ht : GoodTimes (fun x => (E x).timestamp) n)
    (hi : index.length ≤ 2 ^ 32) {α : Type} {prog : Prog α} {tr : List Ev} {r : G α} (hr : Runs prog tr r)
    (ha : AgreesWith tr (honest (fun x => (E x).timestamp) (greatestAt index) stop)) {more : Bool} {done : List Nat}
    {p : Provider Produced} (hp : Agrees n E p) (hrec : Recorded (greatestAt index) done p.state.tracker)
    (hfit : Fits (greatestAt index) n more done tr) (hst : ∀ e ∈ tr, ∀ x v, e.q ≠ .stop x v) :
    p.trace (Produced.handle db index) prog = tr ∧ (p.run (Produced.handle db index) prog).1 = r ∧
      Agrees n E (p.run (Produced.handle db index) prog).2 := by
  induction hr generalizing p done with
  | ret r => exact ⟨rfl, rfl, hp⟩
  | @op q k a tr r _ ih =>
    obtain ⟨a1, a2, a3⟩ := answer_honest (stop := stop) hE ht hi hp hrec hfit (hst _ List.mem_cons_self)
    have a4 := fits_tail hfit
    have hh : a = _ := ha _ List.mem_cons_self
    rw [← hh] at a1
    have := ih (fun e he => ha e (List.mem_cons_of_mem _ he)) a2 a3 a4 (fun e he => hst e (List.mem_cons_of_mem _ he))
    unfold Provider.trace Provider.run
    rw [a1]
    rw [this.1]
    exact ⟨rfl, this.2⟩

end

/-! ### the algorithms fit -/

section
variable {ts : Nat → Nat} {g : Nat → Int} {stop : Nat → Int → Bool} {n : Nat} {more : Bool}

theorem fits_ts_append {done : List Nat} : ∀ {t1 t2 : List Ev}, (∀ e ∈ t1, ∃ x, e.q = .ts x ∧ x < n) →
    Fits g n more done t2 → Fits g n more done (t1 ++ t2)
  | [], _, _, h => h
  | ⟨q, a⟩ :: t1, t2, h1, h2 => by
    obtain ⟨x, hx, hn⟩ := h1 _ List.mem_cons_self
    simp only at hx
    subst hx
    exact ⟨hn, fits_ts_append (fun e he => h1 e (List.mem_cons_of_mem _ he)) h2⟩

theorem fits_ts {done : List Nat} {tr : List Ev} (h : ∀ e ∈ tr, ∃ x, e.q = .ts x ∧ x < n) : Fits g n more done tr := by
  have := fits_ts_append (more := more) (g := g) (done := done) (t2 := []) h trivial
  simpa using this

/-- on the honest log the requests of the program fit -/
def FitsP (ts : Nat → Nat) (g : Nat → Int) (stop : Nat → Int → Bool) (n : Nat) (more : Bool) (done : List Nat) {α : Type}
    (prog : Prog α) : Prop :=
  ∀ tr r, Runs prog tr r → AgreesWith tr (honest ts g stop) →
    Fits g n more done tr ∧ ∀ e ∈ tr, ∀ x v, e.q ≠ .stop x v

theorem FitsP.ret {done : List Nat} {α : Type} (r : G α) : FitsP ts g stop n more done (.ret r) := by
  intro tr r' h _
  cases h
  exact ⟨trivial, by simp⟩

theorem FitsP.lift_bind {done : List Nat} {α β : Type} {r : G α} {f : α → Prog β}
    (h : ∀ a, r = .ok a → FitsP ts g stop n more done (f a)) : FitsP ts g stop n more done (lift r >>= f) := by
  cases r with
  | ok a => exact h a rfl
  | error e => exact FitsP.ret _

theorem FitsP.ite {done : List Nat} {α : Type} {c : Prop} [Decidable c] {p q : Prog α}
    (h1 : c → FitsP ts g stop n more done p) (h2 : ¬ c → FitsP ts g stop n more done q) :
    FitsP ts g stop n more done (if c then p else q) := by
  split
  · exact h1 ‹_›
  · exact h2 ‹_›

theorem FitsP.ts_bind {done : List Nat} {α : Type} {x : Nat} (hx : x < n) {f : Nat → Prog α}
    (h : FitsP ts g stop n more done (f (ts x))) : FitsP ts g stop n more done (getTs x >>= f) := by
  intro tr r hr ha
  change Runs (.op (.ts x) (fun a => (Prog.ret a).bind f)) tr r at hr
  cases hr with
  | @op _ _ a tr r hr =>
    have h1 : a = .ok (ts x) := ha _ List.mem_cons_self
    subst h1
    obtain ⟨h1, h2⟩ := h tr r hr (fun e he => ha e (List.mem_cons_of_mem _ he))
    exact ⟨⟨hx, h1⟩, List.forall_mem_cons.2 ⟨(fun _ _ h => by cases h), h2⟩⟩

theorem FitsP.search_bind {done : List Nat} {α : Type} {x v : Nat} (hx : x < n) (hv : v < 2 ^ 31 - 1)
    (hd : ∀ a ∈ done, (a < x → g a ≤ v) ∧ (x < a → (v : Int) < g a)) {f : Int → Prog α}
    (h : FitsP ts g stop n more (done ++ [x]) (f (cmp3 (g x) v))) :
    FitsP ts g stop n more done (getSearch x v true >>= f) := by
  intro tr r hr ha
  change Runs (.op (.search x v true) (fun a => (Prog.ret a).bind f)) tr r at hr
  cases hr with
  | @op _ _ a tr r hr =>
    have h1 : a = Except.ok (cmp3 (g x) v) := ha _ List.mem_cons_self
    subst h1
    obtain ⟨h1, h2⟩ := h tr r hr (fun e he => ha e (List.mem_cons_of_mem _ he))
    exact ⟨⟨hx, hv, fun _ => hd, h1⟩, List.forall_mem_cons.2 ⟨(fun _ _ h => by cases h), h2⟩⟩

theorem FitsP.incl_bind {done : List Nat} {α : Type} {x v : Nat} (hx : x < n) (hv : (v : Int) ≤ g x) {f : Unit → Prog α}
    (h : FitsP ts g stop n more done (f ())) : FitsP ts g stop n more done (getIncl x [v] >>= f) := by
  intro tr r hr ha
  change Runs (.op (.incl x [v]) (fun a => (Prog.ret a).bind f)) tr r at hr
  cases hr with
  | @op _ _ a tr r hr =>
    have h1 : a = honest ts g stop (.incl x [v]) := ha _ List.mem_cons_self
    have h2 : honest ts g stop (.incl x [v]) = Except.ok () := by
      simp only [honest, List.all_cons, List.all_nil, Bool.and_true]
      exact if_pos (by simpa using hv)
    rw [h2] at h1
    subst h1
    obtain ⟨h1, h2⟩ := h tr r hr (fun e he => ha e (List.mem_cons_of_mem _ he))
    exact ⟨⟨.inr ⟨hx, v, rfl, hv⟩, h1⟩, List.forall_mem_cons.2 ⟨(fun _ _ h => by cases h), h2⟩⟩

theorem FitsP.of_asks {done : List Nat} {α : Type} {p : Prog α} (h : Asks (fun x => x < n) p) :
    FitsP ts g stop n more done p := by
  intro tr r hr _
  refine ⟨fits_ts (Asks.runs h hr), ?_⟩
  intro e he x v hq
  obtain ⟨y, hy, _⟩ := Asks.runs h hr e he
  rw [hq] at hy
  cases hy

/-- a part that only reads timestamps, with error handling -/
theorem FitsP.asks_bind {done : List Nat} {α β : Type} {p : Prog α} {f : α → Prog β} (h : Asks (fun x => x < n) p)
    (hf : ∀ a, eval (honest ts g stop) p = .ok a → FitsP ts g stop n more done (f a)) :
    FitsP ts g stop n more done (p >>= f) := by
  change FitsP ts g stop n more done (p.bind f)
  induction p with
  | ret r =>
    cases r with
    | ok a => exact hf a rfl
    | error e => exact FitsP.ret _
  | op q k ih =>
    obtain ⟨⟨x, rfl, hx⟩, h2⟩ := h
    intro tr r hr ha
    change Runs (.op (.ts x) (fun a => (k a).bind f)) tr r at hr
    cases hr with
    | @op _ _ a tr r hr =>
      have h1 : a = .ok (ts x) := ha _ List.mem_cons_self
      subst h1
      obtain ⟨h1, h2⟩ := ih _ (h2 _) (fun a ha => hf a ha) tr r hr (fun e he => ha e (List.mem_cons_of_mem _ he))
      exact ⟨⟨hx, h1⟩, List.forall_mem_cons.2 ⟨(fun _ _ h => by cases h), h2⟩⟩

/-- GreatestVersionSearch: the claimed version is the greatest one -/
theorem greatestLoop_fits (hg : SearchSpec.Grows g n) {v : Nat} (hv : v < 2 ^ 31 - 1) (hgv : g (n - 1) ≤ v) :
    ∀ (fuel lo : Nat) (anc : List Nat) (term : Option Nat) (done : List Nat), At n lo n anc → (∀ a ∈ done, a < lo) →
    FitsP ts g stop n more done (greatestLoop v n fuel (rt lo n) term) := by
  intro fuel
  induction fuel with
  | zero => intro lo anc term done _ _; exact FitsP.ret _
  | succ fuel ih =>
    intro lo anc term done hat hd
    have hb := hat.bounds
    unfold greatestLoop
    refine .search_bind (by omega) hv (fun a ha => ?_) ?_
    · have := hd a ha
      refine ⟨fun _ => ?_, fun h => by omega⟩
      have := hg a (n - 1) (by omega) (by omega)
      omega
    · refine .ite (fun _ => .ret _) (fun _ => .ite (fun hx => .lift_bind (fun r hr => ?_)) (fun _ =>
        .ite (fun _ => .ret _) (fun _ => .ite (fun _ => .ret _) (fun _ => .ret _))))
      rw [right_rt hat (by omega)] at hr
      cases hr
      refine ih _ _ _ _ (.right hat (by omega)) (fun a ha => ?_)
      rcases List.mem_append.1 ha with ha | ha
      · have := hd a ha; omega
      · rw [List.mem_singleton.1 ha]; omega

theorem asks_attempt {α : Type} {P : Nat → Prop} {p : Prog α} (h : Asks P p) : Asks P (attempt p) := by
  induction p with
  | ret r => match r with
    | .ok a => trivial
    | .error (.err m) => trivial
    | .error (.panic m) => trivial
    | .error .diverge => trivial
  | op q k ih => exact ⟨h.1, fun a => ih a (h.2 a)⟩

theorem spine_lt {lo hi y : Nat} (h : Spine lo hi y) (hlt : lo < hi) : y < hi := by
  induction h with
  | here => exact (rt_bounds hlt).2
  | right h _ ih => exact ih h

theorem greatestVersionSearch_fits {cfg : Config} (h0 : 0 < n) (ht : GoodTimes ts n) (hg : SearchSpec.Grows g n) {v : Nat}
    (hv : v < 2 ^ 31 - 1) (hgv : g (n - 1) ≤ v) : FitsP ts g stop n more [] (greatestVersionSearch cfg v n) := by
  unfold greatestVersionSearch
  rw [if_neg (by omega)]
  refine .asks_bind (asks_attempt (rightmostDistinguished_asks h0 (fun y hy => spine_lt hy h0) (by omega))) (fun d hd => ?_)
  obtain ⟨r, hr, hgr⟩ := rightmostDistinguished_eval (cfg := cfg) (honest_ts (ts := ts) (g := g) (stop := stop) (n := n))
  rw [eval_attempt_ok _ _ _ hr] at hd
  cases hd
  simp only
  have hgr' : IsGreatest' (Distinguished (Wide cfg.rmw) ts n) r := by
    cases r with
    | none => exact fun y hy => hgr y ((distinguished_code_iff ht).2 hy)
    | some x => exact ⟨(distinguished_code_iff ht).1 hgr.1, fun y hy => hgr.2 y ((distinguished_code_iff ht).2 hy)⟩
  cases r with
  | none =>
    rw [Option.getD_none, root_eq h0]
    exact greatestLoop_fits hg hv hgv _ _ _ _ _ (.root h0) (by simp)
  | some x =>
    obtain ⟨lo, anc, h, e⟩ := greatest_onFrontier ht hgr'
    rw [Option.getD_some, ← e]
    exact greatestLoop_fits hg hv hgv _ _ _ _ _ h (by simp)

theorem fixedFinish_fits {v : Nat} {term : Option Nat} {exp : Bool} {dist done : List Nat}
    (h : ∀ t, term = some t → t < n ∧ (v : Int) ≤ g t) :
    FitsP ts g stop n more done (fixedFinish v term exp dist) := by
  unfold fixedFinish
  cases term with
  | none => exact .ret _
  | some t =>
    obtain ⟨h1, h2⟩ := h t rfl
    exact .ite (fun _ => .ret _) (fun _ => .incl_bind h1 h2 (.ret _))

theorem cmp3_nonneg {a : Int} {v : Nat} (h : cmp3 a v ≥ 0) : (v : Int) ≤ a := by
  unfold cmp3 at h
  split at h
  · simp at h
  · omega

theorem fixedLoop_fits {cfg : Config} {v rm : Nat} (hv : v < 2 ^ 31 - 1) :
    ∀ (fuel lo hi : Nat) (anc : List Nat) (s : FixedState) (done : List Nat), At n lo hi anc → s.x = rt lo hi →
    (∀ t, s.terminal = some t → t < n ∧ (v : Int) ≤ g t) →
    (∀ a ∈ done, (a < lo ∧ g a < v) ∨ (hi ≤ a ∧ (v : Int) < g a)) →
    FitsP ts g stop n more done (fixedLoop cfg v n rm fuel s) := by
  intro fuel
  induction fuel with
  | zero => intro lo hi anc s done _ _ _ _; exact .ret _
  | succ fuel ih =>
    intro lo hi anc s done hat hsx hterm hd
    have hb := hat.bounds
    unfold fixedLoop
    refine .ts_bind (by omega) ?_
    refine .ite (fun _ => .ite (fun _ => fixedFinish_fits hterm) (fun hnr => .lift_bind (fun r hr => ?_))) (fun _ => ?_)
    · have hr' : rt lo hi + 1 < hi := by
        by_contra hc
        exact hnr (by rw [hsx]; exact (noRightChild_iff hat).2 hc)
      rw [hsx, right_rt hat hr'] at hr
      cases hr
      exact ih _ _ _ _ _ (.right hat hr') rfl hterm (fun a ha => by have := hd a ha; omega)
    · simp only
      rw [hsx]
      refine .search_bind (by omega) hv (fun a ha => by have := hd a ha; omega) ?_
      have hterm' : ∀ t, (if cmp3 (g (rt lo hi)) v ≥ 0 ∧ s.terminal.all (fun t => decide (rt lo hi < t)) = true
          then some (rt lo hi) else s.terminal) = some t → t < n ∧ (v : Int) ≤ g t := by
        intro t ht
        split at ht
        · next hc =>
          cases ht
          exact ⟨by omega, cmp3_nonneg hc.1⟩
        · exact hterm t ht
      refine .ite (fun hm => .ite (fun _ => fixedFinish_fits hterm') (fun hnr => .lift_bind (fun r hr => ?_))) (fun hm =>
        .ite (fun hp => .ite (fun _ => fixedFinish_fits hterm') (fun hnl => .lift_bind (fun r hr => ?_))) (fun _ =>
          .ite (fun _ => .ret _) (fun _ => .ite (fun _ => .ret _) (fun _ => .ret _))))
      · have hr' : rt lo hi + 1 < hi := by
          by_contra hc
          exact hnr ((noRightChild_iff hat).2 hc)
        rw [right_rt hat hr'] at hr
        cases hr
        refine ih _ _ _ _ _ (.right hat hr') rfl hterm' (fun a ha => ?_)
        rcases List.mem_append.1 ha with ha | ha
        · have := hd a ha; omega
        · rw [List.mem_singleton.1 ha]
          have := cmp3_lt hm
          omega
      · have hl : lo < rt lo hi := by
          have := mt (noLeftChild_iff hat).2 hnl
          omega
        rw [left_rt hat, if_pos hl] at hr
        cases hr
        refine ih _ _ _ _ _ (.left hat hl) rfl hterm' (fun a ha => ?_)
        rcases List.mem_append.1 ha with ha | ha
        · have := hd a ha; omega
        · rw [List.mem_singleton.1 ha]
          have := cmp3_gt hp
          omega

theorem fixedVersionSearch_fits {cfg : Config} (h0 : 0 < n) {v : Nat} (hv : v < 2 ^ 31 - 1) :
    FitsP ts g stop n more [] (fixedVersionSearch cfg v n) := by
  unfold fixedVersionSearch
  rw [if_neg (by omega)]
  exact .ts_bind (by omega) (fixedLoop_fits hv _ _ _ _ _ _ (.root h0) (root_eq h0) (by simp) (by simp))

end
end Katie.Alg
