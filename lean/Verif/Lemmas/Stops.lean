import Verif.Lemmas.Owner
import Verif.Lemmas.ServeSearch

/-
Runs of an algorithm that asks for the stop condition.  The server stops when it has made 25 proofs or when the log has more
versions than the user knows of; the client stops when it has used up the proofs.  For both to take the same turns, the
server must make another proof after it said "go on", and none after it said "stop".
-/

namespace Katie.Alg
open Katie Katie.Wire Katie.Ladder Katie.Props Katie.SearchSpec Katie.SearchTree Prog

section
variable {ts : Nat → Nat} {g : Nat → Int}

/-- The trace is one of the server about an honest log; the flags tell whether enough proofs have been made before and
after it. -/
inductive Srv (ts : Nat → Nat) (g : Nat → Int) : Bool → List Ev → Bool → Prop
  | nil (b : Bool) : Srv ts g b [] b
  | stop {b b' : Bool} {x : Nat} {v : Int} {tr : List Ev} : Srv ts g b tr b' →
      Srv ts g b (⟨.stop x v, .ok (b || decide (g x > v))⟩ :: tr) b'
  | other {b b1 b' : Bool} {q : Req} {tr : List Ev} : (∀ x v, q ≠ .stop x v) → (b = true → b1 = true) → Srv ts g b1 tr b' →
      Srv ts g b (⟨q, honest ts g (fun _ _ => true) q⟩ :: tr) b'

theorem Srv.append {b b' : Bool} : ∀ {t1 t2 : List Ev}, Srv ts g b (t1 ++ t2) b' → ∃ m, Srv ts g b t1 m ∧ Srv ts g m t2 b' := by
  intro t1
  induction t1 generalizing b with
  | nil => intro t2 h; exact ⟨b, .nil b, h⟩
  | cons e t1 ih =>
    intro t2 h
    rw [List.cons_append] at h
    cases h with
    | stop h =>
      obtain ⟨m, h1, h2⟩ := ih h
      exact ⟨m, .stop h1, h2⟩
    | other hq hb h =>
      obtain ⟨m, h1, h2⟩ := ih h
      exact ⟨m, .other hq hb h1, h2⟩

theorem Srv.tsTrace {b b' : Bool} {tr : List Ev} (h : Srv ts g b tr b') : TsTrace tr ts := by
  induction h with
  | nil b => intro x a h; cases h
  | stop _ ih =>
    intro x a h
    rcases List.mem_cons.1 h with h | h
    · cases h
    · exact ih x a h
  | @other b b1 b' q tr hq _ _ ih =>
    intro x a h
    rcases List.mem_cons.1 h with h | h
    · cases h
      rfl
    · exact ih x a h

/-- a trace of a log that always answers the same -/
theorem Srv.of_agrees {b : Bool} : ∀ {tr : List Ev}, AgreesWith tr (honest ts g (fun x v => b || decide (g x > v))) →
    Srv ts g b tr b
  | [], _ => .nil b
  | ⟨q, a⟩ :: tr, h => by
    have h1 : a = honest ts g (fun x v => b || decide (g x > v)) q := h _ List.mem_cons_self
    have h2 := Srv.of_agrees (b := b) (tr := tr) (fun e he => h e (List.mem_cons_of_mem _ he))
    subst h1
    cases q with
    | stop x v => exact .stop h2
    | ts x => exact .other (by simp) id h2
    | search x v om => exact .other (by simp) id h2
    | monitor x v => exact .other (by simp) id h2
    | incl x vers => exact .other (by simp) id h2
    | addLadder x om g' l => exact .other (by simp) id h2

variable {n : Nat} {W : Req → Prop} {α β : Type}

/-- Every run of the program on the server succeeds; its requests have property `W` and fit, if no proofs follow after the
server said "stop".  `st` tells whether the server has said "stop" before, `b` whether it has made enough proofs; the
postcondition is about both after the run, and about the result. -/
def Sv (ts : Nat → Nat) (g : Nat → Int) (n : Nat) (W : Req → Prop) {α : Type} (st b : Bool) (prog : Prog α)
    (Q : Bool → Bool → α → Prop) : Prop :=
  ∀ tr r b', Runs prog tr r → Srv ts g b tr b' → ∃ a st', r = .ok a ∧
    (st = true → st' = true ∧ tr.any (fun e => e.q.proves) = false) ∧
    (∀ more, (st' = true → more = false) → Fits g n more [] tr) ∧
    (∀ e ∈ tr, W e.q) ∧ (b = true → b' = true) ∧ Q st' b' a

theorem Sv.imp {st b : Bool} {p : Prog α} {Q Q' : Bool → Bool → α → Prop} (h : Sv ts g n W st b p Q)
    (hQ : ∀ st' b' a, (b = true → b' = true) → Q st' b' a → Q' st' b' a) : Sv ts g n W st b p Q' := by
  intro tr r b' hr hs
  obtain ⟨a, st', h1, h2, h3, h4, h5, h6⟩ := h tr r b' hr hs
  exact ⟨a, st', h1, h2, h3, h4, h5, hQ _ _ _ h5 h6⟩

theorem Sv.and_runs {st b : Bool} {p : Prog α} {Q : Bool → Bool → α → Prop} {R : α → Prop} (h : Sv ts g n W st b p Q)
    (hR : ∀ tr a, TsTrace tr ts → Runs p tr (.ok a) → R a) : Sv ts g n W st b p (fun st' b' a => Q st' b' a ∧ R a) := by
  intro tr r b' hr hs
  obtain ⟨a, st', rfl, h2, h3, h4, h5, h6⟩ := h tr r b' hr hs
  exact ⟨a, st', rfl, h2, h3, h4, h5, h6, hR tr a hs.tsTrace hr⟩

theorem Sv.weaken {st b : Bool} {p : Prog α} {Q : Bool → Bool → α → Prop} {W' : Req → Prop} (h : Sv ts g n W st b p Q)
    (hW : ∀ q, W q → W' q) : Sv ts g n W' st b p Q := by
  intro tr r b' hr hs
  obtain ⟨a, st', h1, h2, h3, h4, h5, h6⟩ := h tr r b' hr hs
  exact ⟨a, st', h1, h2, h3, fun e he => hW _ (h4 e he), h5, h6⟩

theorem Sv.pure {st b : Bool} {a : α} {Q : Bool → Bool → α → Prop} (h : Q st b a) : Sv ts g n W st b (pure a) Q := by
  intro tr r b' hr hs
  obtain ⟨rfl, rfl⟩ := runs_pure.1 hr
  cases hs
  exact ⟨a, st, rfl, fun h => ⟨h, rfl⟩, fun _ _ => trivial, by simp, id, h⟩

theorem fits_append {more : Bool} : ∀ {t1 t2 : List Ev}, (∀ e ∈ t1, ∀ x v, e.q ≠ .search x v true) →
    Fits g n (more || t2.any (fun e => e.q.proves)) [] t1 → Fits g n more [] t2 → Fits g n more [] (t1 ++ t2)
  | [], _, _, _, h => h
  | ⟨q, a⟩ :: t1, t2, hq, h1, h2 => by
    have hq' : ∀ e ∈ t1, ∀ x v, e.q ≠ .search x v true := fun e he => hq e (List.mem_cons_of_mem _ he)
    cases q with
    | ts x => exact ⟨h1.1, fits_append hq' h1.2 h2⟩
    | search x v om =>
      cases om with
      | true => exact absurd rfl (hq _ List.mem_cons_self x v)
      | false => exact ⟨h1.1, h1.2.1, (fun h => by cases h), fits_append hq' h1.2.2.2 h2⟩
    | monitor x v => exact ⟨h1.1, h1.2.1, h1.2.2.1, fits_append hq' h1.2.2.2 h2⟩
    | incl x vers => exact ⟨h1.1, fits_append hq' h1.2 h2⟩
    | stop x v =>
      refine ⟨?_, fits_append hq' h1.2 h2⟩
      rw [h1.1]
      change _ = Except.ok (!(more || (t1 ++ t2).any (fun e => e.q.proves)))
      rw [List.any_append]
      congr 2
      cases more <;> cases t1.any (fun e => e.q.proves) <;> cases t2.any (fun e => e.q.proves) <;> rfl
    | addLadder x om g' l => exact absurd h1 (by simp [Fits])

theorem Sv.bind (hW : ∀ x v, ¬ W (.search x v true)) {st b : Bool} {p : Prog α} {f : α → Prog β} {Q : Bool → Bool → α → Prop}
    {Q' : Bool → Bool → β → Prop} (h : Sv ts g n W st b p Q) (hf : ∀ st1 b1 a, (b = true → b1 = true) → (st = true → st1 = true) → Q st1 b1 a → Sv ts g n W st1 b1 (f a) Q') :
    Sv ts g n W st b (p >>= f) Q' := by
  intro tr r b' hr hs
  rcases runs_bind.1 hr with ⟨a, t1, t2, rfl, r1, r2⟩ | ⟨e, r1, -⟩
  · obtain ⟨m, s1, s2⟩ := hs.append
    obtain ⟨a', st1, e1, k1, k2, k3, k4, k5⟩ := h t1 _ m r1 s1
    cases e1
    obtain ⟨c, st2, rfl, l1, l2, l3, l4, l5⟩ := hf st1 m a k4 (fun h => (k1 h).1) k5 t2 r b' r2 s2
    refine ⟨c, st2, rfl, ?_, ?_, ?_, fun h => l4 (k4 h), l5⟩
    · intro h
      obtain ⟨h1, h2⟩ := k1 h
      obtain ⟨h3, h4⟩ := l1 h1
      exact ⟨h3, by rw [List.any_append, h2, h4]; rfl⟩
    · intro more hm
      refine fits_append (fun e he x v hq => hW x v (hq ▸ k3 e he)) (k2 _ ?_) (l2 more hm)
      intro h
      obtain ⟨h3, h4⟩ := l1 h
      rw [h4, hm h3]; rfl
    · intro e he
      rcases List.mem_append.1 he with he | he
      · exact k3 e he
      · exact l3 e he
  · obtain ⟨a, st', e1, -⟩ := h tr _ b' r1 hs
    cases e1

theorem Sv.ite {st b : Bool} {c : Prop} [Decidable c] {p q : Prog α} {Q : Bool → Bool → α → Prop} (h1 : c → Sv ts g n W st b p Q)
    (h2 : ¬ c → Sv ts g n W st b q Q) : Sv ts g n W st b (if c then p else q) Q := by
  split
  · exact h1 ‹_›
  · exact h2 ‹_›

theorem Sv.lift {st b : Bool} {r : G α} {a : α} {Q : Bool → Bool → α → Prop} (hr : r = .ok a) (h : Q st b a) :
    Sv ts g n W st b (lift r) Q := by
  subst hr
  exact Sv.pure h

/-- one request that is not about stopping -/
theorem Sv.call {st b : Bool} {q : Req} {a : q.Resp} (hq : ∀ x v, q ≠ .stop x v) (ha : honest ts g (fun _ _ => true) q = .ok a)
    (hst : st = true → q.proves = false) (hfit : ∀ more, Fits g n more [] [⟨q, .ok a⟩]) (hW : W q) :
    Sv ts g n W st b (Prog.call q) (fun st' _ a' => st' = st ∧ a' = a) := by
  intro tr r b' hr hs
  have hr := runs_call.1 hr
  subst hr
  cases hs with
  | stop h => exact absurd rfl (hq _ _)
  | other hq' hb h =>
    cases h
    exact ⟨a, st, ha, fun h => ⟨h, by simp [hst h]⟩, fun more _ => by rw [ha]; exact hfit more, by simpa using hW, hb, rfl, rfl⟩

theorem Sv.getTs {st b : Bool} {x : Nat} (hx : x < n) (hW : W (.ts x)) :
    Sv ts g n W st b (Prog.getTs x) (fun st' _ a => st' = st ∧ a = ts x) :=
  Sv.call (q := .ts x) (by simp) rfl (fun _ => rfl) (fun _ => ⟨hx, trivial⟩) hW

theorem Sv.search {b : Bool} {x v : Nat} (hx : x < n) (hv : v < 2 ^ 31 - 1) (hW : W (.search x v false)) :
    Sv ts g n W false b (getSearch x v false)
      (fun st' _ a => st' = false ∧ a = (if g x < (v : Int) then -1 else if g x > (v : Int) then 1 else 0 : Int)) :=
  Sv.call (q := .search x v false) (by simp) rfl (fun h => by cases h) (fun _ => ⟨hx, hv, (fun h => by cases h), trivial⟩) hW

theorem Sv.monitor {b : Bool} {x v : Nat} (hx : x < n) (hv : v < 2 ^ 31 - 1) (hg : (v : Int) ≤ g x) (hW : W (.monitor x v)) :
    Sv ts g n W false b (getMonitor x v) (fun st' _ _ => st' = false) :=
  (Sv.call (q := .monitor x v) (a := ()) (by simp) (if_pos hg) (fun h => by cases h) (fun _ => ⟨hx, hv, hg, trivial⟩) hW).imp
    (fun _ _ _ _ h => h.1)

/-- The stop condition: after "go on" there is another proof. -/
theorem Sv.stop_bind {st b : Bool} {x : Nat} {v : Int} {f : Bool → Prog α} {Q : Bool → Bool → α → Prop} (hW : W (.stop x v))
    (hst : st = true → b = true ∨ g x > v) (h1 : b = true ∨ g x > v → Sv ts g n W true b (f true) Q)
    (h2 : ¬ (b = true ∨ g x > v) → Sv ts g n W false b (f false) Q)
    (h3 : ¬ (b = true ∨ g x > v) → ∀ tr r, Runs (f false) tr r → tr.any (fun e => e.q.proves) = true) :
    Sv ts g n W st b (getStop x v >>= f) Q := by
  intro tr r b' hr hs
  change Runs (.op (.stop x v) (fun a => (Prog.ret a).bind f)) tr r at hr
  cases hr with
  | @op _ _ a tr r hr =>
    cases hs with
    | other hq => exact absurd rfl (hq x v)
    | stop hs =>
      by_cases hc : b = true ∨ g x > v
      · have e : (b || decide (g x > v)) = true := by simpa using hc
        rw [e] at hr
        obtain ⟨a, st', e1, k1, k2, k3, k4, k5⟩ := h1 hc tr r b' hr hs
        obtain ⟨hst', hp⟩ := k1 rfl
        refine ⟨a, st', e1, fun _ => ⟨hst', by simpa [Req.proves] using hp⟩, ?_, ?_, k4, k5⟩
        · intro more hm
          refine ⟨?_, k2 more hm⟩
          rw [e, hp, hm hst']; rfl
        · intro e he
          rcases List.mem_cons.1 he with rfl | he
          · exact hW
          · exact k3 e he
      · have e : (b || decide (g x > v)) = false := by simpa using hc
        rw [e] at hr
        obtain ⟨a, st', e1, k1, k2, k3, k4, k5⟩ := h2 hc tr r b' hr hs
        have hp := h3 hc tr r hr
        refine ⟨a, st', e1, fun h => absurd (hst h) hc, ?_, ?_, k4, k5⟩
        · intro more hm
          refine ⟨?_, k2 more hm⟩
          rw [e, hp, Bool.or_true]; rfl
        · intro e he
          rcases List.mem_cons.1 he with rfl | he
          · exact hW
          · exact k3 e he

/-- a part that only reads timestamps -/
theorem Sv.of_asks {st b : Bool} {p : Prog α} {a : α} (h : Asks (fun x => x < n) p) (hW : ∀ x, x < n → W (.ts x))
    (ha : eval (honest ts g (fun _ _ => true)) p = .ok a) : Sv ts g n W st b p (fun st' _ a' => st' = st ∧ a' = a) := by
  induction p generalizing b with
  | ret r =>
    intro tr r' b' hr hs
    cases hr
    cases hs
    have : r = .ok a := ha
    exact ⟨a, st, this, fun h => ⟨h, rfl⟩, fun _ _ => trivial, by simp, id, rfl, rfl⟩
  | op q k ih =>
    obtain ⟨⟨x, rfl, hx⟩, h2⟩ := h
    intro tr r b' hr hs
    cases hr with
    | @op _ _ a1 tr r hr =>
      cases hs with
      | @other _ b1 _ _ _ _ hb hs =>
        have ha' : eval (honest ts g (fun _ _ => true)) (k (.ok (ts x))) = .ok a := ha
        obtain ⟨a', st', e1, k1, k2, k3, k4, k5⟩ := ih (.ok (ts x)) (h2 _) ha' (b := b1) tr r b' hr hs
        refine ⟨a', st', e1, fun h => ⟨(k1 h).1, by simpa [Req.proves] using (k1 h).2⟩, fun more hm => ⟨hx, k2 more hm⟩, ?_,
          fun h => k4 (hb h), k5⟩
        intro e he
        rcases List.mem_cons.1 he with rfl | he
        · exact hW x hx
        · exact k3 e he

end

/-! ### the server -/

section
variable {db : ServerDB} {index : List Nat} {n : Nat} {E : Nat → LogEntry}

theorem honest_ok {ts : Nat → Nat} {g : Nat → Int} {stop : Nat → Int → Bool} {more : Bool} {done : List Nat} {q : Req} {a : G q.Resp} {k : List Ev}
    (h : Fits g n more done (⟨q, a⟩ :: k)) : ∃ b, honest ts g stop q = .ok b := by
  cases q with
  | ts x => exact ⟨_, rfl⟩
  | search x v om => exact ⟨_, rfl⟩
  | monitor x v => exact ⟨(), if_pos h.2.2.1⟩
  | incl x vers =>
    refine ⟨(), if_pos ?_⟩
    rcases h.1 with rfl | ⟨-, v, rfl, hv⟩
    · rfl
    · simpa using hv
  | stop x v => exact ⟨_, rfl⟩
  | addLadder x om g l => exact ⟨_, rfl⟩

/-- only the first answer of a trace can be wrong -/
theorem fits_answer {g : Nat → Int} {more : Bool} {done : List Nat} {q : Req} {a a' : G q.Resp} {k : List Ev}
    (hq : ∀ x v, q ≠ .stop x v) (h : Fits g n more done (⟨q, a⟩ :: k)) : Fits g n more done (⟨q, a'⟩ :: k) := by
  cases q with
  | stop x v => exact absurd rfl (hq x v)
  | ts x => exact h
  | search x v om => exact h
  | monitor x v => exact h
  | incl x vers => exact h
  | addLadder x om g l => exact h

theorem fits_more {g : Nat → Int} {done : List Nat} {q : Req} {a : G q.Resp} {k : List Ev} {more : Bool}
    (hq : ∀ x v, q ≠ .stop x v) (h : Fits g n more done (⟨q, a⟩ :: k)) : Fits g n more done [⟨q, a⟩] := by
  cases q with
  | stop x v => exact absurd rfl (hq x v)
  | ts x => exact ⟨h.1, trivial⟩
  | search x v om => exact ⟨h.1, h.2.1, h.2.2.1, trivial⟩
  | monitor x v => exact ⟨h.1, h.2.1, h.2.2.1, trivial⟩
  | incl x vers => exact ⟨h.1, trivial⟩
  | addLadder x om g l => exact absurd h (by simp [Fits])

/-- The server's own trace is of this kind. -/
theorem server_srv (hE : ∀ x < n, db.entry x = .ok (E x)) (ht : GoodTimes (fun x => (E x).timestamp) n)
    (hi : index.length ≤ 2 ^ 32) {α : Type} (prog : Prog α) {done : List Nat} {b : Bool} {p : Provider Produced}
    (hp : Agrees n E p) (hrec : Recorded (greatestAt index) done p.state.tracker) (hb : b = decide (p.state.proofs.length ≥ 25))
    (hprog : ∀ tr r b', Runs prog tr r → Srv (fun x => (E x).timestamp) (greatestAt index) b tr b' →
      ∃ more, Fits (greatestAt index) n more done tr) :
    ∃ b', Srv (fun x => (E x).timestamp) (greatestAt index) b (p.trace (Produced.handle db index) prog) b' ∧
      (∀ e ∈ p.trace (Produced.handle db index) prog, ∃ a, e.a = .ok a) ∧
      Agrees n E (p.run (Produced.handle db index) prog).2 := by
  induction prog generalizing p done b with
  | ret r => exact ⟨b, .nil b, by simp [Provider.trace], hp⟩
  | op q k ih =>
    by_cases hq : ∃ x v, q = .stop x v
    · obtain ⟨x, v, rfl⟩ := hq
      have hans : (p.answer (Produced.handle db index) (.stop x v)) = (.ok (b || decide (greatestAt index x > v)), p) := by
        rw [hb]; rfl
      obtain ⟨b', k1, k2, k3⟩ := ih (.ok (b || decide (greatestAt index x > v))) (done := done) (b := b) (p := p) hp hrec hb (by
        intro tr r b' hr hs
        obtain ⟨more, hf⟩ := hprog _ _ _ (.op _ hr) (.stop hs)
        exact ⟨more, fits_tail hf⟩)
      unfold Provider.trace Provider.run
      rw [hans]
      refine ⟨b', .stop k1, ?_, k3⟩
      intro e he
      rcases List.mem_cons.1 he with rfl | he
      · exact ⟨_, rfl⟩
      · exact k2 e he
    · have hq' : ∀ x v, q ≠ .stop x v := fun x v h => hq ⟨x, v, h⟩
      -- a run to see that this request fits
      obtain ⟨tr0, r0, r1⟩ := runs_eval (honest (fun x => (E x).timestamp) (greatestAt index) (fun x v => b || decide (greatestAt index x > v)))
        (k (honest (fun x => (E x).timestamp) (greatestAt index) (fun _ _ => true) q))
      obtain ⟨more, hf⟩ := hprog _ _ _ (.op _ r0) (.other hq' id (Srv.of_agrees r1))
      obtain ⟨a1, a2, a3⟩ := answer_honest (stop := fun _ _ => true) hE ht hi hp hrec hf hq'
      obtain ⟨c, hc⟩ := honest_ok (ts := fun x => (E x).timestamp) (stop := fun _ _ => true) hf
      obtain ⟨_, pfs, _, hadd, -⟩ := answer_sim ⟨fun b => b, 0⟩ hE hi p hrec ⟨c, a1.trans hc⟩ (k := tr0) (fits_answer hq' hf)
      have hlen : b = true → decide ((p.answer (Produced.handle db index) q).2.state.proofs.length ≥ 25) = true := by
        intro h
        rw [hb, decide_eq_true_eq] at h
        rw [decide_eq_true_eq, hadd.proofs, List.length_append]
        omega
      obtain ⟨b', k1, k2, k3⟩ := ih (p.answer (Produced.handle db index) q).1 a2 a3 rfl (by
        intro tr r b' hr hs
        rw [a1] at hr
        obtain ⟨more, hf⟩ := hprog _ _ _ (.op _ hr) (.other hq' hlen hs)
        exact ⟨more, fits_tail hf⟩)
      unfold Provider.trace Provider.run
      refine ⟨b', ?_, ?_, k3⟩
      · have := Srv.other hq' hlen k1
        rw [← a1] at this
        exact this
      · intro e he
        rcases List.mem_cons.1 he with rfl | he
        · exact ⟨c, a1.trans hc⟩
        · exact k2 e he

end

end Katie.Alg
