import Verif.Lemmas.Complete
import Verif.Lemmas.ClientSound
import Verif.Lemmas.ServerVersions
import Verif.Props.C16_C18_SearchTree

/-
The server's answer to a search: what it contains, and what the client makes of it.
-/

namespace Katie.Alg
open Katie Katie.Wire Katie.Ladder Katie.Props Katie.SearchSpec Katie.SearchTree Katie.PrefixSpec Katie.Prefix Prog

/-! ### the update of the view -/

theorem getAllTs_asksP {P : Nat → Prop} : ∀ {xs : List Nat}, (∀ x ∈ xs, P x) → Asks P (getAllTs xs)
  | [], _ => .pure _
  | x :: xs, h => by
    unfold getAllTs
    exact .bind (.getTs (h x List.mem_cons_self)) (fun _ => getAllTs_asksP (fun y hy => h y (List.mem_cons_of_mem _ hy)))

/-- the positions that `UpdateView` requests, and that they cover the frontier -/
theorem updateView_positions {n : Nat} (h0 : 0 < n) (hn : n < 2 ^ 64) {m : Option Nat} (hm : ∀ k, m = some k → 0 < k ∧ k ≤ n) :
    ∃ xs f, SearchTree.updateView n m = .ok xs ∧ frontier n = .ok f ∧ (∀ x ∈ xs, x < n) ∧ (∀ x ∈ f, x < n) ∧
      ((∀ k, m = some k → k - 1 ∉ f) → ∀ x ∈ f, x ∈ xs ∨ ∃ k g, m = some k ∧ frontier k = .ok g ∧ x ∈ g) := by
  obtain ⟨f, hf, hf1, hf3, hf2, -⟩ := frontier_spine h0 hn
  cases m with
  | none =>
    refine ⟨f, f, by rw [(C18_first_view h0 hn).1, hf], hf, hf2, hf2, fun _ x hx => Or.inl hx⟩
  | some k =>
    obtain ⟨hk0, hkn⟩ := hm k rfl
    by_cases hk : k = n
    · subst hk
      refine ⟨[], f, (C18_first_view h0 hn).2.2, hf, by simp, hf2, ?_⟩
      intro _ x hx
      exact Or.inr ⟨k, f, rfl, hf, hx⟩
    · obtain ⟨known, new, needed, h1, h2, h3, h4, h5, -⟩ := C18_update_view_covers_partial hk0 (by omega : k < n) hn
      rw [hf] at h3
      cases h3
      refine ⟨new, f, h2, hf, h4, hf2, ?_⟩
      intro hnot x hx
      rcases h5 (hnot k rfl) x hx with h | h
      · exact Or.inr ⟨k, known, rfl, h1, h⟩
      · exact Or.inl h

theorem updateView_asks_lt {cfg : Config} {now n : Nat} (h0 : 0 < n) (hn : n < 2 ^ 64) {m : Option Nat}
    (hm : ∀ k, m = some k → 0 < k ∧ k ≤ n) : Asks (fun x => x < n) (Alg.updateView cfg now n m) := by
  obtain ⟨xs, f, h1, -, h2, -⟩ := updateView_positions h0 hn hm
  unfold Alg.updateView
  refine .ite (fun _ => trivial) (fun _ => .ite (fun _ => .pure _) (fun _ => ?_))
  refine .lift_bind (fun ys hys => ?_)
  rw [h1] at hys
  cases hys
  refine .bind (getAllTs_asksP h2) (fun _ => .bind (.getTs (by omega)) (fun t => ?_))
  exact .ite (fun _ => trivial) (fun _ => .ite (fun _ => trivial) (fun _ => .pure _))

theorem getAllTs_runs : ∀ {xs : List Nat} {tr : List Ev}, Runs (getAllTs xs) tr (.ok ()) →
    ∀ x ∈ xs, ∃ a, (⟨.ts x, .ok a⟩ : Ev) ∈ tr
  | [], _, _, x, hx => by cases hx
  | y :: xs, tr, h, x, hx => by
    unfold getAllTs at h
    obtain ⟨t, t1, t2, rfl, h1, h2⟩ := runs_bind_ok.1 h
    have h1 : t1 = [⟨.ts y, .ok t⟩] := runs_call.1 h1
    subst h1
    rcases List.mem_cons.1 hx with rfl | hx
    · exact ⟨t, by simp⟩
    · obtain ⟨a, ha⟩ := getAllTs_runs h2 x hx
      exact ⟨a, by simp [ha]⟩

theorem updateView_learns {σ : Type} {H : Handle σ} {p : Provider σ} (hm : TsMap p.timestamps) {cfg : Config} {now n : Nat}
    (h0 : 0 < n) {m : Option Nat} {xs : List Nat} (hxs : SearchTree.updateView n m = .ok xs)
    (h : (p.run H (Alg.updateView cfg now n m)).1 = .ok ()) :
    ∀ x, x ∈ xs ∨ x = n - 1 → x ∈ (p.run H (Alg.updateView cfg now n m)).2.timestamps.map Prod.fst := by
  obtain ⟨-, -, hrun, ht, -⟩ := run_spec H (Alg.updateView cfg now n m) p hm
  rw [h] at hrun
  generalize p.trace H (Alg.updateView cfg now n m) = tr at hrun ht
  have hrun' := hrun
  unfold Alg.updateView at hrun'
  rcases runs_ite.1 hrun' with ⟨-, k1⟩ | ⟨-, k1⟩
  · exact absurd k1 runs_fail_ok
  rw [if_neg (by omega)] at k1
  obtain ⟨ys, t1, t2, e1, hy, k2⟩ := runs_bind_ok.1 k1
  rw [hxs] at hy
  cases hy
  obtain ⟨_u, t3, t4, e2, k3, k4⟩ := runs_bind_ok.1 k2
  obtain ⟨ts, t5, t6, e3, h5, -⟩ := runs_bind_ok.1 k4
  have h5 : t5 = [⟨.ts (n - 1), .ok ts⟩] := runs_call.1 h5
  rintro x (hx | rfl)
  · obtain ⟨a, ha⟩ := getAllTs_runs k3 x hx
    exact List.mem_map.2 ⟨_, ht x a (by rw [e1, e2]; simp [ha]), rfl⟩
  · exact List.mem_map.2 ⟨_, ht _ ts (by rw [e1, e2, e3, h5]; simp), rfl⟩

/-! ### the versions that are looked up -/

/-- the request is about version `t` only -/
def Req.about (t : Nat) : Req → Prop
  | .ts _ => True
  | .search _ v _ => v = t
  | .monitor _ _ => False
  | .incl _ vers => ∀ v ∈ vers, v = t
  | .stop _ _ => True
  | .addLadder _ _ _ _ => True

/-- the program asks only about version `t` -/
def About {α : Type} (t : Nat) : Prog α → Prop
  | .ret _ => True
  | .op q k => q.about t ∧ ∀ a, About t (k a)

section
variable {α β : Type} {t : Nat}

theorem About.bind {p : Prog α} {f : α → Prog β} (h : About t p) (hf : ∀ a, About t (f a)) : About t (p >>= f) := by
  change About t (p.bind f)
  induction p with
  | ret r =>
    cases r with
    | ok a => exact hf a
    | error e => trivial
  | op q k ih => exact ⟨h.1, fun a => ih a (h.2 a)⟩

theorem About.lift_bind {r : G α} {f : α → Prog β} (hf : ∀ a, About t (f a)) : About t (lift r >>= f) :=
  .bind (p := lift r) trivial hf

theorem About.ite {c : Prop} [Decidable c] {p q : Prog α} (h1 : About t p) (h2 : About t q) :
    About t (if c then p else q) := by
  split
  · exact h1
  · exact h2

theorem About.of_asks {P : Nat → Prop} {p : Prog α} (h : Asks P p) : About t p := by
  induction p with
  | ret r => trivial
  | op q k ih =>
    obtain ⟨⟨x, rfl, -⟩, h2⟩ := h
    exact ⟨trivial, fun a => ih a (h2 a)⟩

theorem greatestLoop_about {n : Nat} : ∀ (fuel x : Nat) (term : Option Nat), About t (greatestLoop t n fuel x term) := by
  intro fuel
  induction fuel with
  | zero => intro x term; trivial
  | succ fuel ih =>
    intro x term
    unfold greatestLoop
    refine .bind (p := getSearch x t true) ⟨rfl, fun _ => trivial⟩ (fun r => .ite trivial (.ite (.lift_bind (fun r => ih _ _))
      (.ite trivial (.ite trivial trivial))))

theorem greatestVersionSearch_about {cfg : Config} {n : Nat} (hn : n < 2 ^ 64) : About t (greatestVersionSearch cfg t n) := by
  unfold greatestVersionSearch
  by_cases h0 : n = 0
  · rw [if_pos h0]; trivial
  · rw [if_neg h0]
    refine .bind (.of_asks (asks_attempt (rightmostDistinguished_asks (P := fun _ => True) (by omega) (fun y hy => trivial) trivial)))
      (fun d => ?_)
    cases d with
    | error e => trivial
    | ok d => exact greatestLoop_about _ _ _

theorem fixedFinish_about {term : Option Nat} {exp : Bool} {dist : List Nat} : About t (fixedFinish t term exp dist) := by
  unfold fixedFinish
  cases term with
  | none => trivial
  | some x => exact .ite trivial (.bind (p := getIncl x [t]) ⟨by simp [Req.about], fun _ => trivial⟩ (fun _ => trivial))

theorem fixedLoop_about {cfg : Config} {n rm : Nat} : ∀ (fuel : Nat) (s : FixedState), About t (fixedLoop cfg t n rm fuel s) := by
  intro fuel
  induction fuel with
  | zero => intro s; trivial
  | succ fuel ih =>
    intro s
    unfold fixedLoop
    refine .bind (p := getTs s.x) ⟨trivial, fun _ => trivial⟩ (fun ts => ?_)
    refine .ite (.ite fixedFinish_about (.lift_bind (fun r => ih _))) ?_
    refine .bind (p := getSearch s.x t true) ⟨rfl, fun _ => trivial⟩ (fun r => ?_)
    exact .ite (.ite fixedFinish_about (.lift_bind (fun r => ih _))) (.ite (.ite fixedFinish_about (.lift_bind (fun r => ih _)))
      (.ite trivial (.ite trivial trivial)))

theorem fixedVersionSearch_about {cfg : Config} {n : Nat} : About t (fixedVersionSearch cfg t n) := by
  unfold fixedVersionSearch
  refine .ite trivial (.bind (p := getTs (n - 1)) ⟨trivial, fun _ => trivial⟩ (fun r => fixedLoop_about _ _))

/-- the server looks up only versions of the ladder -/
theorem produceLadder_sub {vt vt' : Tracker} {x : Nat} {om : Bool} {g : Int} {w : List Nat} {r : Int} {b : List Nat}
    (hb : baseBinaryLadder t = .ok b) (h0 : 0 ∈ b) (h : produceLadder vt x t om g = .ok (w, r, vt')) : ∀ v ∈ w, v ∈ b := by
  unfold produceLadder at h
  obtain ⟨l, hl, h⟩ := G.bind_eq_ok.1 h
  have hw : l = w := (Prod.mk.inj (Except.ok.inj h)).1
  subst hw
  unfold producedVersions at hl
  split at hl
  · cases hl
    intro v hv
    rw [List.mem_singleton.1 hv]
    exact h0
  · unfold searchBinaryLadder at hl
    rw [hb] at hl
    have hl := Except.ok.inj hl
    rw [← hl]
    intro v hv
    exact Client.searchLoop_mem _ v hv

theorem run_about {db : ServerDB} {index b : List Nat} (hb : baseBinaryLadder t = .ok b) (h0 : 0 ∈ b) (ht : t ∈ b)
    {prog : Prog α} (h : About t prog) (p : Provider Produced) (hp : ∀ need ∈ p.state.proofs, ∀ v ∈ need.2, v ∈ b) :
    ∀ need ∈ (p.run (Produced.handle db index) prog).2.state.proofs, ∀ v ∈ need.2, v ∈ b := by
  induction prog generalizing p with
  | ret r => exact hp
  | op q k ih => 
    refine ih _ (h.2 _) _ ?_
    have hq := h.1
    have hts : ∀ x, (p.getTimestamp (Produced.handle db index) x).2.state.proofs = p.state.proofs := by
      intro x
      unfold Provider.getTimestamp
      split
      · rfl
      · simp only [Produced.handle, Produced.getTs]
        cases db.entry x with
        | error e => rfl
        | ok e => simp only; split <;> rfl
    have hvia : ∀ {γ : Type} (x : Nat) (f : Produced → G (Bytes × γ) × Produced),
        (∀ s, s.proofs = p.state.proofs → ∀ need ∈ (f s).2.proofs, ∀ v ∈ need.2, v ∈ b) →
        ∀ need ∈ (viaRoot (Produced.handle db index) x f p).2.state.proofs, ∀ v ∈ need.2, v ∈ b := by
      intro γ x f hf
      unfold viaRoot
      have h1 := hts x
      revert h1
      generalize p.getTimestamp (Produced.handle db index) x = r
      obtain ⟨r1, p'⟩ := r
      intro h1
      simp only at h1
      cases r1 with
      | error e => simp only; rw [h1]; exact hp
      | ok t =>
        simp only
        have h2 := hf _ h1
        revert h2
        generalize f p'.state = r
        obtain ⟨r1, s⟩ := r
        intro h2
        cases r1 with
        | error e => exact h2
        | ok a =>
          simp only
          rw [(record_spec _ _ _ _).2.2.1]
          exact h2
    cases q with
    | ts x => change ∀ need ∈ (p.getTimestamp (Produced.handle db index) x).2.state.proofs, _; rw [hts x]; exact hp
    | search x v om =>
      have he : p.answer (Produced.handle db index) (.search x v om) = viaRoot (Produced.handle db index) x _ p :=
        getSearch_eq _ x v om p
      rw [he]
      apply hvia
      intro s hs
      have hv : v = t := hq
      subst hv
      simp only [Produced.handle, Produced.search]
      cases hpl : produceLadder s.tracker x v om (greatestAt index x) with
      | error e => simp only; rw [hs]; exact hp
      | ok r =>
        obtain ⟨w, res, vt'⟩ := r
        cases db.entry x with
        | error e => simp only; rw [hs]; exact hp
        | ok e =>
          simp only
          intro need hn
          rcases List.mem_append.1 hn with hn | hn
          · rw [hs] at hn; exact hp need hn
          · rw [List.mem_singleton.1 hn]
            exact produceLadder_sub hb h0 hpl
    | monitor x v => exact absurd hq id
    | incl x vers =>
      have he : p.answer (Produced.handle db index) (.incl x vers) = _ := getIncl_eq (Produced.handle db index) x vers p
      rw [he]
      split
      · exact hp
      · apply hvia
        intro s hs
        simp only [withUnit, Produced.handle, Produced.incl]
        cases db.entry x with
        | error e => simp only; rw [hs]; exact hp
        | ok e =>
          simp only
          intro need hn
          rcases List.mem_append.1 hn with hn | hn
          · rw [hs] at hn; exact hp need hn
          · rw [List.mem_singleton.1 hn]
            intro v hv
            rw [hq v hv]
            exact ht
    | stop x v => exact hp
    | addLadder x om g l => exact hp

end

/-! ### a whole request -/

section
variable {cs : Log.Suite} {db : ServerDB} {index : List Nat} {n : Nat} {E : Nat → Wire.LogEntry} {stop : Nat → Int → Bool}
  {bs : List Batch} {V : List Nat} {out com : Nat → Bytes}

/-- the tables of a provider before anything has been asked -/
structure Fresh (n : Nat) (E : Nat → Wire.LogEntry) (p : Provider Produced) : Prop where
  ts : TsMap p.timestamps
  agrees : Agrees n E p
  retained : ∀ x, p.logEntries.lookup x ≠ none → p.prefixTrees.lookup x ≠ none
  tracker : p.state.tracker = {}
  times : p.state.timestamps = []
  proofs : p.state.proofs = []

/-- the log that the server has -/
structure Honest (cs : Log.Suite) (db : ServerDB) (bs : List Batch) (n : Nat) (E : Nat → Wire.LogEntry) : Prop where
  good : cs.Good
  small : Small cs
  pos : 0 < n
  size : n < 2 ^ 63
  entry : ∀ x < n, db.entry x = .ok (E x)
  times : GoodTimes (fun x => (E x).timestamp) n
  hist : History cs bs db.prefixStore
  len : bs.length = n
  root : ∀ x < n, (E x).prefixTree = rootHash cs.H cs.hashSize (contents (bs.take (x + 1)))
  nonempty : ∀ x < n, (E x).prefixTree ≠ []
  log : Log.StoreOK cs (leavesOf cs E n) db.logStore

/-- The server outputs a proof for what an algorithm has asked for; the client's run of the algorithm on this proof gives
the same result, and `Finish` accepts. -/
theorem served (hh : Honest cs db bs n E) (hi : index.length ≤ 2 ^ 32) (hlab : LabelTree cs bs n V out com (greatestAt index))
    {α : Type} {prog : Prog α} (hfit : FitsP (fun x => (E x).timestamp) (greatestAt index) stop n false [] prog)
    {p : Provider Produced} (hp : Fresh n E p) (htab : Table V out com p.state.versions)
    (hV : ∀ need ∈ (p.run (Produced.handle db index) prog).2.state.proofs, ∀ v ∈ need.2, v ∈ V)
    {f : List Nat} (hf : frontier n = .ok f)
    (hcov : ∀ x ∈ f, x ∈ (p.run (Produced.handle db index) prog).2.timestamps.map Prod.fst)
    {nP m : Option Nat} (hnP : ∀ k, nP = some k → 0 < k ∧ k ≤ n) (hm : ∀ k, m = some k → 0 < k ∧ k ≤ n) :
    (p.run (Produced.handle db index) prog).1 = eval (honest (fun x => (E x).timestamp) (greatestAt index) stop) prog ∧
    ∃ proof p', (p.run (Produced.handle db index) prog).2.output cs db index n nP m = (.ok proof, p') ∧
      Table V out com p'.state.versions ∧
      ∀ full vs, Table V out com vs →
        (∀ v k, p'.state.versions.lookup v = some k → k.com = some (com v) →
          ∃ k', vs.lookup v = some k' ∧ k'.com = some (com v)) →
        (∀ k, m = some k → full = LogSpec.heads cs.H ((leavesOf cs E n).take k)) →
        ∃ pc, (⟨⟨proof, vs, {}⟩, full, p.logEntries, p.timestamps, p.prefixTrees⟩ : Provider Received).run (Received.handle cs) prog =
            (eval (honest (fun x => (E x).timestamp) (greatestAt index) stop) prog, pc) ∧
          ∃ result pc', pc.finish cs (Received.handle cs) n nP m = (.ok result, pc') ∧
            result.fullSubtrees = LogSpec.heads cs.H (leavesOf cs E n) ∧
            (∀ k, nP = some k → result.additional = LogSpec.heads cs.H ((leavesOf cs E n).take k)) ∧
            result.logEntries = f.map (fun x => (x, E x)) := by
  obtain ⟨h1, -, -, h4, ts, pfs, h5, h6, h7⟩ := session (cs := cs) hh.entry hh.times hi hfit hp.agrees hp.tracker
  obtain ⟨hgr, hts, -, -, -⟩ := run_spec (Produced.handle db index) prog p hp.ts
  refine ⟨h1, ?_⟩
  rw [h1] at h7
  revert h4 h5 h7 hV hcov hgr hts
  generalize (p.run (Produced.handle db index) prog).2 = p1
  intro hV hcov hag hadd hsim hgr hts
  have hproofs : p1.state.proofs = pfs := by rw [hadd.proofs, hp.proofs]; rfl
  have htimes : p1.state.timestamps = ts := by rw [hadd.timestamps, hp.times]; rfl
  rw [hproofs] at hV
  have hret : ∀ x, p1.logEntries.lookup x ≠ none → p1.prefixTrees.lookup x ≠ none := by
    intro x hx
    rw [hadd.logEntries] at hx
    have := hp.retained x hx
    cases hr : p.prefixTrees.lookup x with
    | none => exact absurd hr this
    | some r => rw [hgr.roots x r hr]; simp
  obtain ⟨leaves, q, roots, incl, e1, e2, e3, e4⟩ := finish_complete (index := index) hh.good hh.entry hh.nonempty hh.pos hh.size hh.log
    hts hag hret hf hcov hnP hm
  rw [← hadd.versions] at htab
  obtain ⟨res, vs', g1, g2, g3, g4, g5⟩ := prefix_output hh.good hh.small hh.hist hh.len hh.root hlab h6 hV htab
  refine ⟨⟨ts, res.map (·.1), roots, incl⟩, { q with state := { q.state with versions := vs' } }, ?_, g4.table, ?_⟩
  · unfold Provider.output
    rw [e1]
    simp only
    unfold Produced.output
    rw [e2]
    simp only [hproofs, g1, G.ok_bind, g2, g3, e3, G.pure_eq, htimes]
  · intro full vs htv hcom hfull
    have hconv := g5 vs htv (by
      intro need hneed v hv hle
      obtain ⟨k, hk, hc⟩ := g4.new v ⟨need, hneed, hv, hle⟩
      exact hcom v k hk hc)
    have hrun := hsim full vs roots incl (res.map (·.1)) hconv
    refine ⟨mirror p1 full vs [] [] roots incl, ?_, ?_⟩
    · rw [← hrun]
      unfold mirror
      rw [hp.tracker]
    · obtain ⟨result, pc', k1, k2, k3, k4, -⟩ := e4 full vs hfull
      exact ⟨result, pc', k1, k2, k3, k4⟩

end

end Katie.Alg
