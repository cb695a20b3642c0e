import Verif.Lemmas.Spent
import Verif.Lemmas.SendSizes

/-
How many prefix proofs the answer to a monitoring request holds.
-/

namespace Katie.Alg
open Katie Katie.Wire Katie.Ladder Katie.Props Katie.SearchSpec Katie.SearchTree Prog

/-- an answer that is an error ends the program -/
def Strict {α : Type} : Prog α → Prop
  | .ret _ => True
  | .op _ k => (∀ e, k (.error e) = .ret (.error e)) ∧ ∀ a, Strict (k (.ok a))

theorem Strict.bind {α β : Type} {p : Prog α} {f : α → Prog β} (h : Strict p) (hf : ∀ a, Strict (f a)) : Strict (p >>= f) := by
  show Strict (Prog.bind p f)
  induction p with
  | ret r =>
    cases r with
    | ok a => exact hf a
    | error e => trivial
  | op q k ih =>
    refine ⟨fun e => ?_, fun a => ih _ (h.2 a)⟩
    show Prog.bind (k (.error e)) f = _
    rw [h.1 e]
    rfl

theorem Strict.call {q : Req} : Strict (Prog.call q) := ⟨fun _ => rfl, fun _ => trivial⟩

theorem Strict.ret {α : Type} {r : G α} : Strict (.ret r : Prog α) := trivial

theorem Strict.lift {α : Type} {r : G α} : Strict (Prog.lift r : Prog α) := trivial

theorem Strict.pure {α : Type} {a : α} : Strict (Pure.pure a : Prog α) := trivial

theorem Strict.ite {α : Type} {c : Prop} [Decidable c] {p q : Prog α} (h1 : Strict p) (h2 : Strict q) : Strict (if c then p else q) := by
  split
  · exact h1
  · exact h2

/-- the result of a program that asks for timestamps and monitoring ladders only, if everything is answered, and the
number of ladders -/
def tally {α : Type} (ts : Nat → Nat) : Prog α → G α × Nat
  | .ret r => (r, 0)
  | .op (.ts x) k => tally ts (k (.ok (ts x)))
  | .op (.monitor _ _) k => let r := tally ts (k (.ok ())); (r.1, r.2 + 1)
  | .op _ _ => (.error .diverge, 0)

theorem run_tally {n : Nat} {E : Nat → LogEntry} {db : ServerDB} {index : List Nat} (hl : LogOf n E db)
    (ht : GoodTimes (fun x => (E x).timestamp) n) {ts : Nat → Nat} (hts : ∀ x < n, ts x = (E x).timestamp) {α : Type} (prog : Prog α) :
    Strict prog → ∀ {p p' : Provider Produced} {a b : α}, Held n E p → p.run (Produced.handle db index) prog = (.ok a, p') →
    (tally ts prog).1 = .ok b → a = b ∧ p'.state.proofs.length = p.state.proofs.length + (tally ts prog).2 := by
  induction prog with
  | ret r =>
    intro _ p p' a b _ hr hb
    unfold Provider.run at hr
    obtain ⟨rfl, rfl⟩ := Prod.mk.inj hr
    exact ⟨Except.ok.inj hb, rfl⟩
  | op q k ih =>
    intro hs p p' a b hp hr hb
    unfold Provider.run at hr
    have hheld := (answer_spent (index := index) hl ht hp q).held hp
    have hget : ∀ x v p1, p.getTimestamp (Produced.handle db index) x = (.ok v, p1) → v = ts x ∧ p1.state.proofs = p.state.proofs := by
      intro x v p1 hg
      unfold Provider.getTimestamp at hg
      cases hlk : p.timestamps.lookup x with
      | some t =>
        rw [hlk] at hg
        obtain ⟨h1, rfl⟩ := Prod.mk.inj hg
        have hmem : (x, t) ∈ p.timestamps := by
          obtain ⟨l1, l2, hl, -⟩ := List.lookup_eq_some_iff.1 hlk
          rw [hl]; simp
        obtain ⟨h2, h3⟩ := hp _ hmem
        refine ⟨?_, rfl⟩
        rw [hts x h2, ← Except.ok.inj h1]
        exact h3
      | none =>
        rw [hlk] at hg
        simp only [Produced.handle, Produced.getTs] at hg
        rcases hl.cases x with ⟨m, hm⟩ | ⟨hlt, hm⟩
        · rw [hm] at hg; cases hg
        · rw [hm] at hg
          simp only at hg
          split at hg
          · cases hg
          · obtain ⟨h1, rfl⟩ := Prod.mk.inj hg
            exact ⟨by rw [hts x hlt, ← Except.ok.inj h1], rfl⟩
    cases hans : p.answer (Produced.handle db index) q with
    | mk r p1 =>
      rw [hans] at hr hheld
      cases r with
      | error e =>
        simp only at hr
        rw [hs.1 e] at hr
        cases hr
      | ok v =>
        simp only at hr hheld
        cases q with
        | ts x =>
          obtain ⟨h1, h2⟩ := hget x v p1 hans
          obtain ⟨i1, i2⟩ := ih _ (hs.2 v) hheld hr (by rw [h1]; exact hb)
          rw [h2, h1] at i2
          exact ⟨i1, i2⟩
        | monitor x ver =>
          have h1 : p1.state.proofs.length = p.state.proofs.length + 1 := by
            have : p.getMonitor (Produced.handle db index) x ver = (.ok v, p1) := hans
            unfold Provider.getMonitor at this
            split at this
            · cases this
            · rename_i w p2 hg
              obtain ⟨-, h2⟩ := hget x w p2 hg
              simp only [Produced.handle, Produced.monitor] at this
              split at this
              · cases this
              · rename_i root s hm
                unfold Provider.record at this
                split at this
                · cases this
                · obtain ⟨-, rfl⟩ := Prod.mk.inj this
                  split at hm
                  · cases hm
                  · split at hm
                    · cases hm
                    · obtain ⟨-, rfl⟩ := Prod.mk.inj hm
                      simp [h2]
          obtain ⟨i1, i2⟩ := ih _ (hs.2 v) hheld hr hb
          refine ⟨i1, ?_⟩
          rw [i2, h1]
          show _ = _ + ((tally ts (k (.ok ()))).2 + 1)
          have : v = () := rfl
          rw [this]
          omega
        | search _ _ _ => cases hb
        | incl _ _ => cases hb
        | stop _ _ => cases hb
        | addLadder _ _ _ _ => cases hb

/-! ### the programs -/

theorem distAncLoop_strict {m : Monitor} {target : Nat} : ∀ fuel curr l r acc, Strict (distAncLoop m target fuel curr l r acc)
  | 0, _, _, _, _ => trivial
  | fuel + 1, curr, l, r, acc => by
    unfold distAncLoop
    exact .ite .pure (.ite .pure (.bind .call fun _ => .ite (.bind .lift fun _ => distAncLoop_strict ..) (.bind .lift fun _ => distAncLoop_strict ..)))

theorem inspectAll_strict {ver : Nat} : ∀ ys prev, Strict (inspectAll ver ys prev)
  | [], _ => trivial
  | y :: ys, prev => by
    unfold inspectAll
    split
    · exact .ite .ret .pure
    · exact .bind .call fun _ => inspectAll_strict ys _

theorem contactLoop_strict {m : Monitor} : ∀ c prev ptrs, Strict (contactLoop m c prev ptrs)
  | [], _, _ => trivial
  | (x, ver) :: rest, prev, ptrs => by
    unfold contactLoop contactMonitor1 distinguishedAncestor
    refine .bind (.bind (distAncLoop_strict ..) fun _ => .ite .pure (.bind .lift fun _ => .bind (inspectAll_strict ..) fun _ =>
      .ite .pure (.ite .pure .pure))) fun r => ?_
    obtain ⟨u, prev'⟩ := r
    cases u with
    | none => exact contactLoop_strict rest _ _
    | some y => exact contactLoop_strict rest _ _

theorem contactMonitor_strict {m : Monitor} : Strict (Alg.contactMonitor m) := by
  unfold Alg.contactMonitor
  split
  · exact .pure
  · exact .bind (contactLoop_strict ..) fun _ => .pure

theorem output_proofs {cs : Log.Suite} {db : ServerDB} {index : List Nat} {n : Nat} {nP m : Option Nat} {p p' : Provider Produced}
    {proof : CombinedTreeProof} (h : p.output cs db index n nP m = (.ok proof, p')) :
    proof.prefixProofs.length = p.state.proofs.length := by
  unfold Provider.output at h
  split at h
  · cases h
  · rename_i leaves q hi
    have hq : q.state.proofs = p.state.proofs := by
      unfold Provider.inspectedLeaves at hi
      simp only [Produced.handle, Produced.prefixTrees] at hi
      split at hi
      · cases hi
      · rename_i roots s hr
        have : s.proofs = p.state.proofs := by
          split at hr
          · cases hr
          · obtain ⟨-, rfl⟩ := Prod.mk.inj hr; rfl
        split at hi
        · cases hi
        · obtain ⟨-, rfl⟩ := Prod.mk.inj hi
          exact this
    cases ho : Produced.output cs db (leaves.map (·.1)) n nP m q.state with
    | error e => rw [ho] at h; cases h
    | ok r =>
      rw [ho] at h
      cases h
      unfold Produced.output at ho
      obtain ⟨ss, o1, ho⟩ := G.bind_eq_ok.1 ho
      obtain ⟨res, o2, ho⟩ := G.bind_eq_ok.1 ho
      obtain ⟨vs, o4, ho⟩ := G.bind_eq_ok.1 ho
      obtain ⟨incl, o3, ho⟩ := G.bind_eq_ok.1 ho
      cases ho
      have hlen : res.length = ss.length := by
        obtain ⟨_, -, o2⟩ := G.bind_eq_ok.1 o2
        exact mapM_ok_length o2
      have hss : ∀ {ps : List (Nat × List Nat)} {ss}, Produced.searches q.state.versions ps = .ok ss → ss.length = ps.length := by
        intro ps
        induction ps with
        | nil => intro ss h; cases h; rfl
        | cons a ps ih =>
          intro ss h
          unfold Produced.searches at h
          obtain ⟨_, -, h⟩ := G.bind_eq_ok.1 h
          obtain ⟨more, h1, h⟩ := G.bind_eq_ok.1 h
          cases h
          simp [ih h1]
      rw [List.length_map, hlen, hss o1, hq]

end Katie.Alg

namespace Katie.Server
open Katie Katie.Wire Katie.Alg Katie.Ladder Katie.Props Katie.SearchSpec Katie.SearchTree Katie.PrefixSpec Prog

/-- what updating the view has fetched: at most `3 log n + 3` timestamps -/
theorem updateView_spent {env : Env} {bs : List Batch} {n : Nat} {E : Nat → LogEntry} {t : Tree} (hl : Live env bs n E t) {now : Nat}
    {index : List Nat} {last : Option Nat} (hlast : ∀ k, last = some k → 0 < k ∧ k ≤ n) {s : Produced} (hs1 : s.tracker = {})
    (hs2 : s.timestamps = []) (hs3 : s.proofs = []) {p : Provider Produced}
    (h : updateView env now t index last (newProvider s) = .ok p) :
    ∃ (fk : List Nat) (S : List Nat), Fresh n E (retainedTables s E [] fk) ∧ Spent n E (fun x => x ∈ S) 0 (retainedTables s E [] fk) p ∧
      Steady n E p ∧ p.state.versions = s.versions ∧ n - 1 ∈ S ∧ (∀ y, Spine 0 n y → y ∈ S) ∧ S.length ≤ 3 * Nat.log2 n + 3 := by
  have hh := hl.honest
  have hpos := hh.pos
  have hsz := hh.size
  obtain ⟨p1s, p1v⟩ := (updateView_calm hl hlast hs1 hs2 hs3).2 p h
  obtain ⟨fk, hfk⟩ := retained_exists hsz hlast
  unfold updateView at h
  obtain ⟨th, hth, hthn⟩ := hl.head
  rw [hth] at h
  simp only [loadRetained_ok (env := env) (st := t.tx) hh.entry hh.times hfk, G.ok_bind, hthn] at h
  have hf := retainedTables_fresh hh.times hfk.nodup hfk.lt (s := s) [] hs1 hs2 hs3
  obtain ⟨⟨u, p1'⟩, k9, k6⟩ := G.bind_eq_ok.1 h
  cases k6
  unfold Server.runOn handleFor at k9
  split at k9
  · cases k9
  rename_i u' q0 hrun
  cases k9
  obtain ⟨xs, f, hxs, hfr, -⟩ := updateView_positions hpos (by omega : n < 2 ^ 64) hlast
  obtain ⟨f', hf', hsp, -⟩ := frontier_spine hpos (by omega : n < 2 ^ 64)
  have : f' = f := Except.ok.inj (hf'.symm.trans hfr)
  subst this
  have lx := updateView_length hpos (by omega : n < 2 ^ 64) hlast hxs
  have lf := frontier_length hpos (by omega : n < 2 ^ 64) hfr
  have cu : Costs (xs ++ (n - 1) :: f') 0 0 (Alg.updateView env.cfg now n last) (fun _ => True) :=
    updateView_costs hxs (fun x hx => List.mem_append_left _ hx) (List.mem_append_right _ List.mem_cons_self)
  obtain ⟨T0, t0, sp0⟩ := run_costs (index := index) hl.log hh.times cu hf.agrees.ts hf.ts
  rw [hrun] at sp0
  have : T0 = [] := List.eq_nil_of_length_eq_zero (by omega)
  subst this
  rw [List.append_nil] at sp0
  refine ⟨fk, xs ++ (n - 1) :: f', hf, sp0, p1s, p1v, List.mem_append_right _ List.mem_cons_self,
    fun y hy => List.mem_append_right _ (List.mem_cons_of_mem _ ((hsp y).2 hy)), ?_⟩
  simp only [List.length_append, List.length_cons]
  omega

/-- The number of prefix proofs in the answer to a contact monitoring request. -/
theorem contactMonitor_count {env : Env} {bs : List Batch} {n : Nat} {E : Nat → LogEntry} {t : Tree} (hl : Live env bs n E t) {now : Nat}
    {req : ContactMonitorRequest} (h0 : req.last ≠ some 0) {ts : Nat → Nat} (hts : ∀ x < n, ts x = (E x).timestamp)
    {index : List Nat} (hi : getIndex t.tx req.label = .ok index) {ptrs : PMap} (hv : verifyEntries req.entries index n = .ok ptrs)
    {b : Monitor} (hb : (tally ts (Alg.contactMonitor ⟨env.cfg, ts (n - 1), n, some ptrs, none⟩)).1 = .ok b)
    {res : MonitorResponse} (hres : contactMonitor env now t req = .ok res) :
    res.monitor.prefixProofs.length = (tally ts (Alg.contactMonitor ⟨env.cfg, ts (n - 1), n, some ptrs, none⟩)).2 := by
  unfold contactMonitor startMonitor at hres
  obtain ⟨op, k1, hres⟩ := G.bind_eq_ok.1 hres
  obtain ⟨h, j1, k1⟩ := G.bind_eq_ok.1 k1
  obtain ⟨index', j2, k1⟩ := G.bind_eq_ok.1 k1
  rw [hi] at j2
  obtain rfl := Except.ok.inj j2
  obtain ⟨p1, j3, k1⟩ := G.bind_eq_ok.1 k1
  obtain ⟨⟨m, p2⟩, j4, k1⟩ := G.bind_eq_ok.1 k1
  cases k1
  obtain ⟨ptrs', k2, hres⟩ := G.bind_eq_ok.1 hres
  have hw := (fullTreeHead_calm hl h0).2 h j1
  simp only [hw.size] at k2 hres
  rw [hv] at k2
  obtain rfl := Except.ok.inj k2
  obtain ⟨⟨m', p3⟩, k3, hres⟩ := G.bind_eq_ok.1 hres
  obtain ⟨⟨fth, proof⟩, k4, hres⟩ := G.bind_eq_ok.1 hres
  cases hres
  have hh := hl.honest
  have hpos := hh.pos
  have hsz := hh.size
  obtain ⟨fk, S, hf, sp0, p1s, -, -⟩ := updateView_spent hl hw.last rfl rfl rfl j3
  have hz : p1.state.proofs.length = 0 := by
    obtain ⟨new, e1, e2⟩ := sp0.proofs
    rw [e1, hf.proofs, List.nil_append]
    omega
  -- the timestamp of the last entry
  unfold runOn handleFor at j4 k3
  split at j4
  · cases j4
  rename_i m1 q1 hrun1
  cases j4
  split at k3
  · cases k3
  rename_i m2 q2 hrun2
  cases k3
  have hstrict : Strict (newMonitor env.cfg n) := .ite .ret (.bind .call fun _ => .pure)
  have htal : tally ts (newMonitor env.cfg n) = (.ok ⟨env.cfg, ts (n - 1), n, none, none⟩, 0) := by
    unfold newMonitor
    rw [if_neg (by omega)]
    rfl
  rw [hw.size] at hrun1
  obtain ⟨e1, e2⟩ := run_tally hl.log hh.times hts _ hstrict p1s.agrees.ts hrun1 (by rw [htal])
  rw [htal] at e2
  have held2 : Held n E p2 := by
    have := (run_spent (index := index) hl.log hh.times (newMonitor env.cfg n) p1s.agrees.ts).held p1s.agrees.ts
    rw [hrun1] at this
    exact this
  rw [e1] at hrun2
  obtain ⟨-, e4⟩ := run_tally hl.log hh.times hts _ contactMonitor_strict held2 hrun2 hb
  -- the proof
  unfold finishMonitor at k4
  obtain ⟨s, l1, k4⟩ := G.bind_eq_ok.1 k4
  obtain ⟨⟨proof', p4⟩, l2, k4⟩ := G.bind_eq_ok.1 k4
  cases k4
  unfold outputOf at l2
  split at l2
  · cases l2
  rename_i r' p5 hout
  cases l2
  rw [output_proofs hout]
  simp only
  rw [addRequired_proofs l1, e4, e2, hz]
  simp

end Katie.Server
