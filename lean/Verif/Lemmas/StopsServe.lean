import Verif.Lemmas.StopsWalk
import Verif.Lemmas.ServeExchange

/-
A request with stop conditions: the server's run, its output, and the client's run on it.
-/

namespace Katie.Alg
open Katie Katie.Wire Katie.Ladder Katie.Props Katie.SearchSpec Katie.SearchTree Katie.ServedSpec Katie.PrefixSpec Prog

/-- the proof that a request asks for -/
def Req.asks (q : Req) (g : Nat → Int) (need : Nat × List Nat) : Prop :=
  match q with
  | .search x v _ => need.1 = x ∧ (g x < 0 → need.2 = [0]) ∧ ∀ b, baseBinaryLadder v = .ok b → 0 ∈ b → ∀ u ∈ need.2, u ∈ b
  | .monitor x v => need.1 = x ∧ monitoringBinaryLadder v = .ok need.2
  | .incl x vers => need = (x, vers)
  | _ => False

section
variable {α : Type} {db : ServerDB} {index : List Nat}

theorem produceLadder_none {vt vt' : Tracker} {x t : Nat} {om : Bool} {g : Int} {w : List Nat} {r : Int} (hg : g < 0)
    (h : produceLadder vt x t om g = .ok (w, r, vt')) : w = [0] := by
  unfold produceLadder producedVersions at h
  rw [if_pos hg] at h
  exact ((Prod.mk.inj (Except.ok.inj h)).1).symm

theorem run_needs (prog : Prog α) (p : Provider Produced) :
    ∀ need ∈ (p.run (Produced.handle db index) prog).2.state.proofs, need ∈ p.state.proofs ∨
      ∃ e ∈ p.trace (Produced.handle db index) prog, e.q.asks (greatestAt index) need := by
  induction prog generalizing p with
  | ret r => intro need h; exact .inl h
  | op q k ih =>
    have key : ∀ need ∈ (p.answer (Produced.handle db index) q).2.state.proofs, need ∈ p.state.proofs ∨ q.asks (greatestAt index) need := by
      have hts : ∀ x, (p.getTimestamp (Produced.handle db index) x).2.state.proofs = p.state.proofs := by
        intro x
        unfold Provider.getTimestamp
        split
        · rfl
        · simp only [Produced.handle, Produced.getTs]
          cases db.entry x with
          | error e => rfl
          | ok e => simp only; split <;> rfl
      have hvia : ∀ {γ : Type} (x : Nat) (f : Produced → G (Bytes × γ) × Produced),
          (∀ s, s.proofs = p.state.proofs → ∀ need ∈ (f s).2.proofs, need ∈ p.state.proofs ∨ q.asks (greatestAt index) need) →
          ∀ need ∈ (viaRoot (Produced.handle db index) x f p).2.state.proofs, need ∈ p.state.proofs ∨ q.asks (greatestAt index) need := by
        intro γ x f hf
        unfold viaRoot
        have h1 := hts x
        revert h1
        generalize p.getTimestamp (Produced.handle db index) x = r
        obtain ⟨r1, p'⟩ := r
        intro h1
        simp only at h1
        cases r1 with
        | error e => simp only; rw [h1]; exact fun need h => .inl h
        | ok t =>
          simp only
          have h2 := hf _ h1
          revert h2
          generalize f p'.state = r
          obtain ⟨r1, s⟩ := r
          intro h2
          cases r1 with
          | error e => exact h2
          | ok a =>
            simp only
            rw [(record_spec _ _ _ _).2.2.1]
            exact h2
      cases q with
      | ts x =>
        change ∀ need ∈ (p.getTimestamp (Produced.handle db index) x).2.state.proofs, _
        rw [hts x]; exact fun need h => .inl h
      | search x v om =>
        have he : p.answer (Produced.handle db index) (.search x v om) = viaRoot (Produced.handle db index) x _ p :=
          getSearch_eq _ x v om p
        rw [he]
        apply hvia
        intro s hs
        simp only [Produced.handle, Produced.search]
        cases hpl : produceLadder s.tracker x v om (greatestAt index x) with
        | error e => simp only; rw [hs]; exact fun need h => .inl h
        | ok r =>
          obtain ⟨w, res, vt'⟩ := r
          cases db.entry x with
          | error e => simp only; rw [hs]; exact fun need h => .inl h
          | ok e =>
            simp only
            intro need hn
            rcases List.mem_append.1 hn with hn | hn
            · rw [hs] at hn; exact .inl hn
            · rw [List.mem_singleton.1 hn]
              exact .inr ⟨rfl, fun hg => produceLadder_none hg hpl, fun b hb h0 => produceLadder_sub hb h0 hpl⟩
      | monitor x v =>
        have he : p.answer (Produced.handle db index) (.monitor x v) = viaRoot (Produced.handle db index) x _ p :=
          getMonitor_eq _ x v p
        rw [he]
        apply hvia
        intro s hs
        simp only [withUnit, Produced.handle, Produced.monitor]
        cases hm : monitoringBinaryLadder v with
        | error e => cases db.entry x <;> (simp only; rw [hs]; exact fun need h => .inl h)
        | ok w =>
          cases db.entry x with
          | error e => simp only; rw [hs]; exact fun need h => .inl h
          | ok e =>
            simp only
            intro need hn
            rcases List.mem_append.1 hn with hn | hn
            · rw [hs] at hn; exact .inl hn
            · rw [List.mem_singleton.1 hn]
              exact .inr ⟨rfl, hm⟩
      | incl x vers =>
        have he : p.answer (Produced.handle db index) (.incl x vers) = _ := getIncl_eq (Produced.handle db index) x vers p
        rw [he]
        split
        · exact fun need h => .inl h
        · apply hvia
          intro s hs
          simp only [withUnit, Produced.handle, Produced.incl]
          cases db.entry x with
          | error e => simp only; rw [hs]; exact fun need h => .inl h
          | ok e =>
            simp only
            intro need hn
            rcases List.mem_append.1 hn with hn | hn
            · rw [hs] at hn; exact .inl hn
            · rw [List.mem_singleton.1 hn]
              exact .inr rfl
      | stop x v => exact fun need h => .inl h
      | addLadder x om g l => exact fun need h => .inl h
    intro need hn
    unfold Provider.run at hn
    unfold Provider.trace
    rcases ih _ _ need hn with h | ⟨e, he, h⟩
    · rcases key need h with h | h
      · exact .inl h
      · exact .inr ⟨_, List.mem_cons_self, h⟩
    · exact .inr ⟨e, List.mem_cons_of_mem _ he, h⟩

end

section
variable {α : Type} {cs : Log.Suite} {db : ServerDB} {bs : List Batch} {n : Nat} {E : Nat → Wire.LogEntry} {index R : List Nat}
  {out com : Nat → Bytes} {W : Req → Prop} {Q : Bool → Bool → α → Prop} {C : Nat → Prop}

theorem LabelTree.sub {V : List Nat} {g : Nat → Int} (h : LabelTree cs bs n R out com g) (hV : ∀ v ∈ V, v ∈ R) :
    LabelTree cs bs n V out com g :=
  ⟨fun x hx v hv => h.mem x hx v (hV v hv), fun v hv w hw => h.inj v (hV v hv) w (hV w hw), fun v hv => h.len v (hV v hv),
    fun v hv => h.comLen v (hV v hv)⟩

/-- The server runs the algorithm, adds the VRF outputs that are needed and outputs the proof; the client, which has
retained the versions `R` and the commitments of those with property `C`, comes to the same result. -/
theorem served_stops (hh : Honest cs db bs n E) (hi : index.length ≤ 2 ^ 32) (hlab : LabelTree cs bs n R out com (greatestAt index))
    (hneed : ∀ q, W q → ∀ need, q.asks (greatestAt index) need → ∀ u ∈ need.2, u ∈ R ∧ ((u : Int) ≤ greatestAt index need.1 → C u))
    {M : Prog α} (hM : Sv (fun x => (E x).timestamp) (greatestAt index) n W false false M Q) {p : Provider Produced} (hp : Fresh n E p)
    {f : List Nat} (hf : frontier n = .ok f)
    (hcov : ∀ x ∈ f, x ∈ (p.run (Produced.handle db index) M).2.timestamps.map Prod.fst)
    {nP m : Option Nat} (hnP : ∀ k, nP = some k → 0 < k ∧ k ≤ n) (hm : ∀ k, m = some k → 0 < k ∧ k ≤ n) :
    ∃ a st' b' p1, p.run (Produced.handle db index) M = (.ok a, p1) ∧ Q st' b' a ∧ p1.state.versions = p.state.versions ∧
      (∀ need ∈ p1.state.proofs, ∀ u ∈ need.2, u ∈ R) ∧
      ∀ V tab, (∀ v ∈ V, v ∈ R) → (∀ need ∈ p1.state.proofs, ∀ u ∈ need.2, u ∈ V) → Table V out com tab →
        ∃ proof p3, ({ p1 with state := { p1.state with versions := tab } } : Provider Produced).output cs db index n nP m = (.ok proof, p3) ∧
          ∀ full vs, Table R out com vs → (∀ u, C u → ∃ k, vs.lookup u = some k ∧ k.com = some (com u)) →
            (∀ k, m = some k → full = LogSpec.heads cs.H ((leavesOf cs E n).take k)) →
            ∃ pc, (⟨⟨proof, vs, {}⟩, full, p.logEntries, p.timestamps, p.prefixTrees⟩ : Provider Received).run (Received.handle cs) M =
                (.ok a, pc) ∧
              ∃ result pc', pc.finish cs (Received.handle cs) n nP m = (.ok result, pc') ∧
                result.fullSubtrees = LogSpec.heads cs.H (leavesOf cs E n) ∧
                (∀ k, nP = some k → result.additional = LogSpec.heads cs.H ((leavesOf cs E n).take k)) ∧
                result.logEntries = f.map (fun x => (x, E x)) := by
  have hrec : Recorded (greatestAt index) [] p.state.tracker := by rw [hp.tracker]; exact ⟨by simp, by simp⟩
  obtain ⟨b', s1, s2, s3⟩ := server_srv hh.entry hh.times hi M hp.agrees hrec (b := false) (by rw [hp.proofs]; rfl) (by
    intro tr r b' hr hs
    obtain ⟨a, st', -, -, h, -⟩ := hM tr r b' hr hs
    exact ⟨false, h false (fun _ => rfl)⟩)
  obtain ⟨hgr, hts, hruns, -, -⟩ := run_spec (Produced.handle db index) M p hp.ts
  obtain ⟨a, st', k1, -, k3, k4, -, k6⟩ := hM _ _ _ hruns s1
  have hfit := k3 false (fun _ => rfl)
  obtain ⟨ts, pfs, done', hadd, -, hprov, -, hsim⟩ := run_sim cs hh.entry hi M p hrec s2 hfit
  have hneeds := run_needs (db := db) (index := index) M p
  have hrun : p.run (Produced.handle db index) M = (.ok a, (p.run (Produced.handle db index) M).2) := Prod.ext k1 rfl
  refine ⟨a, st', b', (p.run (Produced.handle db index) M).2, hrun, k6, hadd.versions, ?_, ?_⟩
  · intro need hn u hu
    rcases hneeds need hn with h | ⟨e, he, h⟩
    · rw [hp.proofs] at h; cases h
    · exact (hneed e.q (k4 e he) need h u hu).1
  · intro V tab hVR hV htab
    have hC : ∀ need ∈ pfs, ∀ u ∈ need.2, (u : Int) ≤ greatestAt index need.1 → C u := by
      intro need hn u hu
      have : need ∈ (p.run (Produced.handle db index) M).2.state.proofs := by rw [hadd.proofs]; simp [hn]
      rcases hneeds need this with h | ⟨e, he, h⟩
      · rw [hp.proofs] at h; cases h
      · exact (hneed e.q (k4 e he) need h u hu).2
    rw [k1] at hsim
    clear k1 hrun hruns s1 s2 hneeds k3 k4 k6 hfit
    revert s3 hadd hsim hV hcov hgr hts
    generalize (p.run (Produced.handle db index) M).2 = p1
    intro hcov hag hgr hts hadd hsim hV
    have hproofs : p1.state.proofs = pfs := by rw [hadd.proofs, hp.proofs]; rfl
    have htimes : p1.state.timestamps = ts := by rw [hadd.timestamps, hp.times]; rfl
    rw [hproofs] at hV
    have hret : ∀ x, p1.logEntries.lookup x ≠ none → p1.prefixTrees.lookup x ≠ none := by
      intro x hx
      rw [hadd.logEntries] at hx
      have := hp.retained x hx
      cases hr : p.prefixTrees.lookup x with
      | none => exact absurd hr this
      | some r => rw [hgr.roots x r hr]; simp
    obtain ⟨leaves, q, roots, incl, e1, e2, e3, e4⟩ := finish_complete (index := index)
      (p := ({ p1 with state := { p1.state with versions := tab } } : Provider Produced)) hh.good hh.entry hh.nonempty hh.pos hh.size hh.log
      hts ⟨hag.ts, hag.roots⟩ hret hf hcov hnP hm
    obtain ⟨res, vs', g1, g2, g3, g4, -⟩ := prefix_output (E := E) hh.good hh.small hh.hist hh.len hh.root (hlab.sub hVR) hprov hV htab
    refine ⟨⟨ts, res.map (·.1), roots, incl⟩, { q with state := { q.state with versions := vs' } }, ?_, ?_⟩
    · unfold Provider.output
      rw [e1]
      simp only
      unfold Produced.output
      rw [e2]
      simp only [hproofs, g1, G.ok_bind, g2, g3, e3, G.pure_eq, htimes]
    · intro full vs htv hcom hfull
      obtain ⟨res', -, -, g2', -, -, g5⟩ := prefix_output (E := E) hh.good hh.small hh.hist hh.len hh.root hlab hprov
        (fun need hn u hu => hVR u (hV need hn u hu)) htv
      rw [g2] at g2'
      cases g2'
      have hconv := g5 vs htv (fun need hn u hu hle => hcom u (hC need hn u hu hle))
      have hrun := hsim full vs [] [] roots incl (res.map (·.1)) hconv (by simp)
      refine ⟨mirror p1 full vs [] [] roots incl, ?_, ?_⟩
      · have : mirror p full vs (ts ++ []) (res.map (·.1) ++ []) roots incl =
            ⟨⟨⟨ts, res.map (·.1), roots, incl⟩, vs, {}⟩, full, p.logEntries, p.timestamps, p.prefixTrees⟩ := by
          unfold mirror
          rw [hp.tracker, List.append_nil, List.append_nil]
        rw [← this]
        exact hrun
      · obtain ⟨result, pc', k1, k2, k3, k4, -⟩ := e4 full vs hfull
        exact ⟨result, pc', k1, k2, k3, k4⟩

/-- The same with the update of the view before, for which server and client have their own clocks. -/
theorem exchange_stops (hh : Honest cs db bs n E) (hi : index.length ≤ 2 ^ 32) (hlab : LabelTree cs bs n R out com (greatestAt index))
    (hW : ∀ x v, ¬ W (.search x v true)) (hts : ∀ x, x < n → W (.ts x))
    (hneed : ∀ q, W q → ∀ need, q.asks (greatestAt index) need → ∀ u ∈ need.2, u ∈ R ∧ ((u : Int) ≤ greatestAt index need.1 → C u))
    {M : Prog α} (hM : ∀ b, Sv (fun x => (E x).timestamp) (greatestAt index) n W false b M Q) {p : Provider Produced} (hp : Fresh n E p)
    {cfg : Config} {nowS nowC : Nat} (hwS : InWindow cfg nowS (E (n - 1)).timestamp) (hwC : InWindow cfg nowC (E (n - 1)).timestamp)
    {f : List Nat} (hf : frontier n = .ok f)
    {nP m : Option Nat} (hnP : ∀ k, nP = some k → 0 < k ∧ k ≤ n) (hm : ∀ k, m = some k → 0 < k ∧ k ≤ n)
    (hcov : ∀ k, m = some k → k - 1 ∉ f ∧ ∃ fk, frontier k = .ok fk ∧ ∀ x ∈ fk, x ∈ p.timestamps.map Prod.fst) :
    ∃ a st' b' p1 p2, p.run (Produced.handle db index) (Alg.updateView cfg nowS n m) = (.ok (), p1) ∧
      p1.run (Produced.handle db index) M = (.ok a, p2) ∧ Q st' b' a ∧ p2.state.versions = p.state.versions ∧
      (∀ need ∈ p2.state.proofs, ∀ u ∈ need.2, u ∈ R) ∧
      ∀ V tab, (∀ v ∈ V, v ∈ R) → (∀ need ∈ p2.state.proofs, ∀ u ∈ need.2, u ∈ V) → Table V out com tab →
        ∃ proof p3, ({ p2 with state := { p2.state with versions := tab } } : Provider Produced).output cs db index n nP m = (.ok proof, p3) ∧
          ∀ full vs, Table R out com vs → (∀ u, C u → ∃ k, vs.lookup u = some k ∧ k.com = some (com u)) →
            (∀ k, m = some k → full = LogSpec.heads cs.H ((leavesOf cs E n).take k)) →
            ∃ q1 q2, (⟨⟨proof, vs, {}⟩, full, p.logEntries, p.timestamps, p.prefixTrees⟩ : Provider Received).run (Received.handle cs)
                (Alg.updateView cfg nowC n m) = (.ok (), q1) ∧
              q1.run (Received.handle cs) M = (.ok a, q2) ∧
              ∃ result q3, q2.finish cs (Received.handle cs) n nP m = (.ok result, q3) ∧
                result.fullSubtrees = LogSpec.heads cs.H (leavesOf cs E n) ∧
                (∀ k, nP = some k → result.additional = LogSpec.heads cs.H ((leavesOf cs E n).take k)) ∧
                result.logEntries = f.map (fun x => (x, E x)) := by
  have hn64 : n < 2 ^ 64 := by have := hh.size; omega
  have hsv : ∀ now, InWindow cfg now (E (n - 1)).timestamp →
      Sv (fun x => (E x).timestamp) (greatestAt index) n W false false (Alg.updateView cfg now n m >>= fun _ => M) Q := by
    intro now hw
    refine .bind hW (.of_asks (updateView_asks_lt hh.pos hn64 hm) hts (updateView_eval hh.pos hn64 hm hw)) ?_
    rintro st1 b1 a - - ⟨rfl, -⟩
    exact hM b1
  have split : ∀ {σ : Type} {H : Handle σ} {now : Nat} {p q : Provider σ} {a : α},
      p.run H (Alg.updateView cfg now n m >>= fun _ => M) = (.ok a, q) →
      ∃ p1, p.run H (Alg.updateView cfg now n m) = (.ok (), p1) ∧ p1.run H M = (.ok a, q) := by
    intro σ H now p q a h
    rw [run_bind] at h
    cases hu : p.run H (Alg.updateView cfg now n m) with
    | mk r p1 =>
      rw [hu] at h
      cases r with
      | error e => simp at h
      | ok u => exact ⟨p1, rfl, h⟩
  have hcov' : ∀ now, InWindow cfg now (E (n - 1)).timestamp → ∀ x ∈ f,
      x ∈ (p.run (Produced.handle db index) (Alg.updateView cfg now n m >>= fun _ => M)).2.timestamps.map Prod.fst := by
    intro now hw x hx
    have hrec : Recorded (greatestAt index) [] p.state.tracker := by rw [hp.tracker]; exact ⟨by simp, by simp⟩
    obtain ⟨b', s1, -, -⟩ := server_srv hh.entry hh.times hi (Alg.updateView cfg now n m >>= fun _ => M) hp.agrees hrec (b := false) (by rw [hp.proofs]; rfl) (by
      intro tr r b' hr hs
      obtain ⟨a, st', -, -, h, -⟩ := hsv now hw tr r b' hr hs
      exact ⟨false, h false (fun _ => rfl)⟩)
    obtain ⟨-, -, hruns, -, -⟩ := run_spec (Produced.handle db index) (Alg.updateView cfg now n m >>= fun _ => M) p hp.ts
    obtain ⟨a, st', k1, -⟩ := hsv now hw _ _ _ hruns s1
    obtain ⟨p1, r1, r2⟩ := split (Prod.ext k1 rfl : p.run (Produced.handle db index) (Alg.updateView cfg now n m >>= fun _ => M) =
      (.ok a, (p.run (Produced.handle db index) (Alg.updateView cfg now n m >>= fun _ => M)).2))
    obtain ⟨xs, f', u1, u2, -, -, u3⟩ := updateView_positions hh.pos hn64 hm
    rw [hf] at u2
    cases u2
    obtain ⟨k1, k2, -⟩ := run_spec (Produced.handle db index) (Alg.updateView cfg now n m) p hp.ts
    obtain ⟨k3, -⟩ := run_spec (Produced.handle db index) M p1 (by rw [r1] at k2; exact k2)
    rw [r1] at k1
    rw [r2] at k3
    have up : ∀ y, y ∈ p1.timestamps.map Prod.fst →
        y ∈ (p.run (Produced.handle db index) (Alg.updateView cfg now n m >>= fun _ => M)).2.timestamps.map Prod.fst := by
      intro y hy
      obtain ⟨e, he, rfl⟩ := List.mem_map.1 hy
      exact List.mem_map.2 ⟨e, k3.ts e he, rfl⟩
    rcases u3 (fun k hk => (hcov k hk).1) x hx with h | ⟨k, g, hk, hg, hxg⟩
    · have := updateView_learns hp.ts hh.pos u1 (H := Produced.handle db index) (cfg := cfg) (now := now) (by rw [r1]) x (.inl h)
      rw [r1] at this
      exact up x this
    · obtain ⟨-, fk, h1, h2⟩ := hcov k hk
      rw [hg] at h1
      cases h1
      obtain ⟨e, he, rfl⟩ := List.mem_map.1 (h2 x hxg)
      exact up _ (List.mem_map.2 ⟨e, k1.ts e he, rfl⟩)
  obtain ⟨a, st', b', p2, c1, c2, c3, c4, c5⟩ := served_stops hh hi hlab hneed (hsv nowC hwC) hp hf (hcov' nowC hwC) hnP hm
  obtain ⟨a', -, -, p2', c1', -⟩ := served_stops hh hi hlab hneed (hsv nowS hwS) hp hf (hcov' nowS hwS) hnP hm
  obtain ⟨p1, r1, r2⟩ := split c1
  obtain ⟨p1', r1', r2'⟩ := split c1'
  have hp1 : p1' = p1 := by
    have := updateView_state_now (Produced.handle db index) p cfg nowC nowS n m
    rw [r1, r1'] at this
    exact this.symm
  subst hp1
  refine ⟨a, st', b', p1', p2, r1', r2, c2, c3, c4, ?_⟩
  intro V tab hVR hV htab
  obtain ⟨proof, p3, d1, d2⟩ := c5 V tab hVR hV htab
  refine ⟨proof, p3, d1, ?_⟩
  intro full vs h1 h2 h3
  obtain ⟨pc, d3, d4⟩ := d2 full vs h1 h2 h3
  obtain ⟨q1, d5, d6⟩ := split d3
  exact ⟨q1, pc, d5, d6, d4⟩

end

end Katie.Alg
