import Verif.Lemmas.ServeCover

/-
One request: the server and the client update their view and run the algorithm; the server outputs the proof, the client
checks that it is used up.
-/

namespace Katie.Alg
open Katie Katie.Wire Katie.Ladder Katie.Props Katie.SearchSpec Katie.SearchTree Katie.ServedSpec Katie.PrefixSpec Prog

/-- the program with its outcome as a value -/
def total {α : Type} : Prog α → Prog (G α)
  | .ret r => .ret (.ok r)
  | .op q k => .op q (fun r => total (k r))

section
variable {α : Type}

theorem run_total {σ : Type} (H : Handle σ) (prog : Prog α) (p : Provider σ) :
    p.run H (total prog) = (.ok (p.run H prog).1, (p.run H prog).2) := by
  induction prog generalizing p with
  | ret r => rfl
  | op q k ih => exact ih _ _

theorem eval_total (A : (q : Req) → G q.Resp) (prog : Prog α) : eval A (total prog) = .ok (eval A prog) := by
  induction prog with
  | ret r => rfl
  | op q k ih => exact ih _

theorem runs_total {prog : Prog α} {tr : List Ev} {r : G (G α)} (h : Runs (total prog) tr r) :
    ∃ r', r = .ok r' ∧ Runs prog tr r' := by
  induction prog generalizing tr with
  | ret x => cases h; exact ⟨x, rfl, .ret _⟩
  | op q k ih =>
    unfold total at h
    cases h with
    | op a h =>
      obtain ⟨r', h1, h2⟩ := ih a h
      exact ⟨r', h1, .op a h2⟩

theorem About.total {t : Nat} {prog : Prog α} (h : About t prog) : About t (total prog) := by
  induction prog with
  | ret r => trivial
  | op q k ih => exact ⟨h.1, fun a => ih a (h.2 a)⟩

theorem FitsP.total {ts : Nat → Nat} {g : Nat → Int} {stop : Nat → Int → Bool} {n : Nat} {more : Bool} {done : List Nat}
    {prog : Prog α} (h : FitsP ts g stop n more done prog) : FitsP ts g stop n more done (total prog) := by
  intro tr r hr ha
  obtain ⟨r', -, h2⟩ := runs_total hr
  exact h tr r' h2 ha

/-- the view is updated, then the algorithm runs -/
def viewed (cfg : Config) (now n : Nat) (m : Option Nat) (prog : Prog α) : Prog (G α) :=
  Alg.updateView cfg now n m >>= fun _ => total prog

theorem run_viewed {σ : Type} {H : Handle σ} {cfg : Config} {now n : Nat} {m : Option Nat} {prog : Prog α} {p q : Provider σ}
    {r : G α} (h : p.run H (viewed cfg now n m prog) = (.ok r, q)) :
    ∃ p1, p.run H (Alg.updateView cfg now n m) = (.ok (), p1) ∧ p1.run H prog = (r, q) := by
  unfold viewed at h
  rw [run_bind] at h
  cases hu : p.run H (Alg.updateView cfg now n m) with
  | mk a p1 =>
    rw [hu] at h
    cases a with
    | error e => simp at h
    | ok u =>
      simp only [run_total, Prod.mk.injEq, Except.ok.injEq] at h
      exact ⟨p1, rfl, Prod.ext h.1 h.2⟩

section
variable {cs : Log.Suite} {db : ServerDB} {bs : List Batch} {n : Nat} {E : Nat → Wire.LogEntry} {index V : List Nat}
  {out com : Nat → Bytes} {stop : Nat → Int → Bool}

theorem exchange (hh : Honest cs db bs n E) (hi : index.length ≤ 2 ^ 32) (hlab : LabelTree cs bs n V out com (greatestAt index))
    {prog : Prog α} (hfit : FitsP (fun x => (E x).timestamp) (greatestAt index) stop n false [] prog)
    {p : Provider Produced} (hp : Fresh n E p) (htab : Table V out com p.state.versions)
    {cfg : Config} {now : Nat} (hw : InWindow cfg now (E (n - 1)).timestamp)
    {m nP : Option Nat} (hm : ∀ k, m = some k → 0 < k ∧ k ≤ n) (hnP : ∀ k, nP = some k → 0 < k ∧ k ≤ n)
    (hV : ∀ need ∈ (p.run (Produced.handle db index) (viewed cfg now n m prog)).2.state.proofs, ∀ v ∈ need.2, v ∈ V)
    {f : List Nat} (hf : frontier n = .ok f)
    (hcov : (∀ k, m = some k → k - 1 ∉ f ∧ ∃ fk, frontier k = .ok fk ∧ ∀ x ∈ fk, x ∈ p.timestamps.map Prod.fst) ∨
      ∀ tr, Runs prog tr (eval (honest (fun x => (E x).timestamp) (greatestAt index) stop) prog) →
        AgreesWith tr (honest (fun x => (E x).timestamp) (greatestAt index) stop) → ∀ y ∈ f, Inspected tr y) :
    ∃ p1 p2 proof p3, p.run (Produced.handle db index) (Alg.updateView cfg now n m) = (.ok (), p1) ∧
      p1.run (Produced.handle db index) prog = (eval (honest (fun x => (E x).timestamp) (greatestAt index) stop) prog, p2) ∧
      p2.output cs db index n nP m = (.ok proof, p3) ∧
      Table V out com p3.state.versions ∧
      ∀ full vs, Table V out com vs →
        (∀ v k, p3.state.versions.lookup v = some k → k.com = some (com v) →
          ∃ k', vs.lookup v = some k' ∧ k'.com = some (com v)) →
        (∀ k, m = some k → full = LogSpec.heads cs.H ((leavesOf cs E n).take k)) →
        ∃ q1 q2, (⟨⟨proof, vs, {}⟩, full, p.logEntries, p.timestamps, p.prefixTrees⟩ : Provider Received).run (Received.handle cs)
            (Alg.updateView cfg now n m) = (.ok (), q1) ∧
          q1.run (Received.handle cs) prog = (eval (honest (fun x => (E x).timestamp) (greatestAt index) stop) prog, q2) ∧
          ∃ result q3, q2.finish cs (Received.handle cs) n nP m = (.ok result, q3) ∧
            result.fullSubtrees = LogSpec.heads cs.H (leavesOf cs E n) ∧
            (∀ k, nP = some k → result.additional = LogSpec.heads cs.H ((leavesOf cs E n).take k)) ∧
            result.logEntries = f.map (fun x => (x, E x)) := by
  have hn64 : n < 2 ^ 64 := by have := hh.size; omega
  have huv : eval (honest (fun x => (E x).timestamp) (greatestAt index) stop) (Alg.updateView cfg now n m) = .ok () :=
    updateView_eval hh.pos hn64 hm hw
  have hev : eval (honest (fun x => (E x).timestamp) (greatestAt index) stop) (viewed cfg now n m prog) =
      .ok (eval (honest (fun x => (E x).timestamp) (greatestAt index) stop) prog) := by
    unfold viewed
    rw [eval_bind, huv, G.ok_bind, eval_total]
  have hfit' : FitsP (fun x => (E x).timestamp) (greatestAt index) stop n false [] (viewed cfg now n m prog) :=
    .asks_bind (updateView_asks_lt hh.pos hn64 hm) (fun _ _ => hfit.total)
  obtain ⟨s1, s2, s3, -⟩ := session (cs := cs) hh.entry hh.times hi hfit' hp.agrees hp.tracker
  rw [hev] at s1
  have hrun : p.run (Produced.handle db index) (viewed cfg now n m prog) =
      (.ok (eval (honest (fun x => (E x).timestamp) (greatestAt index) stop) prog),
        (p.run (Produced.handle db index) (viewed cfg now n m prog)).2) := Prod.ext s1 rfl
  obtain ⟨p1, r1, r2⟩ := run_viewed hrun
  have hcov' : ∀ x ∈ f, x ∈ (p.run (Produced.handle db index) (viewed cfg now n m prog)).2.timestamps.map Prod.fst := by
    intro x hx
    obtain ⟨g1, g2, g3, -, g5⟩ := run_spec (Produced.handle db index) (viewed cfg now n m prog) p hp.ts
    rcases hcov with hcov | hcov
    · obtain ⟨xs, f', u1, u2, -, -, u3⟩ := updateView_positions hh.pos hn64 hm
      rw [hf] at u2
      cases u2
      obtain ⟨k1, k2, -⟩ := run_spec (Produced.handle db index) (Alg.updateView cfg now n m) p hp.ts
      obtain ⟨k3, -⟩ := run_spec (Produced.handle db index) prog p1 (by rw [r1] at k2; exact k2)
      rw [r1] at k1
      rw [r2] at k3
      have up : ∀ y, y ∈ p1.timestamps.map Prod.fst →
          y ∈ (p.run (Produced.handle db index) (viewed cfg now n m prog)).2.timestamps.map Prod.fst := by
        intro y hy
        obtain ⟨e, he, rfl⟩ := List.mem_map.1 hy
        exact List.mem_map.2 ⟨e, k3.ts e he, rfl⟩
      rcases u3 (fun k hk => (hcov k hk).1) x hx with h | ⟨k, g, hk, hg, hxg⟩
      · have := updateView_learns hp.ts hh.pos u1 (H := Produced.handle db index) (cfg := cfg) (now := now) (by rw [r1]) x (.inl h)
        rw [r1] at this
        exact up x this
      · obtain ⟨-, fk, h1, h2⟩ := hcov k hk
        rw [hg] at h1
        cases h1
        obtain ⟨e, he, rfl⟩ := List.mem_map.1 (h2 x hxg)
        exact up _ (List.mem_map.2 ⟨e, k1.ts e he, rfl⟩)
    · rw [s1] at g3
      have g3' := g3
      unfold viewed at g3'
      obtain ⟨_u, t1, t2, e1, -, e3⟩ := runs_bind_ok.1 g3'
      replace e1 : p.trace (Produced.handle db index) (viewed cfg now n m prog) = t1 ++ t2 := e1
      obtain ⟨r', h1, h2⟩ := runs_total e3
      cases h1
      have ha2 : AgreesWith t2 (honest (fun x => (E x).timestamp) (greatestAt index) stop) := by
        intro e he
        exact s2 e (by rw [e1]; simp [he])
      obtain ⟨e, he, hpos, a, hea⟩ := hcov t2 h2 ha2 x hx
      exact g5 e (by rw [e1]; simp [he]) a hea x hpos
  obtain ⟨-, proof, p3, h1, h2, h3⟩ := served hh hi hlab hfit' hp htab hV hf hcov' hnP hm
  refine ⟨p1, _, proof, p3, r1, r2, h1, h2, ?_⟩
  intro full vs hvs hcom hfull
  obtain ⟨pc, k1, k2⟩ := h3 full vs hvs hcom hfull
  rw [hev] at k1
  obtain ⟨q1, c1, c2⟩ := run_viewed k1
  exact ⟨q1, pc, c1, c2, k2⟩

end
end

end Katie.Alg
