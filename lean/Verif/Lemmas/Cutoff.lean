import Verif.Lemmas.ClientOps
import Verif.Lemmas.ClientSound
import Verif.Lemmas.ClientReceives
import Verif.Lemmas.Owner

/-
The rightmost distinguished entry as the client computes it from what it has stored, and as the verifier of a response
computes it: they are the same.
-/

namespace Katie.Alg
open Katie Katie.Wire Katie.SearchTree

theorem getTimestamp_cached {σ : Type} {H : Handle σ} {p : Provider σ} {x t : Nat} (h : p.timestamps.lookup x = some t) :
    p.getTimestamp H x = (.ok t, p) := by
  unfold Provider.getTimestamp
  rw [h]

/-- an algorithm that only asks for timestamps which the provider has gets them, and the provider stays as it is -/
theorem run_cached {σ τ α : Type} {H : Handle σ} {K : Handle τ} {P : Nat → Prop} {p : Provider σ} {q : Provider τ} {t : Nat → Nat}
    (hp : ∀ x, P x → p.timestamps.lookup x = some (t x)) (hq : ∀ x, P x → q.timestamps.lookup x = some (t x)) {prog : Prog α}
    (h : Asks P prog) : (p.run H prog).1 = (q.run K prog).1 ∧ (p.run H prog).2 = p := by
  induction prog with
  | ret r => exact ⟨rfl, rfl⟩
  | op r k ih =>
    obtain ⟨⟨x, rfl, hx⟩, hk⟩ := h
    have e1 : p.answer H (.ts x) = (.ok (t x), p) := getTimestamp_cached (hp x hx)
    have e2 : q.answer K (.ts x) = (.ok (t x), q) := getTimestamp_cached (hq x hx)
    unfold Provider.run
    rw [e1, e2]
    exact ih _ (hk _)

/-- what an algorithm finds out without a handle, it finds out with any other, if as many timestamps are known -/
theorem run_without {τ α : Type} {K : Handle τ} {p : Provider Unit} {q : Provider τ}
    (hpq : ∀ x t, p.timestamps.lookup x = some t → q.timestamps.lookup x = some t) {prog : Prog α} {a : α}
    (h : Asks (fun _ => True) prog) (hc : NoCatch prog) (hr : (p.run Audit.nilHandle prog).1 = .ok a) :
    (q.run K prog).1 = .ok a := by
  induction prog with
  | ret r => exact hr
  | op r k ih =>
    obtain ⟨⟨x, rfl, -⟩, hk⟩ := h
    unfold Provider.run at hr ⊢
    cases hl : p.timestamps.lookup x with
    | none =>
      have e1 : p.answer Audit.nilHandle (.ts x) = (goPanic "invalid memory address or nil pointer dereference", { p with state := () }) := by
        show p.getTimestamp Audit.nilHandle x = _
        unfold Provider.getTimestamp
        rw [hl]
        rfl
      rw [e1] at hr
      cases hc with
      | op h1 h2 =>
        rw [show k (goPanic "invalid memory address or nil pointer dereference") = _ from h1 _] at hr
        cases hr
    | some t =>
      have e1 : p.answer Audit.nilHandle (.ts x) = (.ok t, p) :=
        (getTimestamp_cached hl : p.getTimestamp Audit.nilHandle x = _)
      have e2 : q.answer K (.ts x) = (.ok t, q) :=
        (getTimestamp_cached (hpq x t hl) : q.getTimestamp K x = _)
      rw [e1] at hr
      rw [e2]
      cases hc with
      | op h1 h2 => exact ih _ (hk _) (h2 _) hr

/-- entries taken from a table of timestamps can be retained -/
theorem retainLoop_sub {σ : Type} {M : List (Nat × Nat)} (hM : TsMap M) : ∀ (es : List (Nat × LogEntry)) (p : Provider σ),
    (∀ e ∈ es, (e.1, e.2.timestamp) ∈ M) → (es.map Prod.fst).Nodup → (∀ e ∈ p.timestamps, e ∈ M) →
    (∀ e ∈ es, e.1 ∉ p.timestamps.map Prod.fst) → (∀ e ∈ es, p.prefixTrees.lookup e.1 = none) →
    (Provider.retainLoop es p).1 = .ok () := by
  intro es
  induction es with
  | nil => intro p _ _ _ _ _; rfl
  | cons e es ih =>
    intro p h1 h2 h3 h4 h5
    obtain ⟨x, l⟩ := e
    unfold Provider.retainLoop
    have e1 : addTimestamp p.timestamps x l.timestamp = .ok ((x, l.timestamp) :: p.timestamps) := by
      unfold addTimestamp
      rw [if_neg, if_neg]
      · rw [List.any_eq_true]
        rintro ⟨f, hf, hc⟩
        have m1 := hM.mono _ (h1 _ List.mem_cons_self) _ (h3 f hf)
        have m2 := hM.mono _ (h3 f hf) _ (h1 _ List.mem_cons_self)
        simp only [decide_eq_true_eq] at hc m1 m2
        omega
      · rw [List.any_eq_true]
        rintro ⟨f, hf, hc⟩
        refine h4 _ List.mem_cons_self (List.mem_map.2 ⟨f, hf, ?_⟩)
        exact (beq_iff_eq.1 hc).symm
    have e2 : addPrefixTree p.prefixTrees x l.prefixTree = .ok ((x, l.prefixTree) :: p.prefixTrees) := by
      unfold addPrefixTree
      rw [h5 _ List.mem_cons_self]
    rw [List.map_cons, List.nodup_cons] at h2
    have hne : ∀ e ∈ es, e.1 ≠ x := by
      intro e he hx
      exact h2.1 (List.mem_map.2 ⟨e, he, hx⟩)
    rw [e1]
    dsimp only
    rw [e2]
    refine ih _ (fun e he => h1 e (List.mem_cons_of_mem _ he)) h2.2 ?_ ?_ ?_
    · intro e he
      rcases List.mem_cons.1 he with rfl | he
      · exact h1 _ List.mem_cons_self
      · exact h3 e he
    · intro e he hx
      rw [List.map_cons] at hx
      rcases List.mem_cons.1 hx with hx | hx
      · exact hne e he hx
      · exact h4 e (List.mem_cons_of_mem _ he) hx
    · intro e he
      rw [List.lookup_cons, show (e.1 == x) = false by simpa using hne e he]
      exact h5 e (List.mem_cons_of_mem _ he)

/-- `Finish` leaves the timestamps as they are, and hands over those of the frontier -/
theorem finish_retained {cs : Log.Suite} {n : Nat} {nP m : Option Nat} {p q : Provider Received} {r : Provider.Result}
    (hm : TsMap p.timestamps) (h : p.finish cs (Received.handle cs) n nP m = (.ok r, q)) :
    q.timestamps = p.timestamps ∧ ∃ f, frontier n = .ok f ∧ r.logEntries.map Prod.fst = f ∧
      ∀ e ∈ r.logEntries, p.timestamps.lookup e.1 = some e.2.timestamp := by
  unfold Provider.finish at h
  split at h
  · cases h
  next ls p1 hl =>
  obtain ⟨a1, -⟩ := CommittedSpec.inspectedLeaves_spec hm hl
  rw [CommittedSpec.leafHashes_ok] at h
  dsimp only at h
  split at h
  · cases h
  next proof s hf =>
  obtain ⟨h, hq⟩ := Prod.mk.inj h
  obtain ⟨v, hv, h⟩ := G.bind_eq_ok.1 h
  obtain ⟨res, hres, h⟩ := G.bind_eq_ok.1 h
  obtain ⟨f, hfr, h⟩ := G.bind_eq_ok.1 h
  obtain ⟨es, hes, h⟩ := G.bind_eq_ok.1 h
  cases h
  obtain ⟨b1, b2⟩ := CommittedSpec.retained_spec hes
  refine ⟨by rw [← hq]; exact a1, f, hfr, b1, fun e he => ?_⟩
  have := (b2 e he).1
  dsimp only at this
  rw [a1] at this
  exact this

end Katie.Alg

namespace Katie.Client
open Katie Katie.Wire Katie.Alg Katie.SearchTree Katie.Ladder Katie.Server

/-- a later state of a verifier: the heads are the same, no timestamp is forgotten -/
structure Later (v w : Verifier) : Prop where
  frame : Frame v w
  table : TsMap v.p.timestamps → TsMap w.p.timestamps
  grows : TsMap v.p.timestamps → ∀ e ∈ v.p.timestamps, e ∈ w.p.timestamps

theorem Later.refl (v : Verifier) : Later v v := ⟨.refl _, id, fun _ _ h => h⟩

theorem Later.trans {u v w : Verifier} (h : Later u v) (k : Later v w) : Later u w :=
  ⟨h.frame.trans k.frame, fun a => k.table (h.table a), fun a e he => k.grows (h.table a) e (h.grows a e he)⟩

theorem run_later {α : Type} {env : CEnv} {prog : Prog α} {v w : Verifier} {a : α} (h : v.run env prog = .ok (a, w)) :
    Later v w := by
  obtain ⟨h1, h2⟩ := run_frame h
  refine ⟨h1, fun hm => ?_, fun hm => ?_⟩
  · have := (run_spec (Received.handle env.cs) prog v.p hm).2.1
    rwa [h2] at this
  · have := (run_spec (Received.handle env.cs) prog v.p hm).1.ts
    rwa [h2] at this

theorem updateView_later {env : CEnv} {now : Nat} {v w : Verifier} (h : v.updateView env now = .ok w) : Later v w := by
  unfold Verifier.updateView at h
  obtain ⟨⟨_, u⟩, h1, h⟩ := G.bind_eq_ok.1 h
  cases h
  exact run_later h1

theorem addVersion_later {env : CEnv} {v w : Verifier} {ver : Nat} {vrf : Bytes} {com : Option Bytes}
    (h : v.addVersion env ver vrf com = .ok w) : Later v w := by
  have hf := addVersion_frame h
  unfold Verifier.addVersion at h
  obtain ⟨s, -, h⟩ := G.bind_eq_ok.1 h
  cases h
  exact ⟨hf, id, fun _ _ h => h⟩

theorem addRetainedVersions_later {env : CEnv} {l : List RetainedVersion} {v w : Verifier}
    (h : addRetainedVersions env l v = .ok w) : Later v w := by
  induction l generalizing v with
  | nil => cases h; exact .refl _
  | cons e l ih =>
    unfold addRetainedVersions at h
    obtain ⟨u, h1, h⟩ := G.bind_eq_ok.1 h
    exact (addVersion_later h1).trans (ih h)

theorem processSteps_later {env : CEnv} {label : Bytes} {manual : List (Nat × Bytes)} {l : List (Nat × BinaryLadderStep)}
    {v w : Verifier} (h : processSteps env label manual l v = .ok w) : Later v w := by
  induction l generalizing v with
  | nil => cases h; exact .refl _
  | cons e l ih =>
    unfold processSteps at h
    obtain ⟨i, -, h⟩ := G.bind_eq_ok.1 h
    obtain ⟨o, -, h⟩ := G.bind_eq_ok.1 h
    obtain ⟨c, -, h⟩ := G.bind_eq_ok.1 h
    obtain ⟨u, h1, h⟩ := G.bind_eq_ok.1 h
    exact (addVersion_later h1).trans (ih h)

theorem processLadder_later {env : CEnv} {label : Bytes} {ladder : List BinaryLadderStep} {vers : List Nat}
    {manual : List (Nat × Bytes)} {v w : Verifier} (h : processLadder env label ladder vers manual v = .ok w) : Later v w := by
  unfold processLadder at h
  split at h
  · cases h
  · exact processSteps_later h

theorem newVerifier_table {state : Option ClientState} {last : Option Nat} {fth : FullTreeHead} {proof : CombinedTreeProof}
    {v : Verifier} (h : newVerifier state last fth proof = .ok v) : TsMap v.p.timestamps ∧
      ∀ s, state = some s → ∀ x t, ((newProvider ()).addRetained [] s.logEntries).2.timestamps.lookup x = some t →
        v.p.timestamps.lookup x = some t := by
  obtain ⟨-, -, -, -, -, h⟩ := newVerifier_ok h
  generalize v.p = vp at h ⊢
  unfold retainedProvider at h
  cases state with
  | none => cases h; exact ⟨.nil, fun s hs => by cases hs⟩
  | some s =>
    dsimp only at h
    split at h
    · cases h
    next u p hr =>
    cases h
    unfold Provider.addRetained at hr
    have k := (retainLoop_spec s.logEntries
      ({ newProvider (⟨proof, [], {}⟩ : Received) with fullSubtrees := s.fullSubtrees, logEntries := s.logEntries }) .nil).1
    rw [hr] at k
    refine ⟨k, ?_⟩
    rintro s' hs x t hx
    cases hs
    have same : ∀ (es : List (Nat × LogEntry)) (p : Provider Received) (q : Provider Unit), p.timestamps = q.timestamps →
        p.prefixTrees = q.prefixTrees → (Provider.retainLoop es p).2.timestamps = (Provider.retainLoop es q).2.timestamps := by
      intro es
      induction es with
      | nil => intro p q h _; exact h
      | cons e es ih =>
        intro p q h1 h2
        obtain ⟨y, l⟩ := e
        unfold Provider.retainLoop
        rw [h1]
        cases addTimestamp q.timestamps y l.timestamp with
        | error e => exact h1
        | ok ts =>
          dsimp only
          rw [h2]
          cases addPrefixTree q.prefixTrees y l.prefixTree with
          | error e => rfl
          | ok pt => exact ih _ _ rfl rfl
    have := same s.logEntries
      ({ newProvider (⟨proof, [], {}⟩ : Received) with fullSubtrees := s.fullSubtrees, logEntries := s.logEntries })
      ({ newProvider () with fullSubtrees := [], logEntries := s.logEntries }) rfl rfl
    rw [hr] at this
    unfold Provider.addRetained at hx
    rw [← this] at hx
    exact hx

/-- the answer of `RightmostDistinguished` as `getDistinguished` hands it on -/
def asCutoff : Option Nat → G Nat
  | none => goErr "unable to make request if no distinguished log entries exist"
  | some x => pure x

theorem getDistinguished_some (env : CEnv) (s : ClientState) : getDistinguished env (some s) =
    (((newProvider ()).addRetained [] s.logEntries).2.run Audit.nilHandle
      (Alg.rightmostDistinguished env.cfg s.treeHead.treeSize)).1 >>= asCutoff := rfl

/-- **The cutoff of the new state** is the rightmost distinguished entry that the verifier computes, and the cutoff of the
old state if that had one. -/
theorem finish_cutoff {env : CEnv} {now : Nat} {state : Option ClientState} {fth : FullTreeHead}
    {proof : CombinedTreeProof} {v0 v1 v2 v3 w : Verifier} {s : ClientState}
    (h0 : newVerifier state (getLast state) fth proof = .ok v0) (l01 : Later v0 v1)
    (h12 : v1.updateView env now = .ok v2) (l23 : Later v2 v3) (h : v3.finish env = .ok (s, w)) :
    w.n = s.treeHead.treeSize ∧ 0 < w.n ∧ TsMap w.p.timestamps ∧
    (∀ y, Spine 0 w.n y → ∃ t, w.p.timestamps.lookup y = some t) ∧
    (w.p.run (Received.handle env.cs) (rightmostDistinguished env.cfg w.n)).2 = w.p ∧
    getDistinguished env (some s) =
      ((w.p.run (Received.handle env.cs) (rightmostDistinguished env.cfg w.n)).1 >>= asCutoff) ∧
    ∀ x, getDistinguished env state = .ok x → getDistinguished env (some s) = .ok x := by
  have l02 := l01.trans (updateView_later h12)
  have l03 := l02.trans l23
  obtain ⟨s0, rfl, hn, hth, ha⟩ := finish_same_head h0 l01.frame h12 l23.frame h
  obtain ⟨result, p, root, rootP, hf, hroot, -, hv, hs, fw⟩ := finish_ok h
  obtain ⟨e1, e2, e3, e4, e5, -⟩ := newVerifier_ok h0
  obtain ⟨hm0, hold⟩ := newVerifier_table h0
  have hm3 := l03.table hm0
  have hn3 : v3.n = s0.treeHead.treeSize := by
    rw [l03.frame.n]
    unfold treeSizeOf at e5
    rw [hn] at e5
    exact (Except.ok.inj e5).symm
  have hw : w.p = p := by
    unfold verifyTreeHead at hv
    rw [show ({ v3 with p := p } : Verifier).fth.treeHead = none by show v3.fth.treeHead = none; rw [l03.frame.fth, e2, hn]] at hv
    dsimp only at hv
    split at hv
    · cases hv
    · cases hv; rfl
  have hes : s.logEntries = result.logEntries := by
    unfold newState at hs
    split at hs
    · cases hs
    · cases hs; rfl
  obtain ⟨hts, f, hfr, hkeys, hlook⟩ := finish_retained hm3 hf
  have hnw : w.n = s.treeHead.treeSize := by rw [fw.n, hn3, hth]
  obtain ⟨hpos, hmax⟩ := logRoot_size hroot
  have h64 : v3.n < 2 ^ 64 := by unfold LogMath.maxTreeSize at hmax; omega
  obtain ⟨f', hfr', hsp, hsorted, -, hlast⟩ := frontier_spine hpos h64
  rw [hfr] at hfr'
  cases hfr'
  have hmw : TsMap w.p.timestamps := by rw [hw, hts]; exact hm3
  have hposw : 0 < w.n := by rw [fw.n]; exact hpos
  -- the provider of `getDistinguished`
  have hnd : (s.logEntries.map Prod.fst).Nodup := by
    rw [hes, hkeys]
    exact hsorted.imp (fun h => Nat.ne_of_lt h)
  have hret := retainLoop_sub hm3 s.logEntries
    ({ newProvider () with fullSubtrees := [], logEntries := s.logEntries })
    (fun e he => Alg.lookup_mem (hlook e (by rw [← hes]; exact he))) hnd (fun e he => by cases he) (fun e _ he => by cases he)
    (fun e _ => rfl)
  obtain ⟨q1, -, -, q2⟩ := retainLoop_spec s.logEntries
    ({ newProvider () with fullSubtrees := [], logEntries := s.logEntries }) .nil
  have hq2 := q2 hret
  -- both know the frontier
  let t : Nat → Nat := fun x => (w.p.timestamps.lookup x).getD 0
  have known : ∀ y ∈ f, w.p.timestamps.lookup y = some (t y) ∧
      ((newProvider ()).addRetained [] s.logEntries).2.timestamps.lookup y = some (t y) := by
    intro y hy
    rw [← hkeys] at hy
    obtain ⟨e, he, rfl⟩ := List.mem_map.1 hy
    have k1 : w.p.timestamps.lookup e.1 = some e.2.timestamp := by rw [hw, hts]; exact hlook e he
    have k2 : t e.1 = e.2.timestamp := by show (w.p.timestamps.lookup e.1).getD 0 = _; rw [k1]; rfl
    refine ⟨by rw [k2]; exact k1, ?_⟩
    rw [k2]
    exact lookup_of_mem q1.keys (hq2 e (by rw [hes]; exact he)).1
  have hasks : Asks (fun x => x ∈ f) (rightmostDistinguished env.cfg w.n) := by
    refine rightmostDistinguished_asks hposw (fun y hy => ?_) ?_
    · rw [fw.n] at hy; exact (hsp y).2 hy
    · rw [fw.n]; exact hlast
  obtain ⟨r1, r2⟩ := run_cached (H := Received.handle env.cs) (K := Audit.nilHandle) (t := t) (fun x hx => (known x hx).1)
    (fun x hx => (known x hx).2) hasks
  have hcut : getDistinguished env (some s) =
      ((w.p.run (Received.handle env.cs) (rightmostDistinguished env.cfg w.n)).1 >>= asCutoff) := by
    rw [getDistinguished_some, r1, hnw]
  refine ⟨hnw, hposw, hmw, ?_, r2, hcut, ?_⟩
  · intro y hy
    rw [fw.n] at hy
    exact ⟨_, (known y ((hsp y).2 hy)).1⟩
  · intro x hx
    rw [getDistinguished_some] at hx
    obtain ⟨d, hd, hx⟩ := G.bind_eq_ok.1 hx
    have k := run_without (K := Received.handle env.cs) (q := w.p) (fun y a hy => ?_)
      (rightmostDistinguished_asks (P := fun _ => True) (by rw [← hn3]; exact hpos) (fun _ _ => trivial) trivial)
      rightmostDistinguished_noCatch hd
    · rw [hcut, hnw, hth, k, G.ok_bind]
      exact hx
    · have k1 := Alg.lookup_mem (hold s0 rfl y a hy)
      rw [hw, hts]
      exact lookup_of_mem hm3.keys (l03.grows hm0 _ k1)

end Katie.Client
