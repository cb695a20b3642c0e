import Verif.Lemmas.ClientOps
import Verif.Lemmas.ClientSearch
import Verif.Props.C44_C45_Heads

/-
From the received proof to the run of the search: what the client knows when the search begins (`setup`), and what it
has learned when it has finished.  Used by Verif/Props/C60_SearchSound.lean.
-/

namespace Katie.Client
open Katie Katie.Wire Katie.Alg Katie.Ladder Katie.Server Katie.CommittedSpec Katie.SearchTree Katie.SearchSpec Katie.Props

/-! ### the ladder -/

theorem pow32_lt (len : Nat) : pow32 len < 2 ^ 32 := by
  unfold pow32
  split
  · next h =>
    have : 2 ^ len ≤ 2 ^ 32 := Nat.pow_le_pow_right (by norm_num) (by omega)
    omega
  · omega

theorem rise_lt {n : Nat} : ∀ (fuel len : Nat) (l : List Nat), rise fuel len n = .ok l → ∀ v ∈ l, v < 2 ^ 32 := by
  intro fuel
  induction fuel with
  | zero => intro len l h; cases h
  | succ fuel ih =>
    intro len l h
    unfold rise at h
    dsimp only at h
    split at h
    · cases h
      intro v hv
      rw [List.mem_singleton.1 hv]
      exact pow32_lt _
    · obtain ⟨rest, h1, h2⟩ := G.bind_eq_ok.1 h
      cases h2
      intro v hv
      rcases List.mem_cons.1 hv with rfl | hv
      · exact pow32_lt _
      · exact ih _ _ h1 v hv

theorem bisect_lt {n : Nat} : ∀ (fuel lo hi : Nat) (l : List Nat), bisect fuel n lo hi = .ok l → ∀ v ∈ l, v < 2 ^ 32 := by
  intro fuel
  induction fuel with
  | zero => intro lo hi l h; cases h
  | succ fuel ih =>
    intro lo hi l h
    unfold bisect at h
    split at h
    · dsimp only at h
      have key : ∀ (a b : Nat), (bisect fuel n a b >>= fun rest => (pure ((lo + hi) % 2 ^ 32 / 2 :: rest) : G (List Nat))) =
          .ok l → ∀ v ∈ l, v < 2 ^ 32 := by
        intro a b h
        obtain ⟨rest, h1, h2⟩ := G.bind_eq_ok.1 h
        cases h2
        intro v hv
        rcases List.mem_cons.1 hv with rfl | hv
        · have : (lo + hi) % 2 ^ 32 < 2 ^ 32 := Nat.mod_lt _ (by norm_num)
          omega
        · exact ih _ _ _ h1 v hv
      split at h
      · exact key _ _ h
      · exact key _ _ h
    · cases h
      simp

theorem searchLoop_mem {t n : Nat} {a b : List Nat} : ∀ (l : List Nat), ∀ v ∈ searchLoop t n a b l, v ∈ l := by
  intro l
  induction l with
  | nil => intro v hv; exact hv
  | cons w l ih =>
    intro v hv
    unfold searchLoop at hv
    dsimp only at hv
    have ht : ∀ (c : Bool), v ∈ (if c = true then [] else searchLoop t n a b l) → v ∈ l := by
      intro c h
      split at h
      · cases h
      · exact ih v h
    split at hv
    · rcases List.mem_cons.1 hv with rfl | hv
      · exact List.mem_cons_self
      · exact List.mem_cons_of_mem _ (ht _ hv)
    · exact List.mem_cons_of_mem _ (ht _ hv)

theorem baseBinaryLadder_lt {n : Nat} {l : List Nat} (h : baseBinaryLadder n = .ok l) : ∀ v ∈ l, v < 2 ^ 32 := by
  unfold baseBinaryLadder baseLadderFuel at h
  obtain ⟨out, h1, h⟩ := G.bind_eq_ok.1 h
  split at h
  · obtain ⟨rest, h2, h⟩ := G.bind_eq_ok.1 h
    cases h
    intro v hv
    rcases List.mem_append.1 hv with hv | hv
    · exact rise_lt _ _ _ h1 v hv
    · exact bisect_lt _ _ _ _ h2 v hv
  · cases h

theorem searchBinaryLadder_lt {t n : Nat} {a b l : List Nat} (h : searchBinaryLadder t n a b = .ok l) :
    ∀ v ∈ l, v < 2 ^ 32 := by
  unfold searchBinaryLadder at h
  obtain ⟨base, h1, h⟩ := G.bind_eq_ok.1 h
  cases h
  exact fun v hv => baseBinaryLadder_lt h1 v (searchLoop_mem _ v hv)

/-- what is known about a version after the ladder has been processed: the VRF proof of its step has been verified, and
the commitment is the one computed by the client or the one of the step -/
def KnownBy (env : CEnv) (label : Bytes) (manual : List (Nat × Bytes)) (vers : List Nat) (v : Nat) (k : Known) : Prop :=
  v ∈ vers ∧ ∃ i step, vrfInput label v = .ok i ∧ env.vrfVerify i step.proof = .ok k.vrf ∧
    ladderCommitment manual v step = .ok k.com

theorem processSteps_versions {env : CEnv} {label : Bytes} {manual : List (Nat × Bytes)}
    (l : List (Nat × BinaryLadderStep)) (v w : Verifier) (h : processSteps env label manual l v = .ok w) :
    (∃ Vs, w.p = { v.p with state := { v.p.state with versions := Vs } }) ∧
    ∀ ver k, w.p.state.versions.lookup ver = some k → v.p.state.versions.lookup ver = some k ∨
      KnownBy env label manual (l.map Prod.fst) ver k := by
  induction l generalizing v with
  | nil => cases h; exact ⟨⟨_, rfl⟩, fun _ _ h => Or.inl h⟩
  | cons e l ih =>
    obtain ⟨ver, step⟩ := e
    unfold processSteps at h
    obtain ⟨i, h1, h⟩ := G.bind_eq_ok.1 h
    obtain ⟨o, h2, h⟩ := G.bind_eq_ok.1 h
    obtain ⟨c, h3, h⟩ := G.bind_eq_ok.1 h
    obtain ⟨u, h4, h⟩ := G.bind_eq_ok.1 h
    unfold Verifier.addVersion at h4
    obtain ⟨s, h5, h4⟩ := G.bind_eq_ok.1 h4
    have h4 := Except.ok.inj h4
    subst h4
    unfold Received.addVersion at h5
    obtain ⟨vs, h6, h5⟩ := G.bind_eq_ok.1 h5
    have h5 := Except.ok.inj h5
    subst h5
    unfold Alg.addVersion at h6
    split at h6
    · cases h6
    split at h6
    · cases h6
    split at h6
    · cases h6
    have h6 := Except.ok.inj h6
    subst h6
    obtain ⟨⟨Vs, e1⟩, e2⟩ := ih _ h
    refine ⟨⟨Vs, by rw [e1]⟩, fun y k hy => ?_⟩
    rcases e2 y k hy with h7 | ⟨h7, h8⟩
    · simp only [List.lookup_cons] at h7
      split at h7
      · next heq =>
        rw [beq_iff_eq] at heq
        subst heq
        have h7 := Option.some.inj h7
        subst h7
        exact Or.inr ⟨by simp, i, step, h1, h2, h3⟩
      · exact Or.inl h7
    · exact Or.inr ⟨by simp only [List.map_cons, List.mem_cons]; exact Or.inr h7, h8⟩

theorem processLadder_versions {env : CEnv} {label : Bytes} {ladder : List BinaryLadderStep} {vers : List Nat}
    {manual : List (Nat × Bytes)} {v w : Verifier} (h : processLadder env label ladder vers manual v = .ok w) :
    (∃ Vs, w.p = { v.p with state := { v.p.state with versions := Vs } }) ∧
    ∀ ver k, w.p.state.versions.lookup ver = some k → v.p.state.versions.lookup ver = some k ∨
      KnownBy env label manual vers ver k := by
  unfold processLadder at h
  split at h
  · cases h
  obtain ⟨h1, h2⟩ := processSteps_versions _ _ _ h
  refine ⟨h1, fun ver k hk => ?_⟩
  rcases h2 ver k hk with h3 | ⟨h3, h4⟩
  · exact Or.inl h3
  · refine Or.inr ⟨?_, h4⟩
    obtain ⟨⟨a, b⟩, hab, rfl⟩ := List.mem_map.1 h3
    exact (List.of_mem_zip hab).1

/-! ### the retained entries -/

theorem retainLoop_times {σ : Type} (es : List (Nat × LogEntry)) (p : Provider σ) :
    ∀ e ∈ (Provider.retainLoop es p).2.timestamps, e ∈ p.timestamps ∨ ∃ f ∈ es, e = (f.1, f.2.timestamp) := by
  induction es generalizing p with
  | nil => intro e he; exact Or.inl he
  | cons f es ih =>
    obtain ⟨x, l⟩ := f
    unfold Provider.retainLoop
    have hadd : ∀ ts, addTimestamp p.timestamps x l.timestamp = .ok ts →
        ∀ e ∈ ts, e ∈ p.timestamps ∨ ∃ f ∈ (x, l) :: es, e = (f.1, f.2.timestamp) := by
      intro ts h1 e he
      rw [(addTimestamp_ok h1).1] at he
      rcases List.mem_cons.1 he with rfl | he
      · exact Or.inr ⟨(x, l), by simp, rfl⟩
      · exact Or.inl he
    split
    · intro e he; exact Or.inl he
    next ts h1 =>
    simp only
    split
    · exact hadd _ h1
    next pt h2 =>
    intro e he
    rcases ih _ e he with h3 | ⟨f, h3, h4⟩
    · exact hadd _ h1 e h3
    · exact Or.inr ⟨f, List.mem_cons_of_mem _ h3, h4⟩

/-- a client's state has the entries of the log -/
def EntriesOk (cs : Log.Suite) (W : List Content) (state : Option ClientState) : Prop :=
  ∀ s ∈ state, ∀ e ∈ s.logEntries, ∃ c, W[e.1]? = some c ∧ e.2 = c.entry cs

theorem retainedProvider_ok {cs : Log.Suite} {W : List Content} (hW : WellFormed cs W) {state : Option ClientState}
    {proof : CombinedTreeProof} {p : Provider Received} (h : retainedProvider state proof = .ok p)
    (hs : EntriesOk cs W state) :
    TsMap p.timestamps ∧ p.state = ⟨proof, [], {}⟩ ∧ RetainedOk cs W p ∧ (∀ e ∈ p.timestamps, e.2 < 2 ^ 64) ∧
    p.fullSubtrees = (state.map (·.fullSubtrees)).getD [] := by
  refine ⟨Props.retainedProvider_tsMap h, ?_⟩
  unfold retainedProvider at h
  cases state with
  | none =>
    cases h
    refine ⟨rfl, ?_, ?_, rfl⟩
    · intro e he; cases he
    · intro e he; cases he
  | some s =>
    dsimp only at h
    split at h
    · cases h
    · next he =>
      cases h
      unfold Provider.addRetained at he
      obtain ⟨-, g2, g3, g4⟩ := retainLoop_spec s.logEntries { newProvider (⟨proof, [], {}⟩ : Received) with
        fullSubtrees := s.fullSubtrees, logEntries := s.logEntries } TsMap.nil
      have g5 := retainLoop_times s.logEntries { newProvider (⟨proof, [], {}⟩ : Received) with
        fullSubtrees := s.fullSubtrees, logEntries := s.logEntries }
      rw [he] at g2 g3 g4 g5
      have hent : p.logEntries = s.logEntries := g2.entries
      refine ⟨g3, ?_, ?_, g2.full⟩
      · intro e hm
        rw [hent] at hm
        obtain ⟨k1, k2⟩ := g4 rfl e hm
        exact ⟨k1, k2, hs s rfl e hm⟩
      · intro e hm
        rcases g5 e hm with h | ⟨f, hf, rfl⟩
        · cases h
        · obtain ⟨c, hc, hce⟩ := hs s rfl f hf
          rw [hce]
          exact hW.times c (List.mem_of_getElem? hc)

/-! ### the view update -/

theorem getAllTs_asks : ∀ (xs : List Nat), Asks (fun _ => True) (getAllTs xs) := by
  intro xs
  induction xs with
  | nil => exact .pure _
  | cons x xs ih =>
    unfold getAllTs
    exact .bind (.getTs trivial) (fun _ => ih)

theorem updateView_asks {cfg : Config} {now n : Nat} {m : Option Nat} : Asks (fun _ => True) (Alg.updateView cfg now n m) := by
  unfold Alg.updateView
  refine .ite (fun _ => trivial) (fun _ => .ite (fun _ => .pure _) (fun _ => ?_))
  refine .lift_bind (fun xs _ => .bind (getAllTs_asks xs) (fun _ => .bind (.getTs trivial) (fun t => ?_)))
  exact .ite (fun _ => trivial) (fun _ => .ite (fun _ => trivial) (fun _ => .pure _))

theorem getTimestamp_tracker {cs : Log.Suite} (x : Nat) (p : Provider Received) :
    (p.getTimestamp (Received.handle cs) x).2.state.tracker = p.state.tracker := by
  unfold Provider.getTimestamp
  split
  · rfl
  · change _ = _
    have : ((Received.handle cs).getTs x p.state).2.tracker = p.state.tracker := by
      change (Received.getTs x p.state).2.tracker = _
      unfold Received.getTs
      split <;> rfl
    split
    · next he => rw [he] at this; exact this
    · next he =>
      rw [he] at this
      split <;> exact this

/-- a program that only asks for timestamps leaves the tracker alone -/
theorem Asks.run_tracker {cs : Log.Suite} {α : Type} {P : Nat → Prop} {prog : Prog α} (h : Asks P prog)
    (p : Provider Received) : (p.run (Received.handle cs) prog).2.state.tracker = p.state.tracker := by
  induction prog generalizing p with
  | ret r => rfl
  | op q k ih =>
    obtain ⟨⟨x, hx, -⟩, h2⟩ := h
    subst hx
    change (Provider.run (Received.handle cs) (k (p.answer (Received.handle cs) (.ts x)).1)
      (p.answer (Received.handle cs) (.ts x)).2).2.state.tracker = _
    rw [ih _ (h2 _)]
    exact getTimestamp_tracker x p

/-! ### the client before the search -/

/-- what holds when the algorithm begins -/
structure Begun (env : CEnv) (W : List Content) (proof : CombinedTreeProof) (v : Verifier) : Prop where
  ts : TsMap v.p.timestamps
  inv : HInv v.p.state.versions proof v.p.state
  times : TimesFrom (v.p.timestamps.filter (fun e => decide (e.2 < 2 ^ 64))) proof v.p.timestamps
  tracker : v.p.state.tracker = {}
  retained : RetainedOk env.cs W v.p

/-- what holds when the search begins -/
structure Ready (env : CEnv) (W : List Content) (label : Bytes) (manual : List (Nat × Bytes)) (vers : List Nat)
    (proof : CombinedTreeProof) (v : Verifier) : Prop extends Begun env W proof v where
  known : ∀ ver k, v.p.state.versions.lookup ver = some k → KnownBy env label manual vers ver k

theorem RetainedOk.grows {cs : Log.Suite} {W : List Content} {σ : Type} {p q : Provider σ} (h : RetainedOk cs W p)
    (g : Grows p q) : RetainedOk cs W q := by
  intro e he
  rw [g.entries] at he
  obtain ⟨h1, h2, h3⟩ := h e he
  exact ⟨g.ts _ h1, g.roots _ _ h2, h3⟩

/-- Nothing but the table of versions is changed between `newVerifier` and the update of the view. -/
theorem setup_begun {env : CEnv} {W : List Content} (hW : WellFormed env.cs W) {now : Nat} {state : Option ClientState} {last : Option Nat}
    {fth : FullTreeHead} {proof : CombinedTreeProof} {v0 v1 v2 : Verifier} {Vs : Versions} (hs : EntriesOk env.cs W state)
    (h0 : newVerifier state last fth proof = .ok v0)
    (b1 : v1.p = { v0.p with state := { v0.p.state with versions := Vs } })
    (h2 : v1.updateView env now = .ok v2) :
    v0.p.state.versions = [] ∧ Begun env W proof v2 ∧ v2.p.state.versions = v1.p.state.versions ∧
      v2.p.fullSubtrees = (state.map (·.fullSubtrees)).getD [] := by
  obtain ⟨-, -, -, -, -, e6⟩ := newVerifier_ok h0
  obtain ⟨a1, a2, a3, a4, a5⟩ := retainedProvider_ok hW e6 hs
  obtain ⟨f12, hr⟩ := updateView_frame h2
  have m1 : TsMap v1.p.timestamps := by rw [b1]; exact a1
  have i1 : HInv v1.p.state.versions proof v1.p.state := by
    rw [b1, a2]
    exact ⟨rfl, fun _ h => h, fun _ h => h, rfl, rfl⟩
  have t1 : TimesFrom v1.p.timestamps proof v1.p.timestamps := fun e he => Or.inl he
  have s64 : ∀ e ∈ v1.p.timestamps, e.2 < 2 ^ 64 := by rw [b1]; exact a4
  have r1 : RetainedOk env.cs W v1.p := by rw [b1]; exact a3
  obtain ⟨g2, m2, -⟩ := run_spec (Received.handle env.cs) (Alg.updateView env.cfg now v1.n v1.m) v1.p m1
  obtain ⟨i2, t2⟩ := client_run (cs := env.cs) (Alg.updateView env.cfg now v1.n v1.m) v1.p i1 t1
  have k2 := Asks.run_tracker (cs := env.cs) (updateView_asks (cfg := env.cfg) (now := now) (n := v1.n) (m := v1.m)) v1.p
  rw [hr] at g2 m2 i2 t2 k2
  have hv : v2.p.state.versions = v1.p.state.versions := i2.versions
  refine ⟨by rw [a2], ⟨m2, ?_, ?_, ?_, RetainedOk.grows r1 g2⟩, hv, ?_⟩
  · rw [hv]; exact i2
  · intro e he
    rcases t2 e he with h | h
    · exact Or.inl (List.mem_filter.2 ⟨he, by simpa using s64 e h⟩)
    · exact Or.inr h
  · rw [k2, b1, a2]
  · rw [g2.full, b1]; exact a5

theorem setup {env : CEnv} {W : List Content} (hW : WellFormed env.cs W) {now : Nat} {state : Option ClientState} {last : Option Nat}
    {fth : FullTreeHead} {proof : CombinedTreeProof} {label : Bytes} {ladder : List BinaryLadderStep} {vers : List Nat}
    {manual : List (Nat × Bytes)} {v0 v1 v2 : Verifier} (hs : EntriesOk env.cs W state)
    (h0 : newVerifier state last fth proof = .ok v0)
    (h1 : processLadder env label ladder vers manual v0 = .ok v1)
    (h2 : v1.updateView env now = .ok v2) :
    Frame v0 v2 ∧ Ready env W label manual vers proof v2 ∧
      v2.p.fullSubtrees = (state.map (·.fullSubtrees)).getD [] := by
  obtain ⟨⟨Vs, b1⟩, b2⟩ := processLadder_versions h1
  obtain ⟨a2, hB, hv, hfull⟩ := setup_begun hW hs h0 b1 h2
  refine ⟨(processLadder_frame h1).trans (updateView_frame h2).1, ⟨hB, ?_⟩, hfull⟩
  intro ver k hk
  rw [hv] at hk
  rcases b2 ver k hk with h | h
  · rw [a2] at h; cases h
  · exact h

/-! ### a verifier that retains the current tree -/

theorem evaluateAux_keeps {cs : Log.Suite} {n : Nat} : ∀ (fuel x : Nat) (M M' : Log.NMap) (seg : List Nat),
    Log.evaluateAux cs fuel x n M seg = .ok M' → Log.WF cs M →
    (∀ z w, M.lookup z = some w → M'.lookup z = some w) ∧ Log.WF cs M' := by
  intro fuel
  induction fuel with
  | zero => intro x M M' seg h; cases h
  | succ fuel ih =>
    intro x M M' seg h hM
    unfold Log.evaluateAux at h
    split at h
    · cases h; exact ⟨fun _ _ h => h, hM⟩
    dsimp only at h
    obtain ⟨l, -, h⟩ := G.bind_eq_ok.1 h
    obtain ⟨r, -, h⟩ := G.bind_eq_ok.1 h
    obtain ⟨M1, h1, h⟩ := G.bind_eq_ok.1 h
    obtain ⟨M2, h2, h⟩ := G.bind_eq_ok.1 h
    obtain ⟨a1, a2⟩ := ih _ _ _ _ h1 hM
    obtain ⟨b1, b2⟩ := ih _ _ _ _ h2 a2
    split at h
    · obtain ⟨a, -, h⟩ := G.bind_eq_ok.1 h
      obtain ⟨b, -, h⟩ := G.bind_eq_ok.1 h
      obtain ⟨im, -, h⟩ := G.bind_eq_ok.1 h
      obtain ⟨-, -, c1, c2⟩ := Log.addToMap_ok h b2
      exact ⟨fun z w hz => c1 z w (b1 z w (a1 z w hz)), c2⟩
    · cases h
      exact ⟨fun z w hz => b1 z w (a1 z w hz), b2⟩

theorem mapM_nodes {M : Log.NMap} : ∀ (fs : List Nat) (old vs : List Bytes), old.length = fs.length →
    (∀ q ∈ fs.zip old, M.lookup q.1 = some ⟨LogMath.isLeaf q.1, q.2⟩) →
    fs.mapM (fun x => (do let d ← Log.nodeAt M x; pure d.value : G Bytes)) = .ok vs → vs = old := by
  intro fs
  induction fs with
  | nil =>
    intro old vs hl _ h
    rw [List.mapM_nil] at h
    cases h
    exact (List.length_eq_zero_iff.1 hl).symm
  | cons x fs ih =>
    intro old vs hl hz h
    cases old with
    | nil => cases hl
    | cons o old =>
      rw [List.mapM_cons] at h
      obtain ⟨b, h1, h⟩ := G.bind_eq_ok.1 h
      obtain ⟨vs', h2, h⟩ := G.bind_eq_ok.1 h
      cases h
      have := hz (x, o) (by simp)
      obtain ⟨d, h3, h4⟩ := G.bind_eq_ok.1 h1
      unfold Log.nodeAt at h3
      rw [this] at h3
      cases h3
      cases h4
      rw [ih old vs' (by simpa using hl) (fun q hq => hz q (by simp [hq])) h2]

/-- The subtrees that `Evaluate` returns for the tree that the verifier retains are the ones that it retains. -/
theorem evaluate_same {cs : Log.Suite} {n : Nat} {old : List Bytes} {v : Log.Verifier} (hv : Log.retain cs n old = .ok v)
    {entries : List Nat} {nP : Option Nat} {values proof : List Bytes} {res : Log.EvalResult}
    (h : Log.evaluate cs v entries n nP values proof = .ok res) : res.fullSubtrees = old := by
  unfold Log.retain at hv
  split at hv
  · cases hv
  obtain ⟨subs, hsubs, hv⟩ := G.bind_eq_ok.1 hv
  split at hv
  · cases hv
  next hlen =>
  split at hv
  · cases hv
  have hv := Except.ok.inj hv
  subst hv
  unfold Log.evaluate at h
  split at h
  · cases h
  split at h
  · cases h
  split at h
  · cases h
  split at h
  · cases h
  obtain ⟨cop, -, h⟩ := G.bind_eq_ok.1 h
  split at h
  · cases h
  obtain ⟨M1, h1, h⟩ := G.bind_eq_ok.1 h
  obtain ⟨M2, h2, h⟩ := G.bind_eq_ok.1 h
  obtain ⟨M3, h3, h⟩ := G.bind_eq_ok.1 h
  dsimp only at h
  obtain ⟨M4, h4, h⟩ := G.bind_eq_ok.1 h
  obtain ⟨fs, h5, h⟩ := G.bind_eq_ok.1 h
  obtain ⟨full, h6, h⟩ := G.bind_eq_ok.1 h
  have key : res.fullSubtrees = full := by
    cases nP with
    | none => cases h; rfl
    | some k =>
      obtain ⟨fs', -, h⟩ := G.bind_eq_ok.1 h
      obtain ⟨add, -, h⟩ := G.bind_eq_ok.1 h
      cases h; rfl
  rw [key]
  rw [hsubs] at h5
  have h5 := Except.ok.inj h5
  subst h5
  obtain ⟨-, -, w1, -⟩ := Log.addAll_ok _ _ _ h1 (by intro y v hy; cases hy)
  obtain ⟨a2, -, w2, -⟩ := Log.addAll_ok _ _ _ h2 w1
  obtain ⟨-, a3, w3, -⟩ := Log.addAll_ok _ _ _ h3 w2
  obtain ⟨a4, -⟩ := evaluateAux_keeps _ _ _ _ _ h4 w3
  exact mapM_nodes _ _ _ (by simpa using hlen) (fun q hq => a4 _ _ (a3 _ _ (a2 q hq))) h6

theorem finish_same {cs : Log.Suite} {n : Nat} {nP : Option Nat} {p q : Provider Received} {r : Provider.Result}
    (hm : TsMap p.timestamps) (h : p.finish cs (Received.handle cs) n nP (some n) = (.ok r, q)) :
    r.fullSubtrees = p.fullSubtrees := by
  unfold Provider.finish at h
  split at h
  · cases h
  next ls p1 hl =>
  obtain ⟨-, a2, -⟩ := inspectedLeaves_spec hm hl
  rw [leafHashes_ok] at h
  dsimp only at h
  split at h
  · cases h
  next proof s hf =>
  obtain ⟨h, -⟩ := Prod.mk.inj h
  obtain ⟨v, hv, h⟩ := G.bind_eq_ok.1 h
  obtain ⟨res, hres, h⟩ := G.bind_eq_ok.1 h
  obtain ⟨f, hfr, h⟩ := G.bind_eq_ok.1 h
  obtain ⟨es, hes, h⟩ := G.bind_eq_ok.1 h
  cases h
  rw [← a2]
  exact evaluate_same hv hres

/-! ### the client after the search -/

/-- what comes off the wire -/
structure FromWire (cs : Log.Suite) (proof : CombinedTreeProof) : Prop where
  times : ∀ t ∈ proof.timestamps, t < 2 ^ 64
  proofs : ∀ pf ∈ proof.prefixProofs, Prefix.WireProof cs.hashSize pf

theorem finish_frontier {cs : Log.Suite} {n : Nat} {nP m : Option Nat} {p q : Provider Received} {r : Provider.Result}
    (hm : TsMap p.timestamps) (h : p.finish cs (Received.handle cs) n nP m = (.ok r, q)) :
    ∃ f, frontier n = .ok f ∧ ∀ y ∈ f, y ∈ p.timestamps.map Prod.fst := by
  unfold Provider.finish at h
  split at h
  · cases h
  next ls p1 hl =>
  obtain ⟨a1, -⟩ := inspectedLeaves_spec hm hl
  rw [leafHashes_ok] at h
  dsimp only at h
  split at h
  · cases h
  next proof s hf =>
  obtain ⟨h, -⟩ := Prod.mk.inj h
  obtain ⟨v, hv, h⟩ := G.bind_eq_ok.1 h
  obtain ⟨res, hres, h⟩ := G.bind_eq_ok.1 h
  obtain ⟨f, hfr, h⟩ := G.bind_eq_ok.1 h
  obtain ⟨es, hes, h⟩ := G.bind_eq_ok.1 h
  refine ⟨f, hfr, fun y hy => ?_⟩
  obtain ⟨b1, b2⟩ := retained_spec hes
  rw [← b1] at hy
  obtain ⟨e, he, rfl⟩ := List.mem_map.1 hy
  have := (b2 e he).1
  dsimp only at this
  rw [a1] at this
  exact List.mem_map.2 ⟨_, Alg.lookup_mem this, rfl⟩

theorem logRoot_size {cs : Log.Suite} {n : Nat} {l : List Bytes} {r : Bytes} (h : Log.root cs n l = .ok r) :
    0 < n ∧ n ≤ LogMath.maxTreeSize := by
  unfold Log.root at h
  split at h
  · cases h
  · omega

/-- the times of the log as a function -/
def timeAt (W : List Content) (x : Nat) : Nat := (W[x]?.map (·.time)).getD 0

theorem timeAt_eq {W : List Content} {x : Nat} {c : Content} (h : W[x]? = some c) : timeAt W x = c.time := by
  unfold timeAt; rw [h]; rfl

theorem timeAt_good {cs : Log.Suite} {W : List Content} (hW : IsLog cs W) : GoodTimes (timeAt W) W.length := by
  refine ⟨fun i j hij hj => ?_, fun i hi => ?_⟩
  · have hi : i < W.length := by omega
    rw [timeAt_eq (List.getElem?_eq_getElem hi), timeAt_eq (List.getElem?_eq_getElem hj)]
    exact hW.mono i j _ _ hij (List.getElem?_eq_getElem hi) (List.getElem?_eq_getElem hj)
  · rw [timeAt_eq (List.getElem?_eq_getElem hi)]
    exact hW.times _ (List.getElem_mem hi)

/-- whether version `v` of a label is in entry `x` of the log -/
def presentAt (W : List Content) (out : Nat → Bytes) (x v : Nat) : Bool := W[x]?.any (fun c => decide (out v ∈ c.map.map Prod.fst))

/-- After an algorithm that succeeded, and a `Finish` whose root is that of the log, whatever the log looks like: the
timestamps are those of the log, and versions are shown present or absent as they are in the log. -/
theorem after_any {env : CEnv} {W : List Content} {out : Nat → Bytes} (hcs : env.cs.Good)
    (hW : WellFormed env.cs W)
    {proof : CombinedTreeProof} (hwire : FromWire env.cs proof)
    {v2 v3 : Verifier} (hR : Begun env W proof v2)
    (hV : ∀ v k, v2.p.state.versions.lookup v = some k → v < 2 ^ 32 ∧ k.vrf = out v) {α : Type} {prog : Prog α} {a : α}
    (hclean : ∀ e ∈ Provider.evals env.cs prog v2.p, Consistent e.1 e.2)
    (h3 : v2.run env prog = .ok (a, v3)) (hn : v3.n = W.length) (hmn : ∀ k ∈ v3.m, k ≤ v3.n)
    {result : Provider.Result} {p : Provider Received}
    (hf : v3.p.finish env.cs (Received.handle env.cs) v3.n v3.nP v3.m = (.ok result, p))
    (hroot : Log.root env.cs v3.n result.fullSubtrees = .ok (logRoot env.cs W)) :
    (Learned env.cs W v3.p result ∧
      (∀ x t, (x, t) ∈ v3.p.timestamps → t = timeAt W x) ∧ (∀ x ∈ v3.p.timestamps.map Prod.fst, x < W.length) ∧
      (∀ x v b, x ∈ v3.p.timestamps.map Prod.fst →
        Shown env.cs v2.p.state.versions proof.prefixProofs (Provider.evals env.cs prog v2.p)
          (fun x => v3.p.prefixTrees.lookup x) x v b →
        v < 2 ^ 32 ∧ b = presentAt W out x v ∧ (b = true →
        ∃ c k com, W[x]? = some c ∧ v2.p.state.versions.lookup v = some k ∧ k.com = some com ∧ (out v, com) ∈ c.map))) ∨
    HashBroken env.cs (logStrings env.cs W) (finishStrings env.cs v3.n v3.nP v3.m v3.p ++
      proofStrings env.cs (Provider.evals env.cs prog v2.p)) := by
  by_cases hB : HashBroken env.cs (logStrings env.cs W) (finishStrings env.cs v3.n v3.nP v3.m v3.p ++
      proofStrings env.cs (Provider.evals env.cs prog v2.p))
  · exact Or.inr hB
  left
  obtain ⟨-, hr⟩ := run_frame h3
  obtain ⟨g3, m3, -⟩ := run_spec (Received.handle env.cs) prog v2.p hR.ts
  obtain ⟨-, t3⟩ := client_run (cs := env.cs) prog v2.p hR.inv hR.times
  rw [hr] at g3 m3 t3
  have h64 : ∀ e ∈ v3.p.timestamps, e.2 < 2 ^ 64 := by
    intro e he
    rcases t3 e he with h | h
    · simpa using (List.mem_filter.1 h).2
    · exact hwire.times _ h
  have hL : Learned env.cs W v3.p result := by
    rw [hn] at hf hroot hB hmn
    rcases finish_learned hcs hW m3 h64 (RetainedOk.grows hR.retained g3) hmn hf hroot with h | h
    · exact h
    · exact absurd (h.mono (fun _ h => h) (fun _ h => List.mem_append_left _ h)) hB
  have hnb : ¬ HashBroken env.cs (logStrings env.cs W) (proofStrings env.cs (Provider.evals env.cs prog v2.p)) :=
    fun h => hB (h.mono (fun _ h => h) (fun _ h => List.mem_append_right _ h))
  have hst := fun x v b hx h => shown_present hcs hW hL hV hwire.proofs hclean hnb (x := x) (v := v) (b := b) hx h
  refine ⟨hL, ?_, ?_, ?_⟩
  · intro x t hxt
    obtain ⟨c, h1, h2⟩ := hL.times x t hxt
    rw [timeAt_eq h1, h2]
  · intro x hx
    obtain ⟨⟨y, t⟩, hxt, rfl⟩ := List.mem_map.1 hx
    obtain ⟨c, h1, -⟩ := hL.times _ _ hxt
    exact (List.getElem?_eq_some_iff.1 h1).1
  · intro x v b hx h
    obtain ⟨c, h1, h2, h3, h4⟩ := hst x v b hx h
    refine ⟨h2, ?_, fun hb => ?_⟩
    · unfold presentAt
      rw [h1, h3]
      rfl
    · obtain ⟨k, com, h5, h6, h7⟩ := h4 hb
      exact ⟨c, k, com, h1, h5, h6, h7⟩

/-- After an algorithm that succeeded, and a `Finish` whose root is that of the log: the facts behind the answers are true. -/
theorem after_begun {env : CEnv} {W : List Content} {out : Nat → Bytes} {g : Nat → Int} (hcs : env.cs.Good)
    (hW : IsLog env.cs W) (hl : LabelIn W out g)
    {proof : CombinedTreeProof} (hwire : FromWire env.cs proof)
    {v2 v3 : Verifier} (hR : Begun env W proof v2)
    (hV : ∀ v k, v2.p.state.versions.lookup v = some k → v < 2 ^ 32 ∧ k.vrf = out v) {α : Type} {prog : Prog α} {a : α}
    (hclean : ∀ e ∈ Provider.evals env.cs prog v2.p, Consistent e.1 e.2)
    (h3 : v2.run env prog = .ok (a, v3)) (hn : v3.n = W.length) (hmn : ∀ k ∈ v3.m, k ≤ v3.n)
    {result : Provider.Result} {p : Provider Received}
    (hf : v3.p.finish env.cs (Received.handle env.cs) v3.n v3.nP v3.m = (.ok result, p))
    (hroot : Log.root env.cs v3.n result.fullSubtrees = .ok (logRoot env.cs W)) :
    (Learned env.cs W v3.p result ∧
      Truth env.cs v2.p.state.versions proof.prefixProofs (Provider.evals env.cs prog v2.p) v3.p.timestamps
        (fun x => v3.p.prefixTrees.lookup x) (timeAt W) g W.length ∧
      (∀ x v, x ∈ v3.p.timestamps.map Prod.fst →
        Shown env.cs v2.p.state.versions proof.prefixProofs (Provider.evals env.cs prog v2.p)
          (fun x => v3.p.prefixTrees.lookup x) x v true →
        ∃ c k com, W[x]? = some c ∧ v2.p.state.versions.lookup v = some k ∧ k.com = some com ∧ (out v, com) ∈ c.map)) ∨
    HashBroken env.cs (logStrings env.cs W) (finishStrings env.cs v3.n v3.nP v3.m v3.p ++
      proofStrings env.cs (Provider.evals env.cs prog v2.p)) := by
  rcases after_any hcs hW.toWellFormed hwire hR hV hclean h3 hn hmn hf hroot with ⟨hL, h1, h2, h4⟩ | hB
  swap
  · exact Or.inr hB
  refine Or.inl ⟨hL, ⟨h1, h2, ?_⟩, fun x v hx h => (h4 x v true hx h).2.2 rfl⟩
  intro x v b hx h
  obtain ⟨h5, h6, -⟩ := h4 x v b hx h
  have hlt := h2 x hx
  rw [h6]
  unfold presentAt
  rw [List.getElem?_eq_getElem hlt, Option.any_some]
  exact decide_eq_decide.2 (hl.versions x _ (List.getElem?_eq_getElem hlt) v h5)

/-- After a search that succeeded, and a `Finish` whose root is that of the log: the facts behind the answers are true. -/
theorem after {env : CEnv} {W : List Content} {label : Bytes} {out : Nat → Bytes} {g : Nat → Int} (hcs : env.cs.Good)
    (hW : IsLog env.cs W) (hl : LabelIn W out g)
    (hvrf : ∀ v i o pr, v < 2 ^ 32 → vrfInput label v = .ok i → env.vrfVerify i pr = .ok o → o = out v)
    {proof : CombinedTreeProof} (hwire : FromWire env.cs proof) {manual : List (Nat × Bytes)} {vers : List Nat}
    (hvers : ∀ v ∈ vers, v < 2 ^ 32)
    {v2 v3 : Verifier} (hR : Ready env W label manual vers proof v2) {α : Type} {prog : Prog α} {a : α}
    (hclean : ∀ e ∈ Provider.evals env.cs prog v2.p, Consistent e.1 e.2)
    (h3 : v2.run env prog = .ok (a, v3)) (hn : v3.n = W.length) (hmn : ∀ k ∈ v3.m, k ≤ v3.n)
    {result : Provider.Result} {p : Provider Received}
    (hf : v3.p.finish env.cs (Received.handle env.cs) v3.n v3.nP v3.m = (.ok result, p))
    (hroot : Log.root env.cs v3.n result.fullSubtrees = .ok (logRoot env.cs W)) :
    (Learned env.cs W v3.p result ∧
      Truth env.cs v2.p.state.versions proof.prefixProofs (Provider.evals env.cs prog v2.p) v3.p.timestamps
        (fun x => v3.p.prefixTrees.lookup x) (timeAt W) g W.length ∧
      (∀ x v, x ∈ v3.p.timestamps.map Prod.fst →
        Shown env.cs v2.p.state.versions proof.prefixProofs (Provider.evals env.cs prog v2.p)
          (fun x => v3.p.prefixTrees.lookup x) x v true →
        ∃ c k com, W[x]? = some c ∧ v2.p.state.versions.lookup v = some k ∧ k.com = some com ∧ (out v, com) ∈ c.map)) ∨
    HashBroken env.cs (logStrings env.cs W) (finishStrings env.cs v3.n v3.nP v3.m v3.p ++
      proofStrings env.cs (Provider.evals env.cs prog v2.p)) :=
  after_begun hcs hW hl hwire hR.toBegun (fun v k hk => by
    obtain ⟨h1, i, step, h2, h3, -⟩ := hR.known v k hk
    exact ⟨hvers v h1, hvrf v i _ _ (hvers v h1) h2 h3⟩) hclean h3 hn hmn hf hroot

theorem TrackedBy.nil : TrackedBy {} [] := ⟨(by intro e he; cases he), (by intro e he; cases he)⟩

/-- the commitment of the target is the one the client has computed -/
theorem KnownBy.com {env : CEnv} {label : Bytes} {target : Nat} {commitment : Bytes} {vers : List Nat} {k : Known}
    {com : Bytes} (h : KnownBy env label [(target, commitment)] vers target k) (hk : k.com = some com) : com = commitment := by
  obtain ⟨-, i, step, -, -, h⟩ := h
  unfold ladderCommitment at h
  simp only [List.lookup_cons, beq_self_eq_true] at h
  split at h
  · cases h
  · have := Except.ok.inj h
    rw [hk] at this
    exact (Option.some.inj this).symm

end Katie.Client
