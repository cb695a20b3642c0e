import Verif.Props.C102_Fresh
import Verif.Props.C69_MonitorSound
import Verif.Props.C72_InitSound
import Verif.Lemmas.OwnerFresh
import Verif.Lemmas.LadderSteps

/-
C103: in an audited log the owner of a label learns of every version that someone has found.

The owner and the other client may have tree heads of different logs; they accept heads of the same auditor.  Nothing is assumed about
which versions of the label the logs contain.
-/

namespace Katie.AuditSpec
open Katie Katie.Wire Katie.Alg Katie.Audit Katie.SearchSpec Katie.Client Katie.CommittedSpec Katie.Ladder Katie.SearchTree
  Katie.ServedSpec Katie.Server

/-- `Watches env W label a versions o o' S`: the owner of `label`, who has retained `versions` and whose monitoring has arrived at the
state `o`, has received a tree head for the
log `W` (its root is the one that was signed), together with the auditor's head `a`, in a response to a monitoring request.  All checks
have passed (client.go:422-448, client_crypto.go:205-224), and the new state is `o'`.  The owner has hashed the strings `S`.
(`Consistent` is what the verifier does not check: C10, C11.  The retained VRF outputs are ones that have been verified.) -/
inductive Watches (env : CEnv) (W : List Content) (label : Bytes) (a : AuditorTreeHead) (versions : List RetainedVersion)
    (o o' : Owner) : List Bytes → Prop
  | mk {now : Nat} {state : Option ClientState} {fth : FullTreeHead} {proof : CombinedTreeProof} {v0 v1 v2 v3 w : Verifier}
      {result : Provider.Result} {p : Provider Received} {rootP : Bytes} {th : TreeHead} {b rest : Bytes}
      {contact : PMap} {m : Monitor} :
      newFullTreeHead env.cfg b = .ok (fth, rest) → fth.treeHead = some th → th.treeSize = W.length → fth.auditor = some a →
      EntriesOk env.cs W state → FromWire env.cs proof →
      (∀ r ∈ versions, r.version < 2 ^ 32 ∧ ∃ i pr, vrfInput label r.version = .ok i ∧ env.vrfVerify i pr = .ok r.vrfOutput) →
      newVerifier state (getLast state) fth proof = .ok v0 →
      addRetainedVersions env versions v0 = .ok v1 → v1.updateView env now = .ok v2 →
      v2.run env (monitorProg env.cfg v2.n contact (some o)) = .ok (m, v3) → m.owner = some o' →
      (∀ e ∈ Provider.evals env.cs (monitorProg env.cfg v2.n contact (some o)) v2.p, Consistent e.1 e.2) →
      v3.p.finish env.cs (Received.handle env.cs) v3.n v3.nP v3.m = (.ok result, p) →
      Log.root env.cs v3.n result.fullSubtrees = .ok (logRoot env.cs W) →
      auditorRoot env v3.nP result.additional = .ok rootP →
      verifyTreeHead env { v3 with p := p } (logRoot env.cs W) rootP = .ok w →
      Watches env W label a versions o o' (finishStrings env.cs v3.n v3.nP v3.m v3.p ++
        proofStrings env.cs (Provider.evals env.cs (monitorProg env.cfg v2.n contact (some o)) v2.p))

/-- `Starts env W label a ladder steps o S`: a client becomes the owner of `label`: it has received a tree head for the log `W` (its root is the one
that was signed), together with the auditor's head `a`, in a response to an initialization request.  All checks have passed
(client.go:266-317), and the state of the owner is `o`.  For each version in `ladder` the response has a step in `steps`.  The client has hashed the strings `S`. -/
inductive Starts (env : CEnv) (W : List Content) (label : Bytes) (a : AuditorTreeHead) (ladder : List Nat)
    (steps : List BinaryLadderStep) (o : Owner) : List Bytes → Prop
  | mk {now : Nat} {state : Option ClientState} {fth : FullTreeHead} {proof : CombinedTreeProof} {v0 v1 v2 v3 w : Verifier}
      {result : Provider.Result} {p : Provider Received} {rootP : Bytes} {th : TreeHead} {b rest : Bytes}
      {greatest : List Nat} {start : Nat} {m : Monitor} {xs : List Nat} :
      newFullTreeHead env.cfg b = .ok (fth, rest) → fth.treeHead = some th → th.treeSize = W.length → fth.auditor = some a →
      EntriesOk env.cs W state → FromWire env.cs proof → (∀ v ∈ greatest, v < 2 ^ 32) →
      newVerifier state (getLast state) fth proof = .ok v0 →
      allLadderVersions greatest = .ok ladder → processLadder env label steps ladder [] v0 = .ok v1 →
      v1.updateView env now = .ok v2 →
      v2.run env (initProg env.cfg v2.n start greatest) = .ok ((m, xs), v3) → m.owner = some o →
      (∀ e ∈ Provider.evals env.cs (initProg env.cfg v2.n start greatest) v2.p, Consistent e.1 e.2) →
      v3.p.finish env.cs (Received.handle env.cs) v3.n v3.nP v3.m = (.ok result, p) →
      Log.root env.cs v3.n result.fullSubtrees = .ok (logRoot env.cs W) →
      auditorRoot env v3.nP result.additional = .ok rootP →
      verifyTreeHead env { v3 with p := p } (logRoot env.cs W) rootP = .ok w →
      Starts env W label a ladder steps o (finishStrings env.cs v3.n v3.nP v3.m v3.p ++
        proofStrings env.cs (Provider.evals env.cs (initProg env.cfg v2.n start greatest) v2.p))

end Katie.AuditSpec

namespace Katie.Props
open Katie Katie.Wire Katie.Alg Katie.Audit Katie.AuditSpec Katie.SearchSpec Katie.Client Katie.CommittedSpec
  Katie.Ladder Katie.SearchTree

theorem watches_passed {env : CEnv} {W : List Content} {label : Bytes} {a : AuditorTreeHead} {versions : List RetainedVersion}
    {o o' : Owner} {S : List Bytes} (h : Watches env W label a versions o o' S) : ∃ S', Passed env (W.map (Content.entry env.cs)) a S' ∧ ∀ s ∈ S', s ∈ S := by
  obtain ⟨b1, b2, b3, b4, b5, b6, b7, b8, b9, b10, b11, b12, b13, b14, b15, b16, b17⟩ := h
  refine ⟨_, .mk b1 b2 (by rw [b3, List.length_map]) b4 b8 (.retained (.refl _) b9) b10 (.run (.refl _) b11) b14
    (by rw [logRoot_entries]; exact b15) b16 (by rw [logRoot_entries]; exact b17), ?_⟩
  intro s hs
  exact List.mem_append_left _ hs

/-- `u` is `k`, or one of the smaller versions of the binary ladder for `k` -/
def InLadder (k u : Nat) : Prop := u = k ∨ u < k ∧ ∃ l, baseBinaryLadder k = .ok l ∧ u ∈ l

/-- What an owner at entry `s` has seen of `W`, who takes `v` for the greatest version: the greater versions of the ladder are not there. -/
def SawGreatest (W : List Content) (out : Nat → Bytes) (s : Nat) (v : Int) : Prop :=
  s < W.length ∧ ((v < 0 ∧ presentAt W out s 0 = false) ∨
    ∃ (k : Nat) (l : List Nat), (k : Int) ≤ v ∧ k < 2 ^ 32 ∧ baseBinaryLadder k = .ok l ∧
      ∀ u ∈ l, k < u → presentAt W out s u = false)

/-- What the owner has seen in the entry where the monitoring has arrived. -/
theorem watches_saw {env : CEnv} {W : List Content} {label : Bytes} {a : AuditorTreeHead} {versions : List RetainedVersion}
    {o o' : Owner} {S : List Bytes} {out : Nat → Bytes} (hcs : env.cs.Good) (hW : WellFormed env.cs W)
    (hvrf : ∀ v i o pr, v < 2 ^ 32 → vrfInput label v = .ok i → env.vrfVerify i pr = .ok o → o = out v)
    (h : Watches env W label a versions o o' S) :
    (o' = o ∨ (SawGreatest W out o'.starting o'.verAtStarting ∧
      ∀ k : Nat, o'.verAtStarting = k → k < 2 ^ 32 → (∃ l, baseBinaryLadder k = .ok l) ∧
        ∀ u, InLadder k u → Kept W out versions o'.starting u ∧
          ∃ i pr, vrfInput label u = .ok i ∧ env.vrfVerify i pr = .ok (out u))) ∨
    HashBroken env.cs (logStrings env.cs W) S := by
  obtain ⟨-, hth, hsz, -, hst, hwire, hret, h0, h1, h2, h3, hm, hclean, hf, hroot, -, -⟩ := h
  rename_i now state fth proof v0 v1 v2 v3 w result p rootP th b rest contact m
  obtain ⟨-, -, -, -, e5, -⟩ := newVerifier_ok h0
  have hn0 : v0.n = th.treeSize := by
    unfold treeSizeOf at e5
    rw [hth] at e5
    exact (Except.ok.inj e5).symm
  obtain ⟨⟨Vs, e1⟩, e2⟩ := addRetainedVersions_versions versions v0 v1 h1
  obtain ⟨k0, hR, k1, -⟩ := setup_begun hW hst h0 e1 h2
  have f23 := (run_frame h3).1
  have f12 := (updateView_frame h2).1
  have hn2 : v2.n = W.length := by rw [f12.n, (addRetainedVersions_frame h1).n, hn0, hsz]
  have hn : v3.n = W.length := by rw [f23.n, hn2]
  have hmn : ∀ k ∈ v3.m, k ≤ v3.n := by
    have := updateView_size h2
    rw [f23.m, f23.n, f12.m, f12.n]
    exact this
  rw [hn2] at h3 hclean ⊢
  have hr := (run_frame h3).2
  obtain ⟨g3, m3, hruns, -⟩ := run_spec (Received.handle env.cs) (monitorProg env.cfg W.length contact (some o)) v2.p hR.ts
  rw [hr] at g3 m3 hruns
  rcases after_any hcs hW hwire hR (fun v k hk => by
    rw [k1] at hk
    rcases e2 v k hk with hk | ⟨r, r1, rfl, r3, -⟩
    · rw [k0] at hk; cases hk
    · obtain ⟨j1, i, pr, j2, j3⟩ := hret r r1
      exact ⟨j1, by rw [r3]; exact hvrf _ i _ pr j1 j2 j3⟩) hclean h3 hn hmn hf hroot with
    ⟨hL, hT, hlt, hC⟩ | hB
  swap
  · exact Or.inr hB
  left
  obtain ⟨q, q1, q2⟩ := monitorProg_checked hruns
  rw [hm] at q1
  cases q1
  rcases q2 with q2 | q2
  · exact Or.inl q2
  right
  have hok := (monitorProg_noCatch (cfg := env.cfg) (n := W.length) (c := contact) (o := some o)).runs hruns
  have hreads := (monitorProg_reads (cfg := env.cfg) (n := W.length) (c := contact) (o := some o)).runs hruns
  have hfacts := client_facts (cs := env.cs) (monitorProg env.cfg W.length contact (some o)) v2.p [] hR.ts
    hR.inv hR.times (by rw [hR.tracker]; exact TrackedBy.nil) (fun e he => ⟨hreads e he, hok e he⟩) v3.p
    (by rw [hr]; exact Grows.refl _)
    (E := Provider.evals env.cs (monitorProg env.cfg W.length contact (some o)) v2.p) (fun e he => he)
  obtain ⟨x1, x2⟩ := q2.shown hfacts
  refine ⟨⟨hlt _ x1, ?_⟩, ?_⟩
  · rcases x2 with ⟨x2, x3⟩ | ⟨k, l, x2, x3, x4, x5⟩
    · exact Or.inl ⟨x2, (hC _ _ _ x1 x3).2.1.symm⟩
    · exact Or.inr ⟨k, l, x2, x3, x4, fun u hu hlt => (hC _ _ _ x1 (x5 u hu hlt)).2.1.symm⟩
  · intro k hk h32
    rw [hk] at q2
    refine ⟨q2.ladder h32 hfacts, ?_⟩
    intro u hu
    obtain ⟨-, -, c⟩ := hC _ _ _ x1 (q2.present h32 hu hfacts)
    obtain ⟨c, kv, com, c1, c2, c3, c4⟩ := c rfl
    rw [k1] at c2
    rcases e2 _ _ c2 with c2 | ⟨r, r1, r2, -, r4⟩
    · rw [k0] at c2; cases c2
    · obtain ⟨j1, i, pr, j2, j3⟩ := hret r r1
      rw [hvrf _ i _ pr j1 j2 j3, r2] at j3
      rw [r2] at j2
      exact ⟨⟨r, r1, r2, com, by rw [← r4]; exact c3, c, c1, c4⟩, i, pr, j2, j3⟩

theorem starts_passed {env : CEnv} {W : List Content} {label : Bytes} {a : AuditorTreeHead} {ladder : List Nat}
    {steps : List BinaryLadderStep} {o : Owner} {S : List Bytes} (h : Starts env W label a ladder steps o S) : ∃ S', Passed env (W.map (Content.entry env.cs)) a S' ∧ ∀ s ∈ S', s ∈ S := by
  obtain ⟨b1, b2, b3, b4, b5, b6, b7, b8, b9, b10, b11, b12, b13, b14, b15, b16, b17, b18⟩ := h
  refine ⟨_, .mk b1 b2 (by rw [b3, List.length_map]) b4 b8 (.ladder (.refl _) b10) b11 (.run (.refl _) b12) b15
    (by rw [logRoot_entries]; exact b16) b17 (by rw [logRoot_entries]; exact b18), ?_⟩
  intro s hs
  exact List.mem_append_left _ hs

/-- What the new owner has seen in the starting position. -/
theorem starts_saw {env : CEnv} {W : List Content} {label : Bytes} {a : AuditorTreeHead} {ladder : List Nat}
    {steps : List BinaryLadderStep} {o : Owner} {S : List Bytes} {out : Nat → Bytes} (hcs : env.cs.Good) (hW : WellFormed env.cs W)
    (hvrf : ∀ v i o pr, v < 2 ^ 32 → vrfInput label v = .ok i → env.vrfVerify i pr = .ok o → o = out v)
    (h : Starts env W label a ladder steps o S) :
    (SawGreatest W out o.starting o.verAtStarting ∧ ∀ k : Nat, o.verAtStarting = k → k < 2 ^ 32 →
      (∃ l, baseBinaryLadder k = .ok l) ∧ ∀ u, InLadder k u →
        (∃ step com, (u, step) ∈ ladder.zip steps ∧ step.commitment = some com ∧ Committed W out u com o.starting) ∧
          ∃ i pr, vrfInput label u = .ok i ∧ env.vrfVerify i pr = .ok (out u)) ∨ HashBroken env.cs (logStrings env.cs W) S := by
  obtain ⟨-, hth, hsz, -, hst, hwire, h32, h0, hl, h1, h2, h3, hm, hclean, hf, hroot, -, -⟩ := h
  rename_i now state fth proof v0 v1 v2 v3 w result p rootP th b rest greatest start m xs
  obtain ⟨-, -, -, -, e5, -⟩ := newVerifier_ok h0
  have hn0 : v0.n = th.treeSize := by
    unfold treeSizeOf at e5
    rw [hth] at e5
    exact (Except.ok.inj e5).symm
  obtain ⟨f02, hR, -⟩ := setup hW hst h0 h1 h2
  have f23 := (run_frame h3).1
  have f12 := (updateView_frame h2).1
  have hn2 : v2.n = W.length := by rw [f02.n, hn0, hsz]
  have hn : v3.n = W.length := by rw [f23.n, hn2]
  have hmn : ∀ k ∈ v3.m, k ≤ v3.n := by
    have := updateView_size h2
    rw [f23.m, f23.n, f12.m, f12.n]
    exact this
  rw [hn2] at h3 hclean ⊢
  have hr := (run_frame h3).2
  obtain ⟨g3, m3, hruns, -⟩ := run_spec (Received.handle env.cs) (initProg env.cfg W.length start greatest) v2.p hR.ts
  rw [hr] at g3 m3 hruns
  rcases after_any hcs hW hwire hR.toBegun (fun v k hk => by
    obtain ⟨k1, i, step, k2, k3, -⟩ := hR.known v k hk
    have k4 := allLadderVersions_lt hl v k1
    exact ⟨k4, hvrf v i _ _ k4 k2 k3⟩) hclean h3 hn hmn hf hroot with
    ⟨hL, hT, hlt, hC⟩ | hB
  swap
  · exact Or.inr hB
  left
  obtain ⟨q, q1, q2, q3⟩ := initProg_checked h32 hruns
  rw [hm] at q1
  cases q1
  subst q2
  have hok := (initProg_noCatch (cfg := env.cfg) (n := W.length) (s := o.starting) (vers := greatest)).runs hruns
  have hreads := (initProg_reads (cfg := env.cfg) (n := W.length) (s := o.starting) (vers := greatest)).runs hruns
  have hfacts := client_facts (cs := env.cs) (initProg env.cfg W.length o.starting greatest) v2.p [] hR.ts
    hR.inv hR.times (by rw [hR.tracker]; exact TrackedBy.nil) (fun e he => ⟨hreads e he, hok e he⟩) v3.p
    (by rw [hr]; exact Grows.refl _)
    (E := Provider.evals env.cs (initProg env.cfg W.length o.starting greatest) v2.p) (fun e he => he)
  obtain ⟨x1, x2⟩ := q3.shown hfacts
  refine ⟨⟨hlt _ x1, ?_⟩, ?_⟩
  · rcases x2 with ⟨x2, x3⟩ | ⟨k, l, x2, x3, x4, x5⟩
    · exact Or.inl ⟨x2, (hC _ _ _ x1 x3).2.1.symm⟩
    · exact Or.inr ⟨k, l, x2, x3, x4, fun u hu hlt => (hC _ _ _ x1 (x5 u hu hlt)).2.1.symm⟩
  · intro k hk h32
    rw [hk] at q3
    refine ⟨q3.ladder h32 hfacts, ?_⟩
    intro u hu
    obtain ⟨-, -, c⟩ := hC _ _ _ x1 (q3.present h32 hu hfacts)
    obtain ⟨c, kv, com, c1, c2, c3, c4⟩ := c rfl
    obtain ⟨⟨Vs, b1⟩, -⟩ := processLadder_versions h1
    obtain ⟨a2, -, hv, -⟩ := setup_begun hW hst h0 b1 h2
    obtain ⟨j1, i, st, j2, j3, -⟩ := hR.known _ _ c2
    rw [hvrf _ i _ _ (allLadderVersions_lt hl _ j1) j2 j3] at j3
    rw [hv] at c2
    rcases processLadder_from h1 _ _ c2 with c2 | ⟨step, r1, r2⟩
    · rw [a2] at c2; cases c2
    · exact ⟨⟨step, com, r1, by rw [r2]; exact c3, c, c1, c4⟩, i, _, j2, j3⟩

/-- What someone has seen of `W`, up to entry `x`, who takes version `t` to be there: for each version of the ladder up to `t`, this version
or a greater one of the ladder than `t` is there. -/
def SawLow (env : CEnv) (label : Bytes) (W : List Content) (out : Nat → Bytes) (x t : Nat) : Prop :=
  t < 2 ^ 32 ∧ (∃ l, baseBinaryLadder t = .ok l) ∧
  ∀ p v q, baseBinaryLadder t = .ok (p ++ v :: q) → v ≤ t →
    ∃ y z com, y ≤ x ∧ (z = v ∨ (z ∈ p ∧ t < z)) ∧ Committed W out z com y ∧
      ∃ i pr, vrfInput label z = .ok i ∧ env.vrfVerify i pr = .ok (out z)

/-- The common part: two clients who have passed the checks; the first has seen version `t` up to entry `x`, the second has seen in
entry `s` that `v` is the greatest version. -/
theorem saw_learns {env : CEnv} (hcs : env.cs.Good) (hcfg : ConfigTyped env.cfg)
    {key : Bytes} {sign : Bytes → G Bytes} {us kept : List AuditorUpdate} {hs : List AuditorTreeHead} {au : Auditor}
    (hex : DurableExec env.cs env.cfg key sign (UpdateOk env.cs) us kept hs au) (hun : Unforged env sign hs) (label : Bytes)
    {out : Nat → Bytes} (hout : ∀ v i o pr, v < 2 ^ 32 → vrfInput label v = .ok i → env.vrfVerify i pr = .ok o → o = out v) :
    ∃ A, Chain env.cs A ∧ updates A = us ∧ ∀ (W W' : List Content) (a a' : AuditorTreeHead) (t x s : Nat)
      (v : Int) (S S' : List Bytes),
      WellFormed env.cs W → WellFormed env.cs W' →
      (∃ R, Passed env (W.map (Content.entry env.cs)) a R ∧ ∀ s ∈ R, s ∈ S) →
      (SawLow env label W out x t ∨ HashBroken env.cs (logStrings env.cs W) S) →
      (∃ R, Passed env (W'.map (Content.entry env.cs)) a' R ∧ ∀ s ∈ R, s ∈ S') →
      (SawGreatest W' out s v ∨ HashBroken env.cs (logStrings env.cs W') S') →
      x < a.treeSize → x ≤ s → s < a'.treeSize →
      (∀ v i pr out, vrfInput label v = .ok i → env.vrfVerify i pr = .ok out → Keeps us out 0 s) →
      (t : Int) ≤ v ∨
      HashBroken env.cs (clientStrings env.cs A W a S ++ clientStrings env.cs A W' a' S' ++ stepStrings env.cs A)
        (clientStrings env.cs A W a S ++ clientStrings env.cs A W' a' S' ++ stepStrings env.cs A) := by
  obtain ⟨A, hA, hup, hall⟩ := C95_audited hcs hcfg hex
  refine ⟨A, hA, hup, ?_⟩
  intro W W' a a' t x s v S S' hW hW' hpass0 hlow0 hpass hsaw hx hxs hcov hkeep
  have times : ∀ V, WellFormed env.cs V → ∀ e ∈ V.map (Content.entry env.cs), e.timestamp < 2 ^ 64 := by
    intro V hV e he
    obtain ⟨c, hc, rfl⟩ := List.mem_map.1 he
    exact hV.times c hc
  -- all strings
  generalize hTT : clientStrings env.cs A W a S ++ clientStrings env.cs A W' a' S' ++ stepStrings env.cs A = TT
  have sub : ∀ s, s ∈ clientStrings env.cs A W a S ∨ s ∈ clientStrings env.cs A W' a' S' ∨ s ∈ stepStrings env.cs A →
      s ∈ TT := by
    intro s hs
    rw [← hTT, List.mem_append, List.mem_append, or_assoc]
    exact hs
  by_cases hB : HashBroken env.cs TT TT
  · exact Or.inr hB
  left
  have same : ∀ (V : List Content) (b : AuditorTreeHead) (R R' : List Bytes), WellFormed env.cs V →
      Passed env (V.map (Content.entry env.cs)) b R' → (∀ s ∈ R', s ∈ R) → (∀ s ∈ clientStrings env.cs A V b R, s ∈ TT) →
      (V.map (Content.entry env.cs)).take b.treeSize = log (A.take b.treeSize) := by
    intro V b R R' hV hP hR' hsub
    rcases hall env _ b R' rfl rfl hun (times V hV) hP with ⟨-, -, -, -, k⟩ | k
    · exact k
    · refine absurd (HashBroken.mono (Or.inl k) (fun s hs => hsub s ((mem_clientStrings ..).2 ?_))
        (fun s hs => hsub s ((mem_clientStrings ..).2 ?_))) hB
      · rcases List.mem_append.1 hs with hs | hs
        · exact Or.inr (Or.inr (Or.inl hs))
        · exact Or.inr (Or.inr (Or.inr (Or.inl hs)))
      · rcases List.mem_append.1 hs with hs | hs
        · exact Or.inl (hR' s hs)
        · exact Or.inr (Or.inr (Or.inr (Or.inr hs)))
  obtain ⟨R1, hP1, hR1⟩ := hpass0
  have p1 := same W a S R1 hW hP1 hR1 (fun s hs => sub s (Or.inl hs))
  obtain ⟨R2, hP2, hR2⟩ := hpass
  have q1 := same W' a' S' R2 hW' hP2 hR2 (fun s hs => sub s (Or.inr (Or.inl hs)))
  rcases hlow0 with ⟨t32, ⟨l, hl⟩, hlow⟩ | k
  swap
  · exact absurd (HashBroken.mono k (fun s hs => sub s (Or.inl ((mem_clientStrings ..).2 (Or.inr (Or.inl hs)))))
        (fun s hs => sub s (Or.inl ((mem_clientStrings ..).2 (Or.inl hs))))) hB
  rcases hsaw with ⟨hs', hsaw⟩ | k
  swap
  · exact absurd (HashBroken.mono k (fun s hs => sub s (Or.inr (Or.inl ((mem_clientStrings ..).2 (Or.inr (Or.inl hs))))))
        (fun s hs => sub s (Or.inr (Or.inl ((mem_clientStrings ..).2 (Or.inl hs)))))) hB
  by_contra hlt
  have hlt : v < (t : Int) := by omega
  -- a version which the client has seen, and the owner has not
  obtain ⟨y, z, com1, i, pr, hy, ⟨c, c1, c2⟩, i1, i2, habs⟩ : ∃ y z com1 i pr, y ≤ x ∧ Committed W out z com1 y ∧
      vrfInput label z = .ok i ∧ env.vrfVerify i pr = .ok (out z) ∧ presentAt W' out s z = false := by
    rcases hsaw with ⟨-, habs⟩ | ⟨k, l', hk, hk32, hl', hlast⟩
    · have ht : t < 2 ^ 31 - 1 := by
        by_contra hge
        unfold baseBinaryLadder at hl
        rw [C19_ladder_diverges (by omega) t32] at hl
        cases hl
      obtain ⟨l0, hl0, -, -, hhead, -⟩ := baseBinaryLadder_ok ht
      obtain ⟨q, rfl⟩ : ∃ q, l0 = 0 :: q := by
        cases l0 with
        | nil => cases hhead
        | cons u q => cases Option.some.inj hhead; exact ⟨q, rfl⟩
      obtain ⟨y, z, com1, hy, hz, hc, i, pr, i1, i2⟩ := hlow [] 0 q hl0 (by omega)
      rcases hz with rfl | ⟨hz, -⟩
      · exact ⟨y, 0, com1, i, pr, hy, hc, i1, i2, habs⟩
      · cases hz
    · have hkt : k < t := by omega
      obtain ⟨p, u, q, q', e1, e2, e3, e4, e5⟩ := base_fork hkt hk32 hl' hl
      obtain ⟨y, z, com1, hy, hz, hc, i, pr, i1, i2⟩ := hlow p u q' (e2 ▸ hl) e5
      refine ⟨y, z, com1, i, pr, hy, hc, i1, i2, hlast z ?_ ?_⟩
      · rw [e1]
        rcases hz with rfl | ⟨h1, h2⟩ <;> simp [*]
      · rcases hz with rfl | ⟨h1, h2⟩
        · exact e4
        · omega
  -- the entry in the owner's log
  obtain ⟨d, hd⟩ : ∃ d, W'[y]? = some d := ⟨_, List.getElem?_eq_getElem (by omega)⟩
  have hmem : (out z, com1) ∈ d.map := by
    obtain ⟨r, r1, r2⟩ := audited_entry p1 (by omega) c1
    obtain ⟨r', r1', r2'⟩ := audited_entry q1 (by omega) hd
    rw [r1] at r1'
    cases r1'
    have hroots : PrefixSpec.rootHash env.cs.H env.cs.hashSize c.map = PrefixSpec.rootHash env.cs.H env.cs.hashSize d.map := by
      have := r2.symm.trans r2'
      exact congrArg LogEntry.prefixTree this
    rcases C07_root_injective hcs _ _ (hW.maps _ (List.mem_of_getElem? c1)) (hW'.maps _ (List.mem_of_getElem? hd)) hroots with k | k
    · exact (k _).1 c2
    · refine absurd (HashBroken.mono (A := PrefixSpec.rootInputs env.cs.H env.cs.hashSize c.map)
        (B := PrefixSpec.rootInputs env.cs.H env.cs.hashSize d.map) k ?_ ?_) hB
      · exact fun s hs => sub s (Or.inl ((mem_clientStrings ..).2 (Or.inr (Or.inl (mem_logStrings c1 hs)))))
      · exact fun s hs => sub s (Or.inr (Or.inl ((mem_clientStrings ..).2 (Or.inr (Or.inl (mem_logStrings hd hs))))))
  have hk : Keeps us (out z) y (y + (s - y)) := by
    intro w u h1 h2
    exact hkeep z i pr _ i1 i2 w u (by omega) (by omega)
  rcases audited_keeps hcs hA (fun u hu => (durable_updates hcs hex).1.1 u (hup ▸ hu)) hW' q1
      hd hmem (s - y) (by omega) (by omega) (hup ▸ hk) with ⟨e, k1, k2⟩ | k
  · rw [show y + (s - y) = s by omega] at k1
    unfold presentAt at habs
    rw [k1] at habs
    simp at habs
    exact habs _ k2
  · have hs : ∀ s' ∈ logStrings env.cs W' ++ stepStrings env.cs A, s' ∈ TT := by
      intro s' hs
      rcases List.mem_append.1 hs with hs | hs
      · exact sub s' (Or.inr (Or.inl ((mem_clientStrings ..).2 (Or.inr (Or.inl hs)))))
      · exact sub s' (Or.inr (Or.inr hs))
    exact absurd (HashBroken.mono k hs hs) hB

theorem finds_low {env : CEnv} {W : List Content} {label : Bytes} {a : AuditorTreeHead} {t : Nat} {opening : Bytes}
    {val : UpdateValue} {com : Bytes} {x : Nat} {S : List Bytes} {out : Nat → Bytes} (hcs : env.cs.Good) (hW : WellFormed env.cs W)
    (hvrf : ∀ v i o pr, v < 2 ^ 32 → vrfInput label v = .ok i → env.vrfVerify i pr = .ok o → o = out v)
    (hf : Finds env W label a t opening val com x S) :
    SawLow env label W out x t ∨ HashBroken env.cs (logStrings env.cs W) S := by
  obtain ⟨g, hf⟩ := hf
  rcases finds_saw hcs hW hvrf hf with ⟨t32, -, hl, hlow, -⟩ | k
  · exact Or.inl ⟨t32, hl, hlow⟩
  · exact Or.inr k

/-- **C103 (partial).**  Let the auditor be as in C95 and C97.  A client finds version `t` of a label (with either kind of search) at
entry `x`, which the auditor has audited.  The owner of the label, whose tree head may be for a different log, checks the label, and the
monitoring arrives at a new entry, which is not left of `x` and which is covered by the auditor's head.  If no update that the auditor has
accepted removes a version of the label, then the version that the owner takes for the greatest one in that entry is at least `t`: so
the client has not found a version which the owner does not know of; or two strings that were hashed collide (or one has the digest 0).
(What is missing: the condition `Consistent` in `FindsBy` and `Watches`.  Without it the claim is false, see
`C70_hidden_accepted`.) -/
theorem C103_owner_learns_partial {env : CEnv} (hcs : env.cs.Good) (hcfg : ConfigTyped env.cfg)
    (hvrf : ∀ i pr o pr' o', env.vrfVerify i pr = .ok o → env.vrfVerify i pr' = .ok o' → o = o')
    {key : Bytes} {sign : Bytes → G Bytes} {us kept : List AuditorUpdate} {hs : List AuditorTreeHead} {au : Auditor}
    (hex : DurableExec env.cs env.cfg key sign (UpdateOk env.cs) us kept hs au) (hun : Unforged env sign hs) (label : Bytes) :
    ∃ A, Chain env.cs A ∧ updates A = us ∧ ∀ (W W' : List Content) (a a' : AuditorTreeHead) (t x : Nat)
      (opening com : Bytes) (val : UpdateValue) (versions : List RetainedVersion) (o o' : Owner) (S S' : List Bytes),
      WellFormed env.cs W → WellFormed env.cs W' →
      Finds env W label a t opening val com x S → Watches env W' label a' versions o o' S' →
      o'.starting ≠ o.starting → x < a.treeSize → x ≤ o'.starting → o'.starting < a'.treeSize →
      (∀ v i pr out, vrfInput label v = .ok i → env.vrfVerify i pr = .ok out → Keeps us out 0 o'.starting) →
      (t : Int) ≤ o'.verAtStarting ∨
      HashBroken env.cs (clientStrings env.cs A W a S ++ clientStrings env.cs A W' a' S' ++ stepStrings env.cs A)
        (clientStrings env.cs A W a S ++ clientStrings env.cs A W' a' S' ++ stepStrings env.cs A) := by
  obtain ⟨out, hout⟩ := vrf_outputs hvrf label
  obtain ⟨A, hA, hup, hall⟩ := saw_learns hcs hcfg hex hun label hout
  refine ⟨A, hA, hup, ?_⟩
  intro W W' a a' t x opening com val versions o o' S S' hW hW' hf hf' hne hx hxs hcov hkeep
  refine hall W W' a a' t x _ _ S S' hW hW' (finds_passed hf) (finds_low hcs hW hout hf) (watches_passed hf') ?_ hx hxs hcov hkeep
  rcases watches_saw hcs hW' hout hf' with (rfl | k) | k
  · exact absurd rfl hne
  · exact Or.inl k.1
  · exact Or.inr k

/-- **C103 (partial), the new owner.**  The same for a client that becomes the owner of the label: the version with which it starts is at
least the one that another client has found, in the starting position or to its left. -/
theorem C103_init_learns_partial {env : CEnv} (hcs : env.cs.Good) (hcfg : ConfigTyped env.cfg)
    (hvrf : ∀ i pr o pr' o', env.vrfVerify i pr = .ok o → env.vrfVerify i pr' = .ok o' → o = o')
    {key : Bytes} {sign : Bytes → G Bytes} {us kept : List AuditorUpdate} {hs : List AuditorTreeHead} {au : Auditor}
    (hex : DurableExec env.cs env.cfg key sign (UpdateOk env.cs) us kept hs au) (hun : Unforged env sign hs) (label : Bytes) :
    ∃ A, Chain env.cs A ∧ updates A = us ∧ ∀ (W W' : List Content) (a a' : AuditorTreeHead) (t x : Nat)
      (opening com : Bytes) (val : UpdateValue) (ladder : List Nat) (steps : List BinaryLadderStep) (o : Owner) (S S' : List Bytes),
      WellFormed env.cs W → WellFormed env.cs W' →
      Finds env W label a t opening val com x S → Starts env W' label a' ladder steps o S' →
      x < a.treeSize → x ≤ o.starting → o.starting < a'.treeSize →
      (∀ v i pr out, vrfInput label v = .ok i → env.vrfVerify i pr = .ok out → Keeps us out 0 o.starting) →
      (t : Int) ≤ o.verAtStarting ∨
      HashBroken env.cs (clientStrings env.cs A W a S ++ clientStrings env.cs A W' a' S' ++ stepStrings env.cs A)
        (clientStrings env.cs A W a S ++ clientStrings env.cs A W' a' S' ++ stepStrings env.cs A) := by
  obtain ⟨out, hout⟩ := vrf_outputs hvrf label
  obtain ⟨A, hA, hup, hall⟩ := saw_learns hcs hcfg hex hun label hout
  refine ⟨A, hA, hup, ?_⟩
  intro W W' a a' t x opening com val ladder steps o S S' hW hW' hf hf' hx hxs hcov hkeep
  exact hall W W' a a' t x _ _ S S' hW hW' (finds_passed hf) (finds_low hcs hW hout hf) (starts_passed hf')
    ((starts_saw hcs hW' hout hf').imp_left And.left) hx hxs hcov hkeep

/-! ### an example: the owner of label 20 goes from entry 0 to entry 1 -/

/-- what the owner has retained: the version that exists, and the next one, which does not -/
def ownedVersions : List RetainedVersion := [⟨0, [71], some [134]⟩, ⟨1, [72], none⟩]

/-- the steps of `Watches` when the owner of label 20 is at entry 0, where version 0 is the greatest -/
def ownedChecks (now : Nat) (st : Server.Tree) : G (FullTreeHead × Option Owner × Bytes × Bool) := do
  let res ← Server.ownerMonitor auditedEnv now st ⟨none, [20], [], 0, some 0⟩
  let b ← res.fullTreeHead.marshal
  let (fth, _) ← newFullTreeHead oneClient.cfg b
  let v0 ← newVerifier none (getLast none) fth res.monitor
  let v1 ← addRetainedVersions oneClient ownedVersions v0
  let v2 ← v1.updateView oneClient now
  let (m, v3) ← v2.run oneClient (monitorProg oneClient.cfg v2.n [] (some ⟨0, 0, []⟩))
  match v3.p.finish toySuite (Received.handle toySuite) v3.n v3.nP v3.m with
  | (.error e, _) => .error e
  | (.ok result, p) => do
    let root ← Log.root toySuite v3.n result.fullSubtrees
    let rootP ← auditorRoot oneClient v3.nP result.additional
    let _ ← verifyTreeHead oneClient { v3 with p := p } root rootP
    pure (fth, m.owner, root, wireB toySuite.hashSize res.monitor &&
      (Provider.evals toySuite (monitorProg oneClient.cfg v2.n [] (some ⟨0, 0, []⟩)) v2.p).all consistentB)

theorem owned_watches {now : Nat} {st : Server.Tree} {W : List Content} {a : AuditorTreeHead} {fth : FullTreeHead} {th : TreeHead}
    {o : Owner} (hth : fth.treeHead = some th) (hsz : th.treeSize = W.length)
    (ha : fth.auditor = some a) (h : ownedChecks now st = .ok (fth, some o, logRoot toySuite W, true)) :
    ∃ S, Watches oneClient W [20] a ownedVersions ⟨0, 0, []⟩ o S := by
  unfold ownedChecks at h
  obtain ⟨res, -, h⟩ := G.bind_eq_ok.1 h
  obtain ⟨b, -, h⟩ := G.bind_eq_ok.1 h
  obtain ⟨⟨fth', rest⟩, k1, h⟩ := G.bind_eq_ok.1 h
  obtain ⟨v0, k2, h⟩ := G.bind_eq_ok.1 h
  obtain ⟨v1, k3, h⟩ := G.bind_eq_ok.1 h
  obtain ⟨v2, k4, h⟩ := G.bind_eq_ok.1 h
  obtain ⟨⟨m, v3⟩, k5, h⟩ := G.bind_eq_ok.1 h
  dsimp only at h
  split at h
  · cases h
  next result p k6 =>
  obtain ⟨root', k7, h⟩ := G.bind_eq_ok.1 h
  obtain ⟨rootP, k8, h⟩ := G.bind_eq_ok.1 h
  obtain ⟨w, k9, h⟩ := G.bind_eq_ok.1 h
  have h := Except.ok.inj h
  simp only [Prod.mk.injEq, Bool.and_eq_true] at h
  obtain ⟨rfl, hm, rfl, hw, hc⟩ := h
  refine ⟨_, .mk k1 hth hsz ha (fun _ h => (by cases h)) (wireB_spec hw) ?_ k2 k3 k4 k5 hm
    (fun e he => consistentB_spec (List.all_eq_true.1 hc e he)) k6 k7 k8 k9⟩
  intro r hr
  simp only [ownedVersions, List.mem_cons, List.not_mem_nil, or_false] at hr
  rcases hr with rfl | rfl
  · exact ⟨by decide, [1, 20, 0, 0, 0, 0], [], by decide +kernel, by decide +kernel⟩
  · exact ⟨by decide, [1, 20, 0, 0, 0, 1], [], by decide +kernel, by decide +kernel⟩

theorem owned_second : ∃ S, Watches oneClient oneLog' [20] ⟨6, 2, oneTbs⟩ ownedVersions ⟨0, 0, []⟩ ⟨1, 0, []⟩ S := by
  have hsz : auditedT2.2.head.map (fun h => h.treeSize) = some 2 := by decide +kernel
  obtain ⟨th, hth, hsz⟩ := Option.map_eq_some_iff.1 hsz
  exact owned_watches (now := 6) (st := { auditedT2.2 with auditor := some ⟨6, 2, oneTbs⟩ })
    (fth := ⟨auditedT2.2.head, some ⟨6, 2, oneTbs⟩⟩) hth hsz rfl (by decide +kernel)

/-- the hypotheses hold for the auditor of C97, the client that finds version 0 in a log of one entry, and the owner, who gets the log
of two entries -/
example : ∃ us kept hs au S S', DurableExec toySuite auditedEnv.cfg [1] .ok (UpdateOk toySuite) us kept hs au ∧
    Unforged oneClient .ok hs ∧ WellFormed toySuite oneLog ∧ WellFormed toySuite oneLog' ∧
    Finds oneClient oneLog [20] ⟨5, 1, auditedTbs⟩ 0 [9] ⟨[2], none⟩ [134] 0 S ∧
    Watches oneClient oneLog' [20] ⟨6, 2, oneTbs⟩ ownedVersions ⟨0, 0, []⟩ ⟨1, 0, []⟩ S' ∧ ∀ o, Keeps us o 0 1 := by
  obtain ⟨us, kept, hs, au, S, S', h1, h2, -, -, -, h6, h7, h8, h9, h10⟩ := one_case
  obtain ⟨S'', h11⟩ := owned_second
  exact ⟨us, kept, hs, au, S, S'', h1, h2, h6, h7, h8, h11, h10⟩

/-- the steps of `Starts` when a client becomes the owner of label 20 at entry 1 -/
def startChecks (now : Nat) (st : Server.Tree) (versions : List Nat) (coms : List (Bytes × Option Bytes)) :
    G (FullTreeHead × Option Owner × Bytes × Bool) := do
  let res ← Server.ownerInit auditedEnv now st ⟨none, [20], 1⟩
  let b ← res.fullTreeHead.marshal
  let (fth, _) ← newFullTreeHead oneClient.cfg b
  let v0 ← newVerifier none (getLast none) fth res.init
  let ladder ← Server.allLadderVersions res.greatestVersions
  let v1 ← processLadder oneClient [20] res.binaryLadder ladder [] v0
  let v2 ← v1.updateView oneClient now
  let (r, v3) ← v2.run oneClient (initProg oneClient.cfg v2.n 1 res.greatestVersions)
  match v3.p.finish toySuite (Received.handle toySuite) v3.n v3.nP v3.m with
  | (.error e, _) => .error e
  | (.ok result, p) => do
    let root ← Log.root toySuite v3.n result.fullSubtrees
    let rootP ← auditorRoot oneClient v3.nP result.additional
    let _ ← verifyTreeHead oneClient { v3 with p := p } root rootP
    pure (fth, r.1.owner, root, decide (ladder = versions) &&
      decide (res.binaryLadder.map (fun s => (s.proof, s.commitment)) = coms) && wireB toySuite.hashSize res.init && res.greatestVersions.all (fun v => decide (v < 2 ^ 32)) &&
      (Provider.evals toySuite (initProg oneClient.cfg v2.n 1 res.greatestVersions) v2.p).all consistentB)

theorem start_starts {now : Nat} {st : Server.Tree} {W : List Content} {a : AuditorTreeHead} {fth : FullTreeHead} {th : TreeHead}
    {versions : List Nat} {coms : List (Bytes × Option Bytes)} {o : Owner} (hth : fth.treeHead = some th) (hsz : th.treeSize = W.length)
    (ha : fth.auditor = some a) (h : startChecks now st versions coms = .ok (fth, some o, logRoot toySuite W, true)) :
    ∃ S, Starts oneClient W [20] a versions (coms.map (fun c => ⟨c.1, c.2⟩)) o S := by
  unfold startChecks at h
  obtain ⟨res, -, h⟩ := G.bind_eq_ok.1 h
  obtain ⟨b, -, h⟩ := G.bind_eq_ok.1 h
  obtain ⟨⟨fth', rest⟩, k1, h⟩ := G.bind_eq_ok.1 h
  obtain ⟨v0, k2, h⟩ := G.bind_eq_ok.1 h
  obtain ⟨l, kl, h⟩ := G.bind_eq_ok.1 h
  obtain ⟨v1, k3, h⟩ := G.bind_eq_ok.1 h
  obtain ⟨v2, k4, h⟩ := G.bind_eq_ok.1 h
  obtain ⟨⟨⟨m, xs⟩, v3⟩, k5, h⟩ := G.bind_eq_ok.1 h
  dsimp only at h
  split at h
  · cases h
  next result p k6 =>
  obtain ⟨root', k7, h⟩ := G.bind_eq_ok.1 h
  obtain ⟨rootP, k8, h⟩ := G.bind_eq_ok.1 h
  obtain ⟨w, k9, h⟩ := G.bind_eq_ok.1 h
  have h := Except.ok.inj h
  simp only [Prod.mk.injEq, Bool.and_eq_true, decide_eq_true_eq] at h
  obtain ⟨rfl, hm, rfl, ⟨⟨⟨hl, hco⟩, hw⟩, h32⟩, hc⟩ := h
  subst hl hco
  have e : (res.binaryLadder.map (fun s => (s.proof, s.commitment))).map (fun c => (⟨c.1, c.2⟩ : BinaryLadderStep)) =
      res.binaryLadder := by
    rw [List.map_map]
    exact List.map_id _
  rw [e]
  exact ⟨_, .mk k1 hth hsz ha (fun _ h => (by cases h)) (wireB_spec hw) (fun v hv => of_decide_eq_true (List.all_eq_true.1 h32 v hv))
    k2 kl k3 k4 k5 hm (fun e he => consistentB_spec (List.all_eq_true.1 hc e he)) k6 k7 k8 k9⟩

theorem start_second :
    ∃ S, Starts oneClient oneLog' [20] ⟨6, 2, oneTbs⟩ [0, 1] [⟨[], some [134]⟩, ⟨[], none⟩] ⟨1, 0, []⟩ S := by
  have hsz : auditedT2.2.head.map (fun h => h.treeSize) = some 2 := by decide +kernel
  obtain ⟨th, hth, hsz⟩ := Option.map_eq_some_iff.1 hsz
  exact start_starts (now := 6) (versions := [0, 1]) (coms := [([], some [134]), ([], none)]) (st := { auditedT2.2 with auditor := some ⟨6, 2, oneTbs⟩ })
    (fth := ⟨auditedT2.2.head, some ⟨6, 2, oneTbs⟩⟩) hth hsz rfl (by decide +kernel)

/-- the hypotheses of the second theorem: the same client, and one that becomes the owner of the label at entry 1 -/
example : ∃ us kept hs au S S', DurableExec toySuite auditedEnv.cfg [1] .ok (UpdateOk toySuite) us kept hs au ∧
    Unforged oneClient .ok hs ∧ WellFormed toySuite oneLog ∧ WellFormed toySuite oneLog' ∧
    Finds oneClient oneLog [20] ⟨5, 1, auditedTbs⟩ 0 [9] ⟨[2], none⟩ [134] 0 S ∧
    Starts oneClient oneLog' [20] ⟨6, 2, oneTbs⟩ [0, 1] [⟨[], some [134]⟩, ⟨[], none⟩] ⟨1, 0, []⟩ S' ∧ ∀ o, Keeps us o 0 1 := by
  obtain ⟨us, kept, hs, au, S, S', h1, h2, -, -, -, h6, h7, h8, h9, h10⟩ := one_case
  obtain ⟨S'', h11⟩ := start_second
  exact ⟨us, kept, hs, au, S, S'', h1, h2, h6, h7, h8, h11, h10⟩

end Katie.Props
