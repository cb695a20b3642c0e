import Verif.Lemmas.InitSound

/-!
# C72: what the owner of a label has found out when they accept the answer to an initialization request

As for searches and monitoring (C60, C69, C70) the log is `W`, `out v` is the VRF output of version `v` of the label, and `g x` the
greatest version in entry `x`.  The response is any value of the right type.
-/

namespace Katie.Props
open Katie Katie.Wire Katie.Alg Katie.Ladder Katie.Server Katie.Client Katie.CommittedSpec Katie.SearchTree Katie.SearchSpec

/-- the greatest version of the label in entry `y` is `v`, or the label does not exist there -/
def GreatestIs (g : Nat → Int) (y : Nat) : Option Nat → Prop
  | some v => g y = v
  | none => g y < 0

/-- the entries that are checked: the starting position, and its ancestors to the left that have not expired, nearest first -/
def CheckedAt (cfg : Config) (ts : Nat → Nat) (n start : Nat) (xs : List Nat) : Prop :=
  ∃ lo hi anc, IsNode n start lo hi anc ∧
    xs = start :: anc.filter (fun y => decide (y < start) && !cfg.isExpired (ts y) (ts (n - 1)))

/-- the steps of `ownerInit` up to the end of the algorithm: the program, and the verifier before and after it -/
def initSteps (env : CEnv) (now : Nat) (state : Option ClientState) (req : OwnerInitRequest) (res : OwnerInitResponse) :
    G (Prog (Monitor × List Nat) × Verifier × Verifier) := do
  let v ← newVerifier state req.last res.fullTreeHead res.init
  let ladder ← allLadderVersions res.greatestVersions
  let v ← processLadder env req.label res.binaryLadder ladder [] v
  let v2 ← v.updateView env now
  let prog := initProg env.cfg v2.n req.start res.greatestVersions
  let (_, v3) ← v2.run env prog
  pure (prog, v2, v3)

/-- the prefix proofs that the client evaluates, each with the entries it evaluates it for -/
def initEvals (env : CEnv) (now : Nat) (state : Option ClientState) (req : OwnerInitRequest) (res : OwnerInitResponse) :
    List (List Prefix.Entry × Prefix.Proof) :=
  match initSteps env now state req res with
  | .ok (prog, v2, _) => Provider.evals env.cs prog v2.p
  | .error _ => []

/-- the strings hashed by the client when it verifies the answer (those for the log and the prefix trees) -/
def initStrings (env : CEnv) (now : Nat) (state : Option ClientState) (req : OwnerInitRequest) (res : OwnerInitResponse) : List Bytes :=
  match initSteps env now state req res with
  | .ok (_, _, v3) => finishStrings env.cs v3.n v3.nP v3.m v3.p ++ proofStrings env.cs (initEvals env now state req res)
  | .error _ => []

/-- **C72 (partial).**  A client whose state is right for the log `W` accepts the answer to an initialization request.  Then the starting
position is a distinguished entry that has not expired.  In it, and in each of its ancestors to the left that have not expired, the greatest
version of the label is the one that the answer gives (there is none where the answer gives none).  The owner starts with the
greatest version at the starting position; the commitments retained for it and for the earlier versions of its ladder are
the ones in that entry.  The new client state is right for `W`, and the new label state is one to monitor with (C70).  Or two of
the strings hashed are a collision.  (What is missing: the proviso `Consistent`, as in C60 and C70.) -/
theorem C72_init_partial {env : CEnv} {W : List Content} {out : Nat → Bytes} {g : Nat → Int} {req : OwnerInitRequest}
    {res : OwnerInitResponse} {now : Nat} {s : ClientState} {ls : ClientLabelState} {st st' : CStore}
    (hS : Setting env req.label W out g) (hM : MonitorSetting env W out g ls.versions ls.contact none)
    (hsize : s.treeHead.treeSize = W.length) (hret : Retains env.cs W s.fullSubtrees s.logEntries)
    (hlast : req.last = some s.treeHead.treeSize) (hwire : FromWire env.cs res.init) (h32 : ∀ v ∈ res.greatestVersions, v < 2 ^ 32)
    (hclean : ∀ e ∈ initEvals env now (some s) req res, Consistent e.1 e.2)
    (h : Client.ownerInit env now (some s) ls req res st = .ok st') :
    (∃ xs o updated ls', Live env.cfg (timeAt W) W.length req.start ∧ CheckedAt env.cfg (timeAt W) W.length req.start xs ∧
      (∀ (i y : Nat), xs[i]? = some y → GreatestIs g y res.greatestVersions[i]?) ∧ res.greatestVersions.length ≤ xs.length ∧
      putLabelState st updated req.label ls' req.start = .ok st' ∧ ls'.owner = some o ∧
      o.starting = req.start ∧ o.upcomingVers = [] ∧ (o.verAtStarting = g req.start ∨ (o.verAtStarting = -1 ∧ g req.start < 0)) ∧
      (∀ v : Nat, g req.start = v → ∀ l, searchBinaryLadder v v [] [] = .ok l → ∀ u ∈ l, u ≤ v → Kept W out ls'.versions req.start u) ∧
      res.fullTreeHead.treeHead = none ∧ updated.treeHead = s.treeHead ∧ Retains env.cs W updated.fullSubtrees updated.logEntries ∧
      MonitorSetting env W out g ls'.versions ls'.contact ls'.owner ∧ ls'.contact = ls.contact) ∨
    HashBroken env.cs (logStrings env.cs W) (initStrings env now (some s) req res) := by
  unfold Client.ownerInit at h
  rw [hlast] at h
  obtain ⟨v0, h0, h⟩ := G.bind_eq_ok.1 h
  obtain ⟨ladder, hl, h⟩ := G.bind_eq_ok.1 h
  obtain ⟨v1, h1, h⟩ := G.bind_eq_ok.1 h
  obtain ⟨_, -, h⟩ := G.bind_eq_ok.1 h
  obtain ⟨v2, h2, h⟩ := G.bind_eq_ok.1 h
  obtain ⟨⟨m0, va⟩, ha, h⟩ := G.bind_eq_ok.1 h
  obtain ⟨⟨⟨m, xs⟩, v3⟩, hb, h⟩ := G.bind_eq_ok.1 h
  obtain ⟨⟨updated, v4⟩, h4, h⟩ := G.bind_eq_ok.1 h
  simp only at h
  have h3 : v2.run env (initProg env.cfg v2.n req.start res.greatestVersions) = .ok ((m, xs), v3) := run_seq ha hb
  have hsteps : initSteps env now (some s) req res = .ok (initProg env.cfg v2.n req.start res.greatestVersions, v2, v3) := by
    unfold initSteps
    rw [hlast]
    simp only [h0, hl, h1, h2, h3, G.ok_bind, G.pure_eq]
  have hev : initEvals env now (some s) req res =
      Provider.evals env.cs (initProg env.cfg v2.n req.start res.greatestVersions) v2.p := by
    unfold initEvals; rw [hsteps]
  have hstr : initStrings env now (some s) req res = finishStrings env.cs v3.n v3.nP v3.m v3.p ++
      proofStrings env.cs (Provider.evals env.cs (initProg env.cfg v2.n req.start res.greatestVersions) v2.p) := by
    unfold initStrings; rw [hsteps, hev]
  rw [hev] at hclean
  rw [hstr]
  have hst : EntriesOk env.cs W (some s) := by
    intro s' hs' e he
    cases hs'
    exact hret.entries e he
  obtain ⟨⟨Vs, b1⟩, -⟩ := processLadder_versions h1
  obtain ⟨-, hR, -⟩ := setup hS.log.toWellFormed hst h0 h1 h2
  obtain ⟨hnone, hn, hmn, result, p, hf, hroot, u1, u2, u3⟩ :=
    same_head hS.suite hS.log.toWellFormed hsize hret h0 (processLadder_frame h1) b1 h2 h3 h4
  have hF23 := (run_frame h3).1
  have hr := (run_frame h3).2
  have hn2 : v2.n = W.length := by rw [← hF23.n]; exact hn
  rw [hn2] at hr h3 hclean ⊢
  obtain ⟨-, -, hruns, -⟩ := run_spec (Received.handle env.cs) (initProg env.cfg W.length req.start res.greatestVersions) v2.p hR.ts
  rw [hr] at hruns
  have hvers := allLadderVersions_lt hl
  rcases after hS.suite hS.log hS.lab hS.vrf hwire hvers hR hclean h3 hn hmn hf hroot with ⟨hL, hT, hC⟩ | hB
  swap
  · exact Or.inr hB
  left
  have hok := (initProg_noCatch (cfg := env.cfg) (n := W.length) (s := req.start) (vers := res.greatestVersions)).runs hruns
  have hreads := (initProg_reads (cfg := env.cfg) (n := W.length) (s := req.start) (vers := res.greatestVersions)).runs hruns
  have hfacts := client_facts (cs := env.cs) (initProg env.cfg W.length req.start res.greatestVersions) v2.p [] hR.ts
    hR.inv hR.times (by rw [hR.tracker]; exact TrackedBy.nil) (fun e he => ⟨hreads e he, hok e he⟩) v3.p
    (by rw [hr]; exact Grows.refl _)
    (E := Provider.evals env.cs (initProg env.cfg W.length req.start res.greatestVersions) v2.p) (fun e he => he)
  obtain ⟨hpos, tr1, s1, s2, s3⟩ := initProg_parts (hfacts.tsTrace hT) hruns
  obtain ⟨i1, i2, i3, i4, -, i6⟩ := C30_init_sound (m := ⟨env.cfg, timeAt W (W.length - 1), W.length, none, none⟩) hpos
    (timeAt_good hS.log) rfl s2 s3
  subst i6
  simp only at h
  obtain ⟨v5, h5, h⟩ := G.bind_eq_ok.1 h
  obtain ⟨ls', h6, h⟩ := G.bind_eq_ok.1 h
  obtain ⟨w1, w2, w3⟩ := updateRetainedVersions_ok h6
  simp only at w1 w2
  -- the ladders
  have hgreat : ∀ (i y : Nat), xs[i]? = some y → GreatestIs g y res.greatestVersions[i]? := by
    intro i y hy
    obtain ⟨hi, rfl⟩ := List.getElem?_eq_some_iff.1 hy
    obtain ⟨k1, k2⟩ := i4 i hi
    cases hv : res.greatestVersions[i]? with
    | none =>
      obtain ⟨hy1, vt, vt', w, flags, w1, w2⟩ := hfacts.mem_search (s1 _ (k2 hv))
      obtain ⟨w3, -⟩ := ladder_full (g := g) (by norm_num) w1 (fun u b hub => hT.shown _ u b hy1 (w2 u b hub))
      unfold cmp3 at w3
      unfold GreatestIs
      by_contra hc
      rw [if_neg (by simpa using hc)] at w3
      split at w3 <;> cases w3
    | some v =>
      have hv32 := h32 v (List.mem_of_getElem? hv)
      obtain ⟨hy1, vt, vt', w, flags, w1, w2⟩ := hfacts.mem_search (s1 _ (k1 v hv))
      obtain ⟨w3, -⟩ := ladder_full (g := g) hv32 w1 (fun u b hub => hT.shown _ u b hy1 (w2 u b hub))
      unfold cmp3 at w3
      unfold GreatestIs
      split at w3
      · cases w3
      split at w3
      · cases w3
      omega
  have hx0 : xs[0]? = some req.start := by
    obtain ⟨_, _, _, -, rfl⟩ := i2
    rfl
  have hg0 := hgreat 0 _ hx0
  have hhead : res.greatestVersions[0]? = res.greatestVersions.head? := by rw [List.head?_eq_getElem?]
  rw [hhead] at hg0
  have hVs : v4.p.state.versions = v2.p.state.versions := by
    rw [verifierFinish_known h4, run_known h3]
  -- the versions known to the verifier at the end
  have hV4 : ∀ v k, v4.p.state.versions.lookup v = some k → v < 2 ^ 32 ∧ k.vrf = out v := by
    intro v k hk
    rw [hVs] at hk
    obtain ⟨n1, i, step, n2, n3, -⟩ := hR.known v k hk
    exact ⟨hvers v n1, hS.vrf v i _ _ (hvers v n1) n2 n3⟩
  have hV5 : ∀ v k, v5.p.state.versions.lookup v = some k → v < 2 ^ 32 ∧ k.vrf = out v := by
    intro v k hk
    rcases (addRetainedVersions_versions _ _ _ h5).2 v k hk with hk | ⟨r, r1, rfl, r2, -⟩
    · exact hV4 v k hk
    · rw [r2]; exact hM.outputs r r1
  refine ⟨xs, ⟨req.start, (res.greatestVersions.head?.map Int.ofNat).getD (-1), []⟩, updated, ls', i1, i2, hgreat, i3, h, w2, rfl, rfl,
    ?_, ?_, hnone, u1, by rw [u2, u3]; exact ⟨hL.heads, hL.entries⟩, ?_, w1⟩
  · cases hh : res.greatestVersions.head? with
    | none => rw [hh] at hg0; exact Or.inr ⟨rfl, hg0⟩
    | some v => rw [hh] at hg0; exact Or.inl hg0.symm
  · intro v hgv l hlad u hu huv
    cases hh : res.greatestVersions.head? with
    | none =>
      rw [hh] at hg0
      unfold GreatestIs at hg0
      omega
    | some v' =>
      rw [hh] at hg0
      unfold GreatestIs at hg0
      obtain rfl : v = v' := by omega
      have hv32 := h32 v (List.mem_of_getElem? (by rw [hhead, hh]))
      -- it was shown to be there
      have hi0 : 0 < xs.length := (List.getElem?_eq_some_iff.1 hx0).1
      have hxs : xs[0] = req.start := (List.getElem?_eq_some_iff.1 hx0).2
      have hsr := (i4 0 hi0).1 v (by rw [hhead, hh])
      rw [hxs] at hsr
      obtain ⟨hy1, vt, vt', w, flags, e1, e2⟩ := hfacts.mem_search (s1 _ hsr)
      obtain ⟨-, e3⟩ := ladder_full (g := g) hv32 e1 (fun u b hub => hT.shown _ u b hy1 (e2 u b hub))
      obtain ⟨l', hl', e4⟩ := e3 rfl
      rw [hlad] at hl'
      cases hl'
      have hsh := e2 _ _ (e4 u hu)
      rw [decide_eq_true huv] at hsh
      obtain ⟨c, k, com, c1, c2, c3, c4⟩ := hC _ _ hy1 hsh
      obtain ⟨r, r1, r2⟩ := updateRetainedVersions_start h6 rfl (v := v) (by rw [hh]; rfl) hv32 hlad hu
      have hlk := w3 r r1
      rw [r2, addRetainedVersions_keeps _ _ _ h5 u k (by rw [hVs]; exact c2)] at hlk
      have hk := Option.some.inj hlk
      refine ⟨r, r1, r2, com, ?_, c, c1, c4⟩
      rw [hk] at c3
      exact c3
  · refine ⟨hS.suite, hS.log, hS.lab, ?_, ?_, ?_, ?_⟩
    · intro r hr
      exact hV5 _ _ (w3 r hr)
    · rw [w1]; exact hM.keys
    · rw [w1]; exact hM.inTree
    · rw [w2]
      rintro o ⟨⟩
      refine ⟨?_, ?_⟩
      · unfold Owner.WF ServedSpec.ownerOf
        simp
      · simp only [List.length_nil]
        cases hh : res.greatestVersions.head? with
        | none => simp
        | some v =>
          have := h32 v (List.mem_of_getElem? (by rw [hhead, hh]))
          simp only [Option.map_some, Option.getD_some]
          have : (Int.ofNat v) < 2 ^ 32 := by
            simp only [Int.ofNat_eq_natCast]
            omega
          simpa using this

/-! ### a concrete case, and what happens without the proviso -/

/-- The right answer to a client that wants to own label 10 of `watchLog` (C69), starting at entry 3, the only distinguished one. -/
def startRes : OwnerInitResponse :=
  ⟨⟨none, none⟩, [1], [⟨[], some [167]⟩, ⟨[], some [156]⟩, ⟨[], none⟩, ⟨[], none⟩],
   ⟨[], [⟨[.inclusion 2, .inclusion 1, .nonInclusionLeaf [0x40] [156] 1, .nonInclusionLeaf [0x40] [156] 1], [[33]]⟩], [], []⟩⟩

/-- The wrong answer: version 0, and version 1 is "shown" to be absent by naming its own leaf. -/
def staleStart : OwnerInitResponse :=
  ⟨⟨none, none⟩, [0], [⟨[], some [167]⟩, ⟨[], none⟩], ⟨[], [⟨[.inclusion 2, .nonInclusionLeaf [0x40] [156] 1], [[33]]⟩], [], []⟩⟩

/-- The hypotheses of `C72_init_partial` are met, and no strings collide: the client accepts, and the only entry checked is entry 3. -/
example : Setting soundClient [10] watchLog soundOut watchGreatest ∧ MonitorSetting soundClient watchLog soundOut watchGreatest [] [] none ∧
    watchState.treeHead.treeSize = watchLog.length ∧ Retains toySuite watchLog watchState.fullSubtrees watchState.logEntries ∧
    FromWire toySuite startRes.init ∧ (∀ v ∈ startRes.greatestVersions, v < 2 ^ 32) ∧
    (∀ e ∈ initEvals soundClient 12 (some watchState) ⟨some 6, [10], 3⟩ startRes, Consistent e.1 e.2) ∧
    (Client.ownerInit soundClient 12 (some watchState) ⟨[], none, []⟩ ⟨some 6, [10], 3⟩ startRes {}).toOption.isSome = true ∧
    ¬ HashBroken toySuite (logStrings toySuite watchLog) (initStrings soundClient 12 (some watchState) ⟨some 6, [10], 3⟩ startRes) := by
  refine ⟨⟨toySuite_good, watch_log, watch_label, sound_setting.vrf⟩, ⟨toySuite_good, watch_log, watch_label, by decide, by decide, by decide, by rintro o ⟨⟩⟩, rfl,
    watch_retains, ⟨by decide, ?_⟩, by decide, ?_, by decide +kernel, ?_⟩
  · intro pf hpf
    obtain rfl := List.mem_singleton.1 hpf
    refine ⟨by decide, ?_⟩
    intro v c d h
    simp at h
    obtain ⟨rfl, rfl, rfl⟩ := h
    decide
  · have h : initEvals soundClient 12 (some watchState) ⟨some 6, [10], 3⟩ startRes =
        [([⟨[0x80], [167]⟩, ⟨[0x40], [156]⟩, ⟨[0x10], []⟩, ⟨[0x20], []⟩], ⟨[.inclusion 2, .inclusion 1,
          .nonInclusionLeaf [0x40] [156] 1, .nonInclusionLeaf [0x40] [156] 1], [[33]]⟩)] := by decide +kernel
    rw [h]
    intro e he
    obtain rfl := List.mem_singleton.1 he
    intro e r her
    simp only [List.zip_cons_cons, List.zip_nil_left, List.mem_cons, List.not_mem_nil, or_false, Prod.mk.injEq] at her
    rcases her with ⟨rfl, rfl⟩ | ⟨rfl, rfl⟩ | ⟨rfl, rfl⟩ | ⟨rfl, rfl⟩ <;> simp [Prefix.Res.isInclusion]
  · have h : initStrings soundClient 12 (some watchState) ⟨some 6, [10], 3⟩ startRes =
        [[1, 158, 1, 64], [3, 56, 15], [2, 64, 156], [3, 3, 33], [2, 128, 167]] := by decide +kernel
    rw [h, watchLog_strings]
    unfold HashBroken LogSpec.Collides PrefixSpec.ZeroDigest
    decide +kernel

/-- **C72 is false without the proviso.**  The log has version 1 of the label in entry 3, and no strings collide; the client accepts
the answer that says that 0 is the greatest version there. -/
theorem C72_stale_accepted :
    watchState.treeHead.treeSize = watchLog.length ∧ Retains toySuite watchLog watchState.fullSubtrees watchState.logEntries ∧
    FromWire toySuite staleStart.init ∧
    (Client.ownerInit soundClient 12 (some watchState) ⟨[], none, []⟩ ⟨some 6, [10], 3⟩ staleStart {}).toOption.isSome = true ∧
    staleStart.greatestVersions[0]? = some 0 ∧ ¬ GreatestIs watchGreatest 3 (some 0) ∧
    ¬ HashBroken toySuite (logStrings toySuite watchLog) (initStrings soundClient 12 (some watchState) ⟨some 6, [10], 3⟩ staleStart) := by
  refine ⟨rfl, watch_retains, ⟨by decide, ?_⟩, by decide +kernel, rfl, by unfold GreatestIs; decide, ?_⟩
  · intro pf hpf
    obtain rfl := List.mem_singleton.1 hpf
    refine ⟨by decide, ?_⟩
    intro v c d h
    simp at h
    obtain ⟨rfl, rfl, rfl⟩ := h
    decide
  · have h : initStrings soundClient 12 (some watchState) ⟨some 6, [10], 3⟩ staleStart =
        [[1, 158, 1, 64], [3, 56, 15], [2, 64, 156], [3, 3, 33], [2, 128, 167]] := by decide +kernel
    rw [h, watchLog_strings]
    unfold HashBroken LogSpec.Collides PrefixSpec.ZeroDigest
    decide +kernel

end Katie.Props
