import Verif.Props.C42_C45_Client
import Verif.Props.C03_C04_LogStore
import Verif.Lemmas.LogSame

/-
C44: what a client has verified about a tree head; C45: the proof for an unchanged tree; witnesses for C42 and C43.
-/

namespace Katie.Props
open Katie Katie.Wire Katie.Alg Katie.Ladder Katie.Server Katie.Client Katie.ClientSpec Katie.LogSpec Katie.LogMath

/-! ### a client of the example server -/

/-- the client of `toyEnv`: the signature and VRF checks repeat the computation of the server -/
def toyClient : CEnv where
  cs := toySuite
  sz := toyEnv.sz
  cfg := toyEnv.cfg
  vrfVerify := fun input _ => .ok (toyEnv.prove input).1
  sigVerify := fun tbs sig => decide (sig = [tbs.foldl (fun a x => 5 * a + x) 0])
  auditorVerify := fun _ _ => true
  leafVerify := fun _ _ => true

/-- the state of a client that knows the tree of size 1 (`toyT1`) -/
def toyState1 : ClientState := ⟨⟨1, [120]⟩, some ⟨5, 1, [0]⟩, [[183]], [(0, ⟨5, [2]⟩)]⟩

/-- the state of a client that knows the tree of size 2 (`toyT2`) -/
def toyState2 : ClientState := ⟨⟨2, [244]⟩, some ⟨6, 2, [0]⟩, [[46]], [(1, ⟨6, [168]⟩)]⟩

/-- the client searches for a label and the server's own response is verified -/
def toySearch (now : Nat) (t : Tree) (state : Option ClientState) (version : Option Nat) : G CStore := do
  let res ← Server.search toyEnv now t (searchRequest state [10] version)
  Client.search toyClient now id state (searchRequest state [10] version) res {}

/-- **Witness for C42.**  The first response of the honest server makes a new client panic. -/
theorem C42_first_response_panics : toySearch 6 toyT2 none none = goPanic "nil pointer dereference" := by decide +kernel

/-- **Witness for C43.**  A client in the state of size 1 rejects the honest response for size 2. -/
theorem C43_longer_log_rejected :
    toySearch 6 toyT2 (some toyState1) none = goErr "provided tree size is not greater than advertised" := by
  decide +kernel

/-- **Witness for C45.**  A client that has the current tree head rejects the honest response. -/
theorem C45_same_head_rejected_witness : toySearch 6 toyT2 (some toyState2) none = goErr "malformed proof" := by
  decide +kernel

/-! ### C44 -/

/-- What has to hold of a new tree head (`ts` is the timestamp of the rightmost log entry, `root` the root of the log,
`rootP` the root of the log at the size signed by the auditor). -/
structure HeadVerified (env : CEnv) (now : Nat) (state : Option ClientState) (fth : FullTreeHead) (th : TreeHead)
    (ts : Nat) (root rootP : Bytes) : Prop where
  signed : ∃ tbs, treeHeadTBS env.cfg th.treeSize root = .ok tbs ∧ env.sigVerify tbs th.signature = true
  notAhead : ts ≤ now + env.cfg.maxAhead
  notBehind : now ≤ ts + env.cfg.maxBehind
  notShrinking : ∀ s ∈ state, s.treeHead.treeSize ≤ th.treeSize
  auditor : ∀ a ∈ fth.auditor, a.timestamp ≤ ts ∧ ts ≤ a.timestamp + env.cfg.maxAuditorLag ∧
    a.treeSize ≤ th.treeSize ∧ env.cfg.auditorKey ≠ none ∧
    (∃ tbs, auditorTreeHeadTBS env.cfg a.timestamp a.treeSize rootP = .ok tbs ∧ env.auditorVerify tbs a.signature = true) ∧
    ∀ s ∈ state, ∃ old ∈ s.auditor, env.cfg.auditorStartPos ≤ old.treeSize

theorem retainedProvider_tsMap {state : Option ClientState} {proof : CombinedTreeProof} {p : Provider Received}
    (h : retainedProvider state proof = .ok p) : TsMap p.timestamps := by
  unfold retainedProvider at h
  cases state with
  | none => cases h; exact TsMap.nil
  | some s =>
    dsimp only at h
    split at h
    · cases h
    · next he =>
      cases h
      unfold Provider.addRetained at he
      have := (retainLoop_spec s.logEntries { newProvider (⟨proof, [], {}⟩ : Received) with
        fullSubtrees := s.fullSubtrees, logEntries := s.logEntries } TsMap.nil).1
      rw [he] at this
      exact this

theorem processSteps_timestamps {env : CEnv} {label : Bytes} {manual : List (Nat × Bytes)}
    {l : List (Nat × BinaryLadderStep)} {v w : Verifier} (h : processSteps env label manual l v = .ok w) :
    w.p.timestamps = v.p.timestamps := by
  induction l generalizing v with
  | nil => cases h; rfl
  | cons e l ih =>
    unfold processSteps at h
    obtain ⟨i, -, h⟩ := G.bind_eq_ok.1 h
    obtain ⟨o, -, h⟩ := G.bind_eq_ok.1 h
    obtain ⟨c, -, h⟩ := G.bind_eq_ok.1 h
    obtain ⟨u, h1, h⟩ := G.bind_eq_ok.1 h
    rw [ih h]
    unfold Verifier.addVersion at h1
    obtain ⟨s, -, h1⟩ := G.bind_eq_ok.1 h1
    cases h1
    rfl

theorem processLadder_timestamps {env : CEnv} {label : Bytes} {ladder : List BinaryLadderStep} {vers : List Nat}
    {manual : List (Nat × Bytes)} {v w : Verifier} (h : processLadder env label ladder vers manual v = .ok w) :
    w.p.timestamps = v.p.timestamps := by
  unfold processLadder at h
  split at h
  · cases h
  · exact processSteps_timestamps h

/-- a successful `UpdateView` on a nonempty tree has read the rightmost timestamp and found it in the window -/
theorem updateView_window {env : CEnv} {now : Nat} {v w : Verifier} (hm : TsMap v.p.timestamps) (hn : 0 < v.n)
    (h : v.updateView env now = .ok w) :
    TsMap w.p.timestamps ∧ ∃ ts, (v.n - 1, ts) ∈ w.p.timestamps ∧ ts ≤ now + env.cfg.maxAhead ∧
      now ≤ ts + env.cfg.maxBehind := by
  obtain ⟨-, hr⟩ := updateView_frame h
  obtain ⟨-, hm', hrun, ht, -⟩ := run_spec (Received.handle env.cs) (Alg.updateView env.cfg now v.n v.m) v.p hm
  rw [hr] at hm' hrun ht
  refine ⟨hm', ?_⟩
  generalize v.p.trace (Received.handle env.cs) (Alg.updateView env.cfg now v.n v.m) = tr at hrun ht
  unfold Alg.updateView at hrun
  rcases runs_ite.1 hrun with ⟨-, k1⟩ | ⟨-, k1⟩
  · exact absurd k1 runs_fail_ok
  rw [if_neg (by omega)] at k1
  obtain ⟨xs, t1, t2, e1, -, k2⟩ := runs_bind_ok.1 k1
  obtain ⟨-, t3, t4, e2, -, k3⟩ := runs_bind_ok.1 k2
  obtain ⟨ts, t5, t6, e3, h5, k4⟩ := runs_bind_ok.1 k3
  have h5 : t5 = [⟨.ts (v.n - 1), .ok ts⟩] := runs_call.1 h5
  refine ⟨ts, ht _ _ (by rw [e1, e2, e3, h5]; simp), ?_⟩
  rcases runs_ite.1 k4 with ⟨-, k5⟩ | ⟨c1, k5⟩
  · exact absurd k5 runs_fail_ok
  rcases runs_ite.1 k5 with ⟨-, k6⟩ | ⟨c2, k6⟩
  · exact absurd k6 runs_fail_ok
  exact ⟨by omega, by omega⟩

/-- `finish` adds no timestamps -/
theorem providerFinish_timestamps {cs : Log.Suite} {n : Nat} {nP m : Option Nat} {p q : Provider Received}
    {r : G Provider.Result} (h : p.finish cs (Received.handle cs) n nP m = (r, q)) : q.timestamps = p.timestamps := by
  unfold Provider.finish at h
  have hl : ((Provider.inspectedLeaves (Received.handle cs) p).2).timestamps = p.timestamps := by
    unfold Provider.inspectedLeaves
    dsimp only
    split
    · rfl
    · split <;> rfl
  split at h
  · next he => rw [← (Prod.mk.inj h).2, ← hl, he]
  · next p1 he =>
    rw [he] at hl
    split at h
    · rw [← (Prod.mk.inj h).2, ← hl]
    · split at h
      · rw [← (Prod.mk.inj h).2, ← hl]
      · rw [← (Prod.mk.inj h).2, ← hl]

/-- What a client does with a response between setting up the verifier and `updateView`: it adds the versions that it has
retained and processes binary ladders. -/
inductive Prepares (env : CEnv) : Verifier → Verifier → Prop where
  | refl (v : Verifier) : Prepares env v v
  | ladder {u v w : Verifier} {label : Bytes} {ladder : List BinaryLadderStep} {vers : List Nat} {manual : List (Nat × Bytes)} :
      Prepares env u v → processLadder env label ladder vers manual v = .ok w → Prepares env u w
  | retained {u v w : Verifier} {l : List RetainedVersion} :
      Prepares env u v → addRetainedVersions env l v = .ok w → Prepares env u w

/-- What it does after that: it runs algorithms, one after the other. -/
inductive Executes (env : CEnv) : Verifier → Verifier → Prop where
  | refl (v : Verifier) : Executes env v v
  | run {u v w : Verifier} {α : Type} {prog : Prog α} {a : α} :
      Executes env u v → v.run env prog = .ok (a, w) → Executes env u w

theorem addRetainedVersions_timestamps {env : CEnv} {l : List RetainedVersion} {v w : Verifier}
    (h : addRetainedVersions env l v = .ok w) : w.p.timestamps = v.p.timestamps := by
  induction l generalizing v with
  | nil => cases h; rfl
  | cons e l ih =>
    unfold addRetainedVersions at h
    obtain ⟨u, h1, h⟩ := G.bind_eq_ok.1 h
    rw [ih h]
    unfold Verifier.addVersion at h1
    obtain ⟨s, -, h1⟩ := G.bind_eq_ok.1 h1
    cases h1
    rfl

theorem Prepares.spec {env : CEnv} {v w : Verifier} (h : Prepares env v w) :
    Client.Frame v w ∧ w.p.timestamps = v.p.timestamps := by
  induction h with
  | refl => exact ⟨Client.Frame.refl v, rfl⟩
  | ladder _ h ih => exact ⟨ih.1.trans (processLadder_frame h), (processLadder_timestamps h).trans ih.2⟩
  | retained _ h ih => exact ⟨ih.1.trans (addRetainedVersions_frame h), (addRetainedVersions_timestamps h).trans ih.2⟩

theorem Executes.spec {env : CEnv} {v w : Verifier} (h : Executes env v w) (hm : TsMap v.p.timestamps) :
    Client.Frame v w ∧ TsMap w.p.timestamps ∧ ∀ e ∈ v.p.timestamps, e ∈ w.p.timestamps := by
  induction h with
  | refl => exact ⟨Client.Frame.refl v, hm, fun _ h => h⟩
  | @run v w α prog a _ h ih =>
    obtain ⟨f, m, g⟩ := ih
    have hg := run_spec (Received.handle env.cs) prog v.p m
    rw [(run_frame h).2] at hg
    exact ⟨f.trans (run_frame h).1, hg.2.1, fun e he => hg.1.ts e (g e he)⟩

theorem head_verified (env : CEnv) {now : Nat} {state : Option ClientState} {fth : FullTreeHead}
    {proof : CombinedTreeProof} {v0 v1 v2 v3 w : Verifier}
    {result : Provider.Result} {p : Provider Received} {root rootP : Bytes} {th : TreeHead}
    (h0 : newVerifier state (getLast state) fth proof = .ok v0) (h1 : Prepares env v0 v1)
    (h2 : v1.updateView env now = .ok v2) (h3 : Executes env v2 v3)
    (hf : v3.p.finish env.cs (Received.handle env.cs) v3.n v3.nP v3.m = (.ok result, p))
    (hroot : Log.root env.cs v3.n result.fullSubtrees = .ok root)
    (hv : verifyTreeHead env { v3 with p := p } root rootP = .ok w) (hth : fth.treeHead = some th) (hsz : th.treeSize < 2 ^ 64) :
    ∃ ts, (th.treeSize - 1, ts) ∈ p.timestamps ∧ HeadVerified env now state fth th ts root rootP := by
  obtain ⟨f01, ht01⟩ := h1.spec
  obtain ⟨e1, e2, e3, e4, e5, e6⟩ := newVerifier_ok h0
  have hn0 : v0.n = th.treeSize := by
    unfold treeSizeOf at e5
    rw [hth] at e5
    exact (Except.ok.inj e5).symm
  have f12 := (updateView_frame h2).1
  have hn3 : v3.n = th.treeSize := by
    have : v3.n = v2.n := by
      clear hv hf hroot
      induction h3 with
      | refl => rfl
      | run _ h ih => exact (run_frame h).1.n.trans ih
    rw [this, f12.n, f01.n, hn0]
  have hpos : 0 < th.treeSize := by
    rw [← hn3]
    unfold Log.root at hroot
    split at hroot
    · cases hroot
    · omega
  have hm0 := retainedProvider_tsMap e6
  have hm1 : TsMap v1.p.timestamps := by rw [ht01]; exact hm0
  obtain ⟨hm2, ts, hts, hw1, hw2⟩ := updateView_window hm1 (by rw [f01.n, hn0]; exact hpos) h2
  obtain ⟨f23, hm3, hgr⟩ := h3.spec hm2
  have f03 := (f01.trans f12).trans f23
  have hts3 := hgr _ hts
  rw [f01.n, hn0] at hts3
  have htp : (th.treeSize - 1, ts) ∈ p.timestamps := by rw [providerFinish_timestamps hf]; exact hts3
  have hmp : TsMap p.timestamps := by rw [providerFinish_timestamps hf]; exact hm3
  refine ⟨ts, htp, ?_⟩
  unfold verifyTreeHead at hv
  simp only [f03.fth, e2, hth] at hv
  split at hv
  · cases hv
  · obtain ⟨tbs, htbs, hv⟩ := G.bind_eq_ok.1 hv
    split at hv
    · cases hv
    · next hsig =>
      refine ⟨⟨tbs, by rw [← hn3]; exact htbs, by simpa using hsig⟩, hw1, hw2, ?_, ?_⟩
      · intro s hs
        have := updateView_size h2 s.treeHead.treeSize (by
          rw [f01.m, e3, getLast, Option.mem_def.1 hs]; rfl)
        rw [f01.n, hn0] at this
        exact this
      · intro a ha
        rw [Option.mem_def] at ha
        rw [ha] at hv
        dsimp only at hv
        unfold verifyAuditor at hv
        obtain ⟨u, hst, hv⟩ := G.bind_eq_ok.1 hv
        dsimp only at hst hv
        have hsub : sub64 v3.n 1 = th.treeSize - 1 := by
          rw [hn3]; unfold sub64; omega
        have hget : (Provider.getTimestamp (Received.handle env.cs) (th.treeSize - 1) p) = (.ok ts, p) := by
          unfold Provider.getTimestamp
          rw [lookup_of_mem hmp.1 htp]
        rw [hsub, hget] at hv
        dsimp only at hv
        split at hv
        · cases hv
        · split at hv
          · cases hv
          · split at hv
            · cases hv
            · obtain ⟨tbs', h7, hv⟩ := G.bind_eq_ok.1 hv
              split at hv
              · cases hv
              · next hk =>
                split at hv
                · cases hv
                · next hsig' =>
                  refine ⟨by omega, by omega, by omega, hk, ⟨tbs', h7, by simpa using hsig'⟩, ?_⟩
                  intro s hs
                  rw [f03.state, e1, Option.mem_def.1 hs] at hst
                  dsimp only at hst
                  split at hst
                  · cases hst
                  · next old hold =>
                    split at hst
                    · cases hst
                    · exact ⟨old, hold, by omega⟩

/-- **C44.**  A response that comes from the network, that is, whose tree head has been decoded.  If the checks of the response
pass — whatever versions and ladders have been added before `updateView`, whatever algorithms have been run after it, so for
searches, owner initializations, monitoring and updates alike — and it has a new tree head, then the head is signed, fresh
and not smaller than the client's; and if the log is audited, then there is an auditor's head, which is signed by the auditor
and not too old. -/
theorem C44_decoded (env : CEnv) {now : Nat} {state : Option ClientState} {fth : FullTreeHead}
    {proof : CombinedTreeProof} {v0 v1 v2 v3 w : Verifier}
    {result : Provider.Result} {p : Provider Received} {root rootP : Bytes} {th : TreeHead} {b rest : Bytes}
    (hb : newFullTreeHead env.cfg b = .ok (fth, rest))
    (h0 : newVerifier state (getLast state) fth proof = .ok v0) (h1 : Prepares env v0 v1)
    (h2 : v1.updateView env now = .ok v2) (h3 : Executes env v2 v3)
    (hf : v3.p.finish env.cs (Received.handle env.cs) v3.n v3.nP v3.m = (.ok result, p))
    (hroot : Log.root env.cs v3.n result.fullSubtrees = .ok root)
    (hv : verifyTreeHead env { v3 with p := p } root rootP = .ok w) (hth : fth.treeHead = some th) :
    (∃ ts, (th.treeSize - 1, ts) ∈ p.timestamps ∧ HeadVerified env now state fth th ts root rootP) ∧
    (env.cfg.mode = thirdPartyAuditing → ∃ a, fth.auditor = some a) := by
  obtain ⟨⟨t1, -, t3⟩, -⟩ := (codec_fullTreeHead env.cfg).canon _ _ _ hb
  refine ⟨head_verified env h0 h1 h2 h3 hf hroot hv hth ?_, ?_⟩
  · exact lt_of_lt_of_eq (t1 th hth) (by norm_num)
  · intro hm
    exact Option.isSome_iff_exists.1 (t3.2 ⟨by rw [hth]; rfl, hm⟩)

/-- **The auditor's head may go back.**  Apart from the start position, an auditor's head is not compared with the one that the
client has retained: a head with an earlier timestamp and a smaller size is accepted whenever a client without state accepts
it. -/
theorem C44_auditor_goes_back (env : CEnv) (v : Verifier) (s : ClientState) (a old : AuditorTreeHead) (rootP : Bytes)
    (hold : s.auditor = some old) (hstart : env.cfg.auditorStartPos ≤ old.treeSize) :
    (verifyAuditor env { v with state := some s } a rootP).isOk = (verifyAuditor env { v with state := none } a rootP).isOk := by
  unfold verifyAuditor
  simp only [hold, if_neg (show ¬ old.treeSize < env.cfg.auditorStartPos by omega), G.pure_eq, G.ok_bind]
  split
  · rfl
  · split
    · rfl
    · split
      · rfl
      · split
        · rfl
        · cases auditorTreeHeadTBS env.cfg a.timestamp a.treeSize rootP with
          | error e => rfl
          | ok tbs =>
            simp only [G.ok_bind]
            split
            · rfl
            · split
              · rfl
              · rfl

/-- the steps of `C44_decoded` for a new client and a server with an auditor's head: the tree head is written and read again -/
def toyAuditedChecks : G (FullTreeHead × Bytes × Nat) := do
  let res ← Server.search toyEnv 6 { toyT2 with auditor := some ⟨6, 2, [0]⟩ } ⟨none, [10], some 0⟩
  let b ← res.fullTreeHead.marshal
  let (fth, rest) ← newFullTreeHead toyClient.cfg b
  let v0 ← newVerifier none (getLast none) fth res.search
  let l ← searchBinaryLadder 0 0 [] []
  let c ← computeCommitment toyClient res.opening [10] 0 res.value
  let v1 ← processLadder toyClient [10] res.binaryLadder l [(0, c)] v0
  let v2 ← v1.updateView toyClient 6
  let (_, v3) ← v2.run toyClient (fixedVersionSearch toyClient.cfg 0 v2.n)
  match v3.p.finish toySuite (Received.handle toySuite) v3.n v3.nP v3.m with
  | (.error e, _) => .error e
  | (.ok result, p) => do
    let root ← Log.root toySuite v3.n result.fullSubtrees
    let rootP ← auditorRoot toyClient v3.nP result.additional
    let _ ← verifyTreeHead toyClient { v3 with p := p } root rootP
    pure (fth, rest, toyClient.cfg.mode)

/-- they all succeed, in auditing mode -/
example : toyAuditedChecks = .ok (⟨some ⟨2, [244]⟩, some ⟨6, 2, [0]⟩⟩, [], thirdPartyAuditing) := by decide +kernel

/-- an auditor's head of size 1 and time 6 is accepted by a client that has one of size 2 and time 6 -/
example : (verifyAuditor toyClient
    ⟨some toyState2, ⟨some ⟨2, []⟩, some ⟨6, 1, []⟩⟩, { newProvider (⟨⟨[], [], [], []⟩, [], {}⟩ : Received) with timestamps := [(1, 6)] }, 2, some 1, some 2⟩
    ⟨6, 1, []⟩ [0]).isOk = true ∧ toyState2.auditor = some ⟨6, 2, [0]⟩ ∧ toyClient.cfg.auditorStartPos ≤ 2 := by decide +kernel

/-- **C44 rests on the decoder.**  In auditing mode a response without an auditor's tree head is accepted.  (`decode` of a
response with a new tree head always reads one in this mode, so such a response does not come from the network.) -/
theorem C44_missing_auditor_head (env : CEnv) (v : Verifier) (th : TreeHead) (root rootP tbs : Bytes)
    (hs : v.state = none) (hth : v.fth.treeHead = some th) (ha : v.fth.auditor = none)
    (ht : treeHeadTBS env.cfg v.n root = .ok tbs) (hsig : env.sigVerify tbs th.signature = true) :
    verifyTreeHead env v root rootP = .ok v := by
  unfold verifyTreeHead
  rw [hth, hs, ha]
  simp [ht, hsig]

/-! ### C45 -/

theorem getAll_length {cs : Log.Suite} : ∀ {l : List Nat} {s : Log.ChunkSet} {vs : List Bytes},
    Log.getAll cs s l = .ok vs → vs.length = l.length
  | [], _, _, h => by cases h; rfl
  | x :: l, s, vs, h => by
    unfold Log.getAll at h
    obtain ⟨⟨d, s'⟩, -, h⟩ := G.bind_eq_ok.1 h
    obtain ⟨rest, h1, h⟩ := G.bind_eq_ok.1 h
    cases h
    simp [getAll_length h1]

/-- **C45 is false.**  Take the proof that the server computes without a previous tree (`GetBatch` with `m = nil`) and
a verifier that retains the current tree, as it is when the client already has the current tree head.  If one of the
maximal complete subtrees of the log, over the leaves `q.1 … q.1 + q.2 - 1`, has no newly inspected leaf, then the proof
is rejected, whatever the values of the leaves are. -/
theorem C45_same_head_rejected {cs : Log.Suite} {st : Log.LStore} {entries : List Nat} {n : Nat} {proof : List Bytes}
    (hb : Log.getBatch cs st entries n none none = .ok proof) {fs : List Bytes} {v : Log.Verifier}
    (hv : Log.retain cs n fs = .ok v) (values : List Bytes) {q : Nat × Nat} (hq : q ∈ fsList 0 n)
    (hno : ∀ x ∈ entries, ¬ (q.1 ≤ x ∧ x < q.1 + q.2)) : Errs (Log.evaluate cs v entries n none values proof) := by
  unfold Log.getBatch at hb
  split at hb
  · cases hb
  next hn =>
  simp only [Option.any_none, Bool.false_eq_true, if_false] at hb
  split at hb
  · cases hb
  next hlt =>
  split at hb
  · cases hb
  obtain ⟨cop, hcop, hb⟩ := G.bind_eq_ok.1 hb
  unfold Log.fetchSpecific at hb
  obtain ⟨set, -, hb⟩ := G.bind_eq_ok.1 hb
  have hlen := getAll_length hb
  rw [batchCopath_congr (fun x => sortNat_mem)] at hcop
  have hx : ∀ x ∈ entries, x < n := by
    intro x hx
    by_contra hc
    apply hlt
    simp only [List.any_eq_true, decide_eq_true_eq]
    exact ⟨x, sortNat_mem.2 hx, by omega⟩
  unfold Log.retain at hv
  split at hv
  · cases hv
  obtain ⟨subs, hsubs, hv⟩ := G.bind_eq_ok.1 hv
  split at hv
  · cases hv
  split at hv
  · cases hv
  cases hv
  obtain ⟨l, hl1, hl2, hl3⟩ := fs_full_nodes (k := n) (n := n) (by omega) (le_refl _)
  obtain ⟨a, c, ea, ec, -, hlt', -⟩ := copath_same (n := n) n 0 (2 * n + 2)
    (sortDedup (entries.map (2 * ·))) (sortDedup (entries.map (2 * ·) ++ l)) (Sub.root (by omega)) (by omega)
    (sortDedup_sorted _) (sortDedup_sorted _) (by
      intro y hy
      rw [sortDedup_mem] at hy
      obtain ⟨x, hx', rfl⟩ := List.mem_map.1 hy
      have := hx x hx'
      exact ⟨⟨by omega, by omega⟩, by simp⟩) (by
      intro y
      rw [sortDedup_mem, sortDedup_mem, List.mem_append, hl2])
  have hlt'' := hlt' ⟨q, hq, by
    intro y hy hr
    rw [sortDedup_mem] at hy
    obtain ⟨x, hx', rfl⟩ := List.mem_map.1 hy
    have hr : 2 * q.1 ≤ 2 * x ∧ 2 * x < 2 * (q.1 + q.2) - 1 := hr
    exact hno x hx' ⟨by omega, by omega⟩⟩
  have hca : cop = a := by
    unfold batchCopath at hcop
    simp only [G.pure_eq, G.ok_bind, List.append_nil] at hcop
    rw [root_eq (by omega), ea] at hcop
    exact (Except.ok.inj hcop).symm
  have hcc : batchCopath entries n none (some n) = .ok c := by
    unfold batchCopath
    simp only [G.pure_eq, G.ok_bind, hl1, List.append_nil]
    rw [root_eq (by omega), ec]
  unfold Log.evaluate
  rw [if_neg hn]
  simp only [Option.any_none, Bool.false_eq_true, if_false]
  split
  · exact ⟨_, rfl⟩
  split
  · exact ⟨_, rfl⟩
  rw [hcc, G.ok_bind, if_pos]
  · exact ⟨_, rfl⟩
  · rw [hlen, hca]; omega

/-- if the log has odd size, the last leaf is one of its maximal complete subtrees -/
theorem fsList_odd : ∀ (s lo : Nat), s % 2 = 1 → (lo + s - 1, 1) ∈ fsList lo s := by
  intro s
  induction s using Nat.strong_induction_on with
  | _ s ih =>
    intro lo h
    by_cases h1 : s ≤ 1
    · have : s = 1 := by omega
      subst this
      rw [fsList_full (Or.inl h1)]; simp
    · have hne : s ≠ 2 * half s := by omega
      have hp := half_pos s
      have hl := half_lt (s := s) (by omega)
      have heven : half s % 2 = 0 := by
        rcases half_full s with h' | h'
        · have := (half_spec (s := s) (by omega)).2.2
          omega
        · omega
      rw [fsList_step h1 hne]
      have := ih (s - half s) (by omega) (lo + half s) (by omega)
      rw [show lo + half s + (s - half s) - 1 = lo + s - 1 by omega] at this
      exact List.mem_cons_of_mem _ this

/-- **C45, every odd size.**  For every log of odd size: the client has retained the last log entry, so that it is
never newly inspected, and every proof for the unchanged tree is rejected. -/
theorem C45_odd_size_rejected {cs : Log.Suite} {st : Log.LStore} {entries : List Nat} {n : Nat} (hodd : n % 2 = 1)
    (hlast : n - 1 ∉ entries) {proof : List Bytes} (hb : Log.getBatch cs st entries n none none = .ok proof)
    {fs : List Bytes} {v : Log.Verifier} (hv : Log.retain cs n fs = .ok v) (values : List Bytes) :
    Errs (Log.evaluate cs v entries n none values proof) := by
  refine C45_same_head_rejected hb hv values (q := (n - 1, 1)) ?_ ?_
  · have := fsList_odd n 0 hodd
    rwa [Nat.zero_add] at this
  · rintro x hx ⟨h1, h2⟩
    have : x = n - 1 := by simp only at h1 h2; omega
    exact hlast (this ▸ hx)

/-- if every maximal complete subtree has a newly inspected leaf, the two copaths are the same -/
theorem batchCopath_same {n : Nat} (h0 : 0 < n) {entries : List Nat} (hx : ∀ x ∈ entries, x < n)
    (hall : ∀ q ∈ fsList 0 n, ∃ x ∈ entries, q.1 ≤ x ∧ x < q.1 + q.2) :
    batchCopath entries n none none = batchCopath entries n none (some n) := by
  obtain ⟨l, hl1, hl2, hl3⟩ := fs_full_nodes (k := n) (n := n) h0 (le_refl _)
  obtain ⟨a, c, ea, ec, -, -, heq⟩ := copath_same (n := n) n 0 (2 * n + 2)
    (sortDedup (entries.map (2 * ·))) (sortDedup (entries.map (2 * ·) ++ l)) (Sub.root h0) (by omega)
    (sortDedup_sorted _) (sortDedup_sorted _) (by
      intro y hy
      rw [sortDedup_mem] at hy
      obtain ⟨x, hx', rfl⟩ := List.mem_map.1 hy
      have := hx x hx'
      exact ⟨⟨by omega, by omega⟩, by simp⟩) (by
      intro y
      rw [sortDedup_mem, sortDedup_mem, List.mem_append, hl2])
  have hac := heq (by
    intro q hq
    obtain ⟨x, hxm, h1, h2⟩ := hall q hq
    refine ⟨2 * x, (sortDedup_mem).2 (List.mem_map.2 ⟨x, hxm, rfl⟩), ?_⟩
    show 2 * q.1 ≤ 2 * x ∧ 2 * x < 2 * (q.1 + q.2) - 1
    omega)
  unfold batchCopath
  simp only [G.pure_eq, G.ok_bind, hl1, List.append_nil]
  rw [root_eq h0, ea, ec, hac]

/-- **C45 (partial): exactly when the proof for the unchanged tree is accepted.**  For the store of every log `L` (and of
every longer one) and every set of newly inspected leaves: the server's proof without a previous tree is accepted by a
verifier that retains the current tree iff every maximal complete subtree of the log has a newly inspected leaf; and if
it is accepted, the verifier computes the right subtrees. -/
theorem C45_accepted_iff_partial {cs : Log.Suite} (hcs : cs.Good) (L M : List Bytes)
    (hL : ∀ v ∈ L ++ M, v.length = cs.hashSize) (hmax : (L ++ M).length ≤ 2 ^ 63) (h0 : 0 < L.length)
    {st : Log.LStore} (hst : Log.StoreOK cs (L ++ M) st) (entries : List Nat) (hnd : entries.Nodup)
    (he : ∀ x ∈ entries, x < L.length) :
    ∃ proof v, Log.getBatch cs st entries L.length none none = .ok proof ∧
      Log.retain cs L.length (heads cs.H L) = .ok v ∧
      ((∃ res, Log.evaluate cs v entries L.length none (entries.map fun x => L.getD x []) proof = .ok res) ↔
        ∀ q ∈ fsList 0 L.length, ∃ x ∈ entries, q.1 ≤ x ∧ x < q.1 + q.2) ∧
      ∀ res, Log.evaluate cs v entries L.length none (entries.map fun x => L.getD x []) proof = .ok res →
        res.fullSubtrees = heads cs.H L ∧ Log.root cs L.length res.fullSubtrees = .ok (rootHash cs.H L) := by
  obtain ⟨proof, -, -, hb, -⟩ := C04_stored_log hcs L M hL hmax h0 hst entries hnd he none none (by simp) (by simp)
  obtain ⟨proof', v, res, hb', hv, hev, hf, hr, -⟩ := C04_stored_log hcs L M hL hmax h0 hst entries hnd he none
    (some L.length) (by simp) (by intro k hk; cases hk; exact ⟨h0, le_refl _⟩)
  have hv' : Log.retain cs L.length (heads cs.H L) = .ok v := by
    have : L.take L.length = L := List.take_length
    simpa [verifierFor, this] using hv
  have key : (∀ q ∈ fsList 0 L.length, ∃ x ∈ entries, q.1 ≤ x ∧ x < q.1 + q.2) →
      Log.evaluate cs v entries L.length none (entries.map fun x => L.getD x []) proof = .ok res := by
    intro hall
    have hsame : Log.getBatch cs st entries L.length none none = Log.getBatch cs st entries L.length none (some L.length) := by
      unfold Log.getBatch
      simp only [Option.any_none, Option.any_some]
      rw [batchCopath_congr (m := none) (fun x => sortNat_mem), batchCopath_congr (m := some L.length) (fun x => sortNat_mem),
        batchCopath_same h0 he hall]
      have hlm : ¬ (L.length = 0 ∨ L.length > maxTreeSize) := by
        intro hc
        unfold Log.getBatch at hb
        rw [if_pos hc] at hb
        cases hb
      have : decide (L.length = 0 ∨ L.length > L.length ∨ L.length > maxTreeSize) = false :=
        decide_eq_false (by omega)
      simp only [if_neg hlm, this]
    rw [hsame, hb'] at hb
    cases hb
    exact hev
  refine ⟨proof, v, hb, hv', ⟨?_, fun hall => ⟨res, key hall⟩⟩, ?_⟩
  · rintro ⟨res', hev'⟩ q hq
    by_contra hno
    obtain ⟨m, hm⟩ := C45_same_head_rejected hb hv' (entries.map fun x => L.getD x []) hq
      (fun x hx hc => hno ⟨x, hx, hc⟩)
    rw [hev'] at hm
    cases hm
  · intro res' hev'
    have hall : ∀ q ∈ fsList 0 L.length, ∃ x ∈ entries, q.1 ≤ x ∧ x < q.1 + q.2 := by
      intro q hq
      by_contra hno
      obtain ⟨m, hm⟩ := C45_same_head_rejected hb hv' (entries.map fun x => L.getD x []) hq
        (fun x hx hc => hno ⟨x, hx, hc⟩)
      rw [hev'] at hm
      cases hm
    rw [key hall] at hev'
    cases hev'
    exact ⟨hf, hr⟩

/-- the hypotheses hold, and the proof is accepted: a log of four leaves, leaf 1 newly inspected -/
example : ∃ st o proof v, storeMany toySuite [] 0 [[9], [10], [11], [12]] = .ok (st, o) ∧
    Log.getBatch toySuite st [1] 4 none none = .ok proof ∧
    Log.retain toySuite 4 (heads toySuite.H [[9], [10], [11], [12]]) = .ok v ∧
    ∃ res, Log.evaluate toySuite v [1] 4 none [[10]] proof = .ok res := by
  obtain ⟨st, h1, h2⟩ := storeMany_ok toySuite_good [[9], [10], [11], [12]] [] [] (by decide) (by decide +kernel) Log.storeOK_nil
  obtain ⟨proof, v, h3, h4, h5, -⟩ := C45_accepted_iff_partial toySuite_good [[9], [10], [11], [12]] [] (by decide)
    (by decide) (by decide) h2 [1] (by decide) (by decide)
  refine ⟨st, _, proof, v, h1, h3, h4, h5.2 ?_⟩
  intro q hq
  rw [show fsList 0 ([[9], [10], [11], [12]] : List Bytes).length = [(0, 4)] from fsList_full (Or.inr (by decide)), List.mem_singleton] at hq
  subst hq
  exact ⟨1, by decide, by decide, by decide⟩

/-- the hypotheses of both hold: a log of three leaves, nothing newly inspected, or only the first leaf -/
example :
    (do let (st, _) ← storeMany toySuite [] 0 [[9], [10], [11]]
        let p0 ← Log.getBatch toySuite st [] 3 none none
        let p1 ← Log.getBatch toySuite st [0] 3 none none
        let v ← Log.retain toySuite 3 [[31], [11]]
        pure (p0.length, p1.length, v.prev)) = .ok (2, 2, some 3) := by decide +kernel

/-- the example of a response about an unchanged tree that is accepted: the only complete subtree has a newly inspected
leaf -/
example : (toySearch 6 toyT2 (some toyState2) (some 0)).isOk = true := by decide +kernel

end Katie.Props
