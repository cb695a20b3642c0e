import Verif.Lemmas.ClientSound
import Verif.Props.C26_C27_Search

/-
C60: what a client accepts as the answer to a search is in the log that the tree head commits to.

The log is `W`, a list of timestamps and maps (Verif/Spec/Committed.lean).  `out v` is the VRF output of version `v` of
the label, and `g x` the greatest version in entry `x`.  The server is not modelled here: the response is any value of
the right type.
-/

namespace Katie.Props
open Katie Katie.Wire Katie.Alg Katie.Ladder Katie.Server Katie.Client Katie.CommittedSpec Katie.SearchTree Katie.SearchSpec

/-- The setting: a log, a label in it, and a VRF for which no proof of another output of one of the label's versions is
accepted. -/
structure Setting (env : CEnv) (label : Bytes) (W : List Content) (out : Nat → Bytes) (g : Nat → Int) : Prop where
  suite : env.cs.Good
  log : IsLog env.cs W
  lab : LabelIn W out g
  vrf : ∀ v i o pr, v < 2 ^ 32 → vrfInput label v = .ok i → env.vrfVerify i pr = .ok o → o = out v

/-- entry `x` of the log has `com` as the commitment of version `v` -/
def Committed (W : List Content) (out : Nat → Bytes) (v : Nat) (com : Bytes) (x : Nat) : Prop :=
  ∃ c, W[x]? = some c ∧ (out v, com) ∈ c.map

/-- the retained part of a client's state is that of the log -/
structure Retains (cs : Log.Suite) (W : List Content) (fullSubtrees : List Bytes) (logEntries : List (Nat × LogEntry)) :
    Prop where
  heads : fullSubtrees = LogSpec.heads cs.H (leaves cs W)
  entries : ∀ e ∈ logEntries, ∃ c, W[e.1]? = some c ∧ e.2 = c.entry cs

/-- **C60 (partial), a search for the greatest version.**  The client makes its checks: it verifies the VRF proofs and
computes the commitment of the target, updates its view, runs the search on the received proof, and checks the inclusion
proof against the root of `W`, which is what the tree head signs.  If all of that succeeds, the target is the greatest
version of the label in the last entry of `W`, the commitment to the received value is the one in `W`, and what the
client retains is `W`'s; or two of the strings hashed are a collision.  (What is missing: the proviso `Consistent`.
Without it the claim is false, see `C60_stale_accepted`.) -/
theorem C60_greatest_partial {env : CEnv} {label : Bytes} {W : List Content} {out : Nat → Bytes} {g : Nat → Int}
    (hS : Setting env label W out g) {now : Nat} {state : Option ClientState} {last : Option Nat} {fth : FullTreeHead}
    {proof : CombinedTreeProof} (hwire : FromWire env.cs proof) (hst : EntriesOk env.cs W state)
    {target terminal : Nat} {vers : List Nat} {ladder : List BinaryLadderStep} {com : Bytes} {v0 v1 v2 v3 : Verifier}
    {result : Provider.Result} {p : Provider Received} (ht : target < 2 ^ 32)
    (hl : searchBinaryLadder target target [] [] = .ok vers)
    (h0 : newVerifier state last fth proof = .ok v0)
    (h1 : processLadder env label ladder vers [(target, com)] v0 = .ok v1)
    (h2 : v1.updateView env now = .ok v2)
    (h3 : v2.run env (greatestVersionSearch env.cfg target v2.n) = .ok (terminal, v3))
    (hclean : ∀ e ∈ Provider.evals env.cs (greatestVersionSearch env.cfg target v2.n) v2.p, Consistent e.1 e.2)
    (hf : v3.p.finish env.cs (Received.handle env.cs) v3.n v3.nP v3.m = (.ok result, p)) (hn : v3.n = W.length)
    (hroot : Log.root env.cs v3.n result.fullSubtrees = .ok (logRoot env.cs W)) :
    ((target : Int) = g (W.length - 1) ∧ Committed W out target com terminal ∧
      Retains env.cs W result.fullSubtrees result.logEntries) ∨
    HashBroken env.cs (logStrings env.cs W) (finishStrings env.cs v3.n v3.nP v3.m v3.p ++
      proofStrings env.cs (Provider.evals env.cs (greatestVersionSearch env.cfg target v2.n) v2.p)) := by
  obtain ⟨hF02, hR, -⟩ := setup hS.log.toWellFormed hst h0 h1 h2
  have hF23 := (run_frame h3).1
  have hr := (run_frame h3).2
  have hn2 : v2.n = W.length := by rw [← hF23.n]; exact hn
  obtain ⟨hpos, hmax⟩ := logRoot_size hroot
  have hpos' : 0 < W.length := by rw [← hn]; exact hpos
  have h64 : W.length < 2 ^ 64 := by rw [← hn]; unfold LogMath.maxTreeSize at hmax; omega
  have hmn : ∀ k ∈ v3.m, k ≤ v3.n := by
    have := updateView_size h2
    rw [hF23.m, hF23.n, (updateView_frame h2).1.m, (updateView_frame h2).1.n]
    exact this
  obtain ⟨g3, m3, hruns, -⟩ := run_spec (Received.handle env.cs) (greatestVersionSearch env.cfg target v2.n) v2.p hR.ts
  rw [hr] at g3 m3 hruns
  rcases after hS.suite hS.log hS.lab hS.vrf hwire (searchBinaryLadder_lt hl) hR hclean h3 hn hmn hf hroot with
    ⟨hL, hT, hC⟩ | hB
  swap
  · exact Or.inr hB
  left
  -- the timestamps of the frontier are known
  obtain ⟨f, hf1, hf2⟩ := finish_frontier m3 hf
  obtain ⟨f', hf3, hf4, -, -, hf5⟩ := frontier_spine hpos' h64
  rw [hn, hf3] at hf1
  have hff := Except.ok.inj hf1
  subst hff
  rw [hn2] at hr h3 hruns hT hC
  have hall := greatest_allOk (Received.handle env.cs) (cfg := env.cfg) (ver := target) (r := terminal) hpos' hR.ts
    (by rw [hr]) (by rw [hr]; exact fun y hy => hf2 y ((hf4 y).2 hy)) (by rw [hr]; exact hf2 _ hf5)
  obtain ⟨hok, dle, tr1, tr2, e1, e2, e3⟩ := hall
  have hreads := (greatestVersionSearch_reads (cfg := env.cfg) (ver := target) (n := W.length)).runs hruns
  have hfacts := client_facts (cs := env.cs) (greatestVersionSearch env.cfg target W.length) v2.p [] hR.ts hR.inv hR.times
    (by rw [hR.tracker]; exact TrackedBy.nil) (fun e he => ⟨hreads e he, hok e he⟩) v3.p
    (by rw [hr]; exact Grows.refl _) (E := Provider.evals env.cs (greatestVersionSearch env.cfg target W.length) v2.p)
    (fun e he => he)
  obtain ⟨hag, hx, hsh⟩ := greatestVersionSearch_facts (stop := fun _ _ => false) hpos' (timeAt_good hS.log) hS.lab.grows
    hT ht e1 e2 e3 hfacts
  have hev := hruns.eval_eq hag
  obtain ⟨k1, -, -⟩ := C26_accepted_is_greatest hpos' (timeAt_good hS.log) hS.lab.grows hev
  obtain ⟨c, k, com', k2, k3, k4, k5⟩ := hC _ _ hx hsh
  have k6 := (hR.known _ _ k3).com k4
  subst k6
  exact ⟨k1, ⟨c, k2, k5⟩, hL.heads, hL.entries⟩

/-- **C60 (partial), a search for a given version.**  The same for a search for a given version: the position found is
a terminal entry for it, and the commitment to the received value is the one in `W`. -/
theorem C60_fixed_partial {env : CEnv} {label : Bytes} {W : List Content} {out : Nat → Bytes} {g : Nat → Int}
    (hS : Setting env label W out g) {now : Nat} {state : Option ClientState} {last : Option Nat} {fth : FullTreeHead}
    {proof : CombinedTreeProof} (hwire : FromWire env.cs proof) (hst : EntriesOk env.cs W state)
    {target terminal : Nat} {vers : List Nat} {ladder : List BinaryLadderStep} {com : Bytes} {v0 v1 v2 v3 : Verifier}
    {result : Provider.Result} {p : Provider Received} (ht : target < 2 ^ 32)
    (hl : searchBinaryLadder target target [] [] = .ok vers)
    (h0 : newVerifier state last fth proof = .ok v0)
    (h1 : processLadder env label ladder vers [(target, com)] v0 = .ok v1)
    (h2 : v1.updateView env now = .ok v2)
    (h3 : v2.run env (fixedVersionSearch env.cfg target v2.n) = .ok (terminal, v3))
    (hclean : ∀ e ∈ Provider.evals env.cs (fixedVersionSearch env.cfg target v2.n) v2.p, Consistent e.1 e.2)
    (hf : v3.p.finish env.cs (Received.handle env.cs) v3.n v3.nP v3.m = (.ok result, p)) (hn : v3.n = W.length)
    (hroot : Log.root env.cs v3.n result.fullSubtrees = .ok (logRoot env.cs W)) :
    (Terminal env.cfg (timeAt W) g W.length target terminal ∧ Committed W out target com terminal ∧
      Retains env.cs W result.fullSubtrees result.logEntries) ∨
    HashBroken env.cs (logStrings env.cs W) (finishStrings env.cs v3.n v3.nP v3.m v3.p ++
      proofStrings env.cs (Provider.evals env.cs (fixedVersionSearch env.cfg target v2.n) v2.p)) := by
  obtain ⟨hF02, hR, -⟩ := setup hS.log.toWellFormed hst h0 h1 h2
  have hF23 := (run_frame h3).1
  have hr := (run_frame h3).2
  have hn2 : v2.n = W.length := by rw [← hF23.n]; exact hn
  obtain ⟨hpos, hmax⟩ := logRoot_size hroot
  have hpos' : 0 < W.length := by rw [← hn]; exact hpos
  have hmn : ∀ k ∈ v3.m, k ≤ v3.n := by
    have := updateView_size h2
    rw [hF23.m, hF23.n, (updateView_frame h2).1.m, (updateView_frame h2).1.n]
    exact this
  obtain ⟨g3, m3, hruns, -⟩ := run_spec (Received.handle env.cs) (fixedVersionSearch env.cfg target v2.n) v2.p hR.ts
  rw [hr] at g3 m3 hruns
  rcases after hS.suite hS.log hS.lab hS.vrf hwire (searchBinaryLadder_lt hl) hR hclean h3 hn hmn hf hroot with
    ⟨hL, hT, hC⟩ | hB
  swap
  · exact Or.inr hB
  left
  rw [hn2] at hr h3 hruns hT hC
  have hok : ∀ e ∈ v2.p.trace (Received.handle env.cs) (fixedVersionSearch env.cfg target W.length), ∃ a, e.a = .ok a := by
    exact (fixedVersionSearch_noCatch (cfg := env.cfg) (ver := target) (n := W.length)).runs hruns
  have hreads := (fixedVersionSearch_reads (cfg := env.cfg) (ver := target) (n := W.length)).runs hruns
  have hfacts := client_facts (cs := env.cs) (fixedVersionSearch env.cfg target W.length) v2.p [] hR.ts hR.inv hR.times
    (by rw [hR.tracker]; exact TrackedBy.nil) (fun e he => ⟨hreads e he, hok e he⟩) v3.p
    (by rw [hr]; exact Grows.refl _) (E := Provider.evals env.cs (fixedVersionSearch env.cfg target W.length) v2.p)
    (fun e he => he)
  obtain ⟨hag, hx, hsh⟩ := fixedVersionSearch_facts (stop := fun _ _ => false) hpos' hS.lab.grows hT ht hruns hfacts
  have hev := hruns.eval_eq hag
  obtain ⟨c, k, com', k2, k3, k4, k5⟩ := hC _ _ hx hsh
  have k6 := (hR.known _ _ k3).com k4
  subst k6
  refine ⟨?_, ⟨c, k2, k5⟩, hL.heads, hL.entries⟩
  rcases C27_fixed_version_partial (cfg := env.cfg) (stop := fun _ _ => false) (timeAt_good hS.log) hS.lab.grows hpos'
    target with ⟨p, h, h', -⟩ | ⟨h, -⟩ | ⟨h, -⟩
  · rw [hev] at h; cases h; exact h'
  · rw [hev] at h; cases h
  · rw [hev] at h; cases h

/-! ### the client's own function -/

/-- The version that a response is about: the one that was asked for, or, if the greatest one was asked for, the one that the server
names. -/
def AnswerFor (req : SearchRequest) (res : SearchResponse) (version : Nat) : Prop :=
  req.version = some version ∨ (req.version = none ∧ res.version = some version)

theorem targetOf_iff {req : SearchRequest} {res : SearchResponse} {t : Nat} : targetOf req res = .ok t ↔ AnswerFor req res t := by
  unfold targetOf AnswerFor
  cases req.version with
  | some v => simp [G.pure_eq]
  | none =>
    cases res.version with
    | some v => simp [G.pure_eq]
    | none => simp [goErr]

/-- the steps of `verifySearch` up to the search: the verifier before and after it, and the program -/
def searchSteps (env : CEnv) (now : Nat) (state : Option ClientState) (req : SearchRequest) (res : SearchResponse) :
    G (Prog Nat × Verifier × Verifier) := do
  let v ← newVerifier state req.last res.fullTreeHead res.search
  let target ← targetOf req res
  let ladder ← searchBinaryLadder target target [] []
  let com ← computeCommitment env res.opening req.label target res.value
  let v ← processLadder env req.label res.binaryLadder ladder [(target, com)] v
  let v2 ← v.updateView env now
  let prog := if req.version = none then greatestVersionSearch env.cfg target v2.n
    else fixedVersionSearch env.cfg target v2.n
  let (_, v3) ← v2.run env prog
  pure (prog, v2, v3)

/-- the prefix proofs that the client evaluates, each with the entries it evaluates it for -/
def searchEvals (env : CEnv) (now : Nat) (state : Option ClientState) (req : SearchRequest) (res : SearchResponse) :
    List (List Prefix.Entry × Prefix.Proof) :=
  match searchSteps env now state req res with
  | .ok (prog, v2, _) => Provider.evals env.cs prog v2.p
  | .error _ => []

/-- the strings hashed by the client when it verifies the response to a search (those for the log and the prefix trees) -/
def searchStrings (env : CEnv) (now : Nat) (state : Option ClientState) (req : SearchRequest) (res : SearchResponse) :
    List Bytes :=
  match searchSteps env now state req res with
  | .ok (_, _, v3) => finishStrings env.cs v3.n v3.nP v3.m v3.p ++ proofStrings env.cs (searchEvals env now state req res)
  | .error _ => []

/-- **C60 (partial), the client's `search`.**  The client has a state that is right for the log `W`, and `verifySearch`
(the part of `search` up to the update of the label's state) accepts a response.  Then the response has no new tree head
(a new one is never accepted, see C43), the commitment to the received value is in `W`, the version is the greatest one
if none was asked for, and the new state is right for `W`; or two of the strings hashed are a collision. -/
theorem C60_search_partial {env : CEnv} {W : List Content} {out : Nat → Bytes} {g : Nat → Int} {req : SearchRequest}
    {res : SearchResponse} (hS : Setting env req.label W out g) {now : Nat} {s updated : ClientState}
    (hsize : s.treeHead.treeSize = W.length) (hret : Retains env.cs W s.fullSubtrees s.logEntries)
    (hlast : req.last = some s.treeHead.treeSize) (hwire : FromWire env.cs res.search)
    (h32 : ∀ t, AnswerFor req res t → t < 2 ^ 32)
    (hclean : ∀ e ∈ searchEvals env now (some s) req res, Consistent e.1 e.2)
    {terminal : Nat} {v : Verifier} (h : verifySearch env now (some s) req res = .ok (terminal, updated, v)) :
    (∃ target com, AnswerFor req res target ∧
      computeCommitment env res.opening req.label target res.value = .ok com ∧ Committed W out target com terminal ∧
      (req.version = none → (target : Int) = g (W.length - 1)) ∧
      (req.version ≠ none → Terminal env.cfg (timeAt W) g W.length target terminal) ∧
      res.fullTreeHead.treeHead = none ∧ updated.treeHead = s.treeHead ∧
      Retains env.cs W updated.fullSubtrees updated.logEntries) ∨
    HashBroken env.cs (logStrings env.cs W) (searchStrings env now (some s) req res) := by
  unfold verifySearch at h
  obtain ⟨v0, h0, h⟩ := G.bind_eq_ok.1 h
  obtain ⟨target, htg, h⟩ := G.bind_eq_ok.1 h
  obtain ⟨-, -, h⟩ := G.bind_eq_ok.1 h
  obtain ⟨vers, hl, h⟩ := G.bind_eq_ok.1 h
  obtain ⟨com, hcom, h⟩ := G.bind_eq_ok.1 h
  obtain ⟨v1, h1, h⟩ := G.bind_eq_ok.1 h
  obtain ⟨v2, h2, h⟩ := G.bind_eq_ok.1 h
  obtain ⟨⟨terminal', v3⟩, h3, h⟩ := G.bind_eq_ok.1 h
  obtain ⟨⟨updated', v4⟩, h4, h⟩ := G.bind_eq_ok.1 h
  obtain ⟨rfl, rfl, rfl⟩ : terminal' = terminal ∧ updated' = updated ∧ v4 = v := by
    have := Except.ok.inj h; simpa using this
  obtain ⟨result, p, root, rootP, hf, hroot, -, hth, hns, hF34⟩ := finish_ok h4
  obtain ⟨e1, e2, e3, -, e5, -⟩ := newVerifier_ok h0
  have hst : EntriesOk env.cs W (some s) := by
    intro s' hs' e he
    cases hs'
    exact hret.entries e he
  obtain ⟨hF02, hR, hfull⟩ := setup hS.log.toWellFormed hst h0 h1 h2
  have hF03 := hF02.trans (run_frame h3).1
  have hmsz := updateView_size h2
  -- a new tree head is not accepted
  have hnone : res.fullTreeHead.treeHead = none := by
    cases hh : res.fullTreeHead.treeHead with
    | none => rfl
    | some th =>
      exfalso
      unfold verifyTreeHead at hth
      dsimp only at hth
      rw [hF03.fth, e2, hh, hF03.state, e1] at hth
      dsimp only at hth
      rw [if_pos] at hth
      · cases hth
      · simp only [Option.any_some, decide_eq_true_eq]
        have := hmsz s.treeHead.treeSize (by rw [(processLadder_frame h1).m, e3, hlast]; rfl)
        rw [(processLadder_frame h1).n] at this
        rw [hF03.n]
        exact this
  have hn : v3.n = W.length := by
    rw [hF03.n]
    unfold treeSizeOf at e5
    rw [hnone, hlast] at e5
    rw [← Except.ok.inj e5]
    exact hsize
  have hm : v3.m = some v3.n := by rw [hF03.m, e3, hlast, hsize, hn]
  obtain ⟨g3, m3, -⟩ := run_spec (Received.handle env.cs)
    (if req.version = none then greatestVersionSearch env.cfg target v2.n else fixedVersionSearch env.cfg target v2.n)
    v2.p hR.ts
  rw [(run_frame h3).2] at g3 m3
  have hsub : result.fullSubtrees = LogSpec.heads env.cs.H (leaves env.cs W) := by
    have hf' := hf
    rw [hm] at hf'
    rw [finish_same m3 hf', g3.full, hfull]
    exact hret.heads
  obtain ⟨hpos, hmax⟩ := logRoot_size hroot
  have hroot' : Log.root env.cs v3.n result.fullSubtrees = .ok (logRoot env.cs W) := by
    have hlen : (leaves env.cs W).length = W.length := leaves_length
    have := Log.root_heads hS.suite (L := leaves env.cs W) (by
      intro v hv
      obtain ⟨c, -, rfl⟩ := List.mem_map.1 hv
      exact hS.suite.len _) (by rw [hlen, ← hn]; exact hpos) (by rw [hlen, ← hn]; exact hmax)
    rw [hn, hsub, ← hlen]
    exact this
  have hupd : updated'.treeHead = s.treeHead ∧ updated'.fullSubtrees = result.fullSubtrees ∧
      updated'.logEntries = result.logEntries := by
    unfold newState at hns
    rw [hF34.state, hF03.state, e1, hF34.fth, hF03.fth, e2, hnone] at hns
    have := Except.ok.inj hns
    subst this
    exact ⟨rfl, rfl, rfl⟩
  have hsteps : searchSteps env now (some s) req res = .ok (if req.version = none then
      greatestVersionSearch env.cfg target v2.n else fixedVersionSearch env.cfg target v2.n, v2, v3) := by
    unfold searchSteps
    simp only [h0, htg, hl, hcom, h1, h2, h3, G.ok_bind, G.pure_eq]
  have hev : searchEvals env now (some s) req res = Provider.evals env.cs (if req.version = none then
      greatestVersionSearch env.cfg target v2.n else fixedVersionSearch env.cfg target v2.n) v2.p := by
    unfold searchEvals
    rw [hsteps]
  have hstr : searchStrings env now (some s) req res = finishStrings env.cs v3.n v3.nP v3.m v3.p ++
      proofStrings env.cs (searchEvals env now (some s) req res) := by
    unfold searchStrings
    rw [hsteps]
  rw [hstr]
  rw [hev] at hclean ⊢
  by_cases hv : req.version = none
  · rw [if_pos hv] at h3 hclean ⊢
    rcases C60_greatest_partial hS hwire hst (h32 _ (targetOf_iff.1 htg)) hl h0 h1 h2 h3 hclean hf hn hroot' with
      ⟨k1, k2, k3⟩ | hB
    · left
      refine ⟨target, com, targetOf_iff.1 htg, hcom, k2, fun _ => k1, fun h => absurd hv h, hnone, hupd.1, ?_⟩
      rw [hupd.2.1, hupd.2.2]; exact k3
    · exact Or.inr hB
  · rw [if_neg hv] at h3 hclean ⊢
    rcases C60_fixed_partial hS hwire hst (h32 _ (targetOf_iff.1 htg)) hl h0 h1 h2 h3 hclean hf hn hroot' with
      ⟨k1, k2, k3⟩ | hB
    · left
      refine ⟨target, com, targetOf_iff.1 htg, hcom, k2, fun h => absurd h hv, fun _ => k1, hnone, hupd.1, ?_⟩
      rw [hupd.2.1, hupd.2.2]; exact k3
    · exact Or.inr hB

/-! ### a concrete case, and what happens without the proviso -/

/-- VRF outputs of the versions of label 10 -/
def soundOut (v : Nat) : Bytes := if v = 0 then [0x80] else if v = 1 then [0x40] else if v = 2 then [0x20] else [0x10]

/-- a client in contact monitoring mode, with a VRF without proofs -/
def soundClient : CEnv where
  cs := toySuite
  sz := toyEnv.sz
  cfg := { toyEnv.cfg with mode := contactMonitoring, auditorKey := none }
  vrfVerify := fun input _ => .ok (soundOut (getBE (input.drop 2)))
  sigVerify := fun _ _ => false
  auditorVerify := fun _ _ => false
  leafVerify := fun _ _ => false

/-- two log entries: version 0 of the label is in the first, versions 0 and 1 are in the second -/
def soundLog : List Content :=
  [⟨5, [([0x80], [167]), ([0xC0], [5])]⟩, ⟨6, [([0x80], [167]), ([0x40], [156]), ([0xC0], [5])]⟩]

/-- the greatest version of the label in each entry -/
def soundGreatest (x : Nat) : Int := if x = 0 then 0 else 1

/-- the state of a client that knows the log -/
def soundState : ClientState := ⟨⟨2, [0]⟩, none, [[164]], [(1, ⟨6, [156]⟩)]⟩

/-- a search for the greatest version of label 10 -/
def soundReq : SearchRequest := ⟨some 2, [10], none⟩

/-- the right response: version 1 -/
def soundRes : SearchResponse :=
  ⟨⟨none, none⟩, some 1, [9], ⟨[3], none⟩, [⟨[], some [167]⟩, ⟨[], none⟩, ⟨[], none⟩, ⟨[], none⟩],
   ⟨[], [⟨[.inclusion 2, .inclusion 1, .nonInclusionLeaf [0x40] [156] 1, .nonInclusionLeaf [0x40] [156] 1], [[33]]⟩], [], []⟩⟩

/-- the wrong response: version 0, and version 1 is "shown" to be absent by naming its own leaf -/
def staleRes : SearchResponse :=
  ⟨⟨none, none⟩, some 0, [9], ⟨[1], none⟩, [⟨[], none⟩, ⟨[], none⟩],
   ⟨[], [⟨[.inclusion 2, .nonInclusionLeaf [0x40] [156] 1], [[33]]⟩], [], []⟩⟩

theorem sound_setting : Setting soundClient [10] soundLog soundOut soundGreatest := by
  refine ⟨toySuite_good, ⟨⟨?_, by decide⟩, ?_⟩, ⟨?_, ?_⟩, ?_⟩
  · intro c hc
    simp only [soundLog, List.mem_cons, List.not_mem_nil, or_false] at hc
    rcases hc with rfl | rfl
    · exact ⟨by decide, by decide⟩
    · exact ⟨by decide, by decide⟩
  · intro i j a b hij ha hb
    have hj : j < 2 := (List.getElem?_eq_some_iff.1 hb).1
    have hi : i < 2 := (List.getElem?_eq_some_iff.1 ha).1
    obtain rfl | rfl : i = 0 ∨ i = 1 := by omega
    all_goals obtain rfl | rfl : j = 0 ∨ j = 1 := by omega
    all_goals first | omega | (cases ha; cases hb; decide)
  · intro x c hc v _
    have hx : x < 2 := (List.getElem?_eq_some_iff.1 hc).1
    obtain rfl | rfl : x = 0 ∨ x = 1 := by omega
    · cases hc
      unfold soundOut soundGreatest
      split
      · next h => subst h; decide
      split
      · next h => subst h; decide
      split
      · next h => subst h; decide
      · simp; omega
    · cases hc
      unfold soundOut soundGreatest
      split
      · next h => subst h; decide
      split
      · next h => subst h; decide
      split
      · next h => subst h; decide
      · simp; omega
  · intro i j hij _
    unfold soundGreatest
    split <;> split <;> omega
  · intro v i o pr hv hi ho
    have : i = 1 :: 10 :: putBE 4 v := by
      cases hi; rfl
    subst this
    cases ho
    change soundOut (getBE (putBE 4 v)) = _
    rw [getBE_putBE, Nat.mod_eq_of_lt (by omega)]

theorem sound_retains : Retains toySuite soundLog soundState.fullSubtrees soundState.logEntries := by
  refine ⟨by decide +kernel, ?_⟩
  intro e he
  obtain rfl := List.mem_singleton.1 he
  exact ⟨_, rfl, by decide +kernel⟩

theorem soundLog_strings : logStrings toySuite soundLog =
    [[0, 169, 0, 84], [0, 0, 0, 0, 0, 0, 0, 5, 244], [0, 0, 0, 0, 0, 0, 0, 6, 156], [3, 0, 15], [3, 3, 33], [2, 128, 167],
     [2, 192, 5], [3, 56, 15], [2, 64, 156], [3, 3, 33], [2, 128, 167], [2, 192, 5]] := by decide +kernel

/-- The hypotheses of `C60_search_partial` are met, and no strings collide: the client accepts version 1. -/
example : (verifySearch soundClient 6 (some soundState) soundReq soundRes).toOption.map (·.1) = some 1 ∧
    soundState.treeHead.treeSize = soundLog.length ∧ soundReq.last = some soundState.treeHead.treeSize ∧
    FromWire toySuite soundRes.search ∧
    (∀ e ∈ searchEvals soundClient 6 (some soundState) soundReq soundRes, Consistent e.1 e.2) ∧
    ¬ HashBroken toySuite (logStrings toySuite soundLog) (searchStrings soundClient 6 (some soundState) soundReq soundRes) := by
  refine ⟨by decide +kernel, rfl, rfl, ⟨by decide, ?_⟩, ?_, ?_⟩
  · intro pf hpf
    obtain rfl := List.mem_singleton.1 hpf
    refine ⟨by decide, ?_⟩
    intro v c d h
    simp at h
    obtain ⟨rfl, rfl, rfl⟩ := h
    decide
  · have h : searchEvals soundClient 6 (some soundState) soundReq soundRes =
        [([⟨[0x80], [167]⟩, ⟨[0x40], [156]⟩, ⟨[0x10], []⟩, ⟨[0x20], []⟩], ⟨[.inclusion 2, .inclusion 1,
          .nonInclusionLeaf [0x40] [156] 1, .nonInclusionLeaf [0x40] [156] 1], [[33]]⟩)] := by decide +kernel
    rw [h]
    intro e he
    obtain rfl := List.mem_singleton.1 he
    intro e r her
    simp only [List.zip_cons_cons, List.zip_nil_left, List.mem_cons, List.not_mem_nil, or_false, Prod.mk.injEq] at her
    rcases her with ⟨rfl, rfl⟩ | ⟨rfl, rfl⟩ | ⟨rfl, rfl⟩ | ⟨rfl, rfl⟩ <;> simp [Prefix.Res.isInclusion]
  · have h : searchStrings soundClient 6 (some soundState) soundReq soundRes =
        [[3, 56, 15], [2, 64, 156], [3, 3, 33], [2, 128, 167]] := by decide +kernel
    rw [h, soundLog_strings]
    unfold HashBroken LogSpec.Collides PrefixSpec.ZeroDigest
    decide +kernel

/-- **C60 is false without the proviso.**  The log contains version 1 of the label, and no strings collide; the client
accepts the response that says that 0 is the greatest version. -/
theorem C60_stale_accepted :
    (verifySearch soundClient 6 (some soundState) soundReq staleRes).toOption.map (·.1) = some 1 ∧
    AnswerFor soundReq staleRes 0 ∧ soundGreatest (soundLog.length - 1) = 1 ∧ FromWire toySuite staleRes.search ∧
    ¬ HashBroken toySuite (logStrings toySuite soundLog) (searchStrings soundClient 6 (some soundState) soundReq staleRes) := by
  refine ⟨by decide +kernel, Or.inr ⟨rfl, rfl⟩, rfl, ⟨by decide, ?_⟩, ?_⟩
  · intro pf hpf
    obtain rfl := List.mem_singleton.1 hpf
    refine ⟨by decide, ?_⟩
    intro v c d h
    simp at h
    obtain ⟨rfl, rfl, rfl⟩ := h
    decide
  · have h : searchStrings soundClient 6 (some soundState) soundReq staleRes =
        [[3, 56, 15], [2, 64, 156], [3, 3, 33], [2, 128, 167]] := by decide +kernel
    rw [h, soundLog_strings]
    unfold HashBroken LogSpec.Collides PrefixSpec.ZeroDigest
    decide +kernel

/-- a log of one entry with versions 0, 1 and 2 of the label; the commitment of version 2 is the one of the value `[4]` -/
def freeLog : List Content := [⟨5, [([0x80], [167]), ([0x40], [156]), ([0x20], [144])]⟩]

/-- the state of a client that knows this log -/
def freeState : ClientState := ⟨⟨1, [0]⟩, none, [[32]], [(0, ⟨5, [107]⟩)]⟩

/-- a search for the greatest version -/
def freeReq : SearchRequest := ⟨some 1, [10], none⟩

/-- a response for version 2 with any opening and value.  The path of version 3, which does not exist, ends at the leaf of
version 2; the proof shows this before it shows that version 2 is included, so only the VRF output of version 2 is compared. -/
def freeRes (opening value : Bytes) : SearchResponse :=
  ⟨⟨none, none⟩, some 2, opening, ⟨value, none⟩, [⟨[], some [167]⟩, ⟨[], some [156]⟩, ⟨[], none⟩, ⟨[], none⟩],
   ⟨[], [⟨[.inclusion 1, .inclusion 2, .nonInclusionLeaf [0x20] [144] 2, .inclusion 2], []⟩], [], []⟩⟩

/-- **C60 and C97 are false without the proviso, as to the value.**  The client accepts the right response, with the value that is
committed to in the log; and it accepts the same response with another value, whose commitment is not in the log at all. -/
theorem C60_false_value_accepted :
    (verifySearch soundClient 5 (some freeState) freeReq (freeRes [9] [4])).toOption.map (·.1) = some 0 ∧
    computeCommitment soundClient [9] [10] 2 ⟨[4], none⟩ = .ok [144] ∧ Committed freeLog soundOut 2 [144] 0 ∧
    (verifySearch soundClient 5 (some freeState) freeReq (freeRes [7] [66, 6])).toOption.map (·.1) = some 0 ∧
    ∃ com, computeCommitment soundClient [7] [10] 2 ⟨[66, 6], none⟩ = .ok com ∧ ¬ Committed freeLog soundOut 2 com 0 ∧
    logRoot toySuite freeLog = [32] ∧
    ¬ HashBroken toySuite (logStrings toySuite freeLog) (searchStrings soundClient 5 (some freeState) freeReq (freeRes [7] [66, 6])) := by
  refine ⟨by decide +kernel, by decide +kernel, ⟨_, rfl, by decide⟩, by decide +kernel, _, rfl, ?_, by decide +kernel, ?_⟩
  · rintro ⟨c, hc, hm⟩
    cases hc
    revert hm
    decide +kernel
  · unfold HashBroken LogSpec.Collides PrefixSpec.ZeroDigest
    decide +kernel

end Katie.Props
