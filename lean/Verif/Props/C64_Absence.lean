import Verif.Lemmas.ClientAbsent
import Verif.Props.C60_SearchSound
import Verif.Props.C63_Absent

/-
C64: the client reports that a version does not exist, or that it has expired, only if this is so in the log.

The client returns these two errors as soon as the search ends with them, before the proof is compared to the signed tree
head.  So the claim is false, for every label and whatever the log contains (`C64_unauthenticated`).  What is proved is that
the search would give the guarantee if the client completed its checks (`C64_fixed_partial`).
-/

namespace Katie.Props
open Katie Katie.Wire Katie.Alg Katie.Ladder Katie.Server Katie.Client Katie.CommittedSpec Katie.SearchTree Katie.SearchSpec
  Katie.ServerSpec Katie.ServedSpec

/-- **C64 (partial).**  A search for a given version ends with an error of the algorithm itself (all requests to the received
proof were answered), and the remaining checks, which the client skips in this case, succeed for the root of the log `W`.
Then the error is right: no entry of `W` contains the version, or it has expired in `W`; or two of the strings hashed are a
collision.  Missing for the full claim: the client does not make these checks. -/
theorem C64_fixed_partial {env : CEnv} {label : Bytes} {W : List Content} {out : Nat → Bytes} {g : Nat → Int}
    (hS : Setting env label W out g) {now : Nat} {state : Option ClientState} {last : Option Nat} {fth : FullTreeHead}
    {proof : CombinedTreeProof} (hwire : FromWire env.cs proof) (hst : EntriesOk env.cs W state)
    {target : Nat} {vers : List Nat} {ladder : List BinaryLadderStep} {com : Bytes} {v0 v1 v2 : Verifier} {e : Fault}
    {result : Provider.Result} {p3 p : Provider Received} (ht : target < 2 ^ 32)
    (hl : searchBinaryLadder target target [] [] = .ok vers)
    (h0 : newVerifier state last fth proof = .ok v0)
    (h1 : processLadder env label ladder vers [(target, com)] v0 = .ok v1)
    (h2 : v1.updateView env now = .ok v2)
    (h3 : v2.p.run (Received.handle env.cs) (fixedVersionSearch env.cfg target v2.n) = (.error e, p3))
    (hans : ∀ ev ∈ v2.p.trace (Received.handle env.cs) (fixedVersionSearch env.cfg target v2.n), ∃ a, ev.a = .ok a)
    (hclean : ∀ e ∈ Provider.evals env.cs (fixedVersionSearch env.cfg target v2.n) v2.p, Consistent e.1 e.2)
    (hf : p3.finish env.cs (Received.handle env.cs) v2.n v2.nP v2.m = (.ok result, p)) (hn : v2.n = W.length)
    (hroot : Log.root env.cs v2.n result.fullSubtrees = .ok (logRoot env.cs W)) :
    (e = .err "requested version of label does not exist" ∧ ∀ x, x < W.length → ¬ Contains g target x) ∨
    (e = .err "requested version of label has expired" ∧
      ∃ x, Terminal env.cfg (timeAt W) g W.length target x ∧ Expired env.cfg (timeAt W) W.length 0) ∨
    HashBroken env.cs (logStrings env.cs W) (finishStrings env.cs v2.n v2.nP v2.m p3 ++
      proofStrings env.cs (Provider.evals env.cs (fixedVersionSearch env.cfg target v2.n) v2.p)) := by
  obtain ⟨hF02, hR, -⟩ := setup hS.log.toWellFormed hst h0 h1 h2
  obtain ⟨hpos, hmax⟩ := logRoot_size hroot
  have hpos' : 0 < W.length := by rw [← hn]; exact hpos
  have hmn : ∀ k ∈ v2.m, k ≤ v2.n := by
    have := updateView_size h2
    rw [(updateView_frame h2).1.m, (updateView_frame h2).1.n]
    exact this
  obtain ⟨g3, m3, hruns, -⟩ := run_spec (Received.handle env.cs) (fixedVersionSearch env.cfg target v2.n) v2.p hR.ts
  rw [h3] at g3 m3 hruns
  have htot : v2.run env (total (fixedVersionSearch env.cfg target v2.n)) = .ok (.error e, { v2 with p := p3 }) := by
    unfold Verifier.run
    rw [run_total, h3]
  have haft := after hS.suite hS.log hS.lab hS.vrf hwire (searchBinaryLadder_lt hl) hR (prog := total (fixedVersionSearch env.cfg target v2.n))
    (by rw [evals_total]; exact hclean) htot hn hmn hf hroot
  rw [evals_total] at haft
  rcases haft with ⟨hL, hT, hC⟩ | hB
  swap
  · exact .inr (.inr hB)
  rw [hn] at h3 hruns hT hC hans
  have hreads := (fixedVersionSearch_reads (cfg := env.cfg) (ver := target) (n := W.length)).runs hruns
  have hfacts := client_facts (cs := env.cs) (fixedVersionSearch env.cfg target W.length) v2.p [] hR.ts hR.inv hR.times
    (by rw [hR.tracker]; exact TrackedBy.nil) (fun e he => ⟨hreads e he, hans e he⟩) p3
    (by rw [h3]; exact Grows.refl _) (E := Provider.evals env.cs (fixedVersionSearch env.cfg target W.length) v2.p)
    (fun e he => he)
  have hag := fixedVersionSearch_agrees (stop := fun _ _ => false) hpos' hS.lab.grows hT ht hruns hfacts
  have hev := hruns.eval_eq hag
  rcases C27_fixed_version_partial (cfg := env.cfg) (stop := fun _ _ => false) (timeAt_good hS.log) hS.lab.grows hpos'
    target with ⟨p, h, h', -⟩ | ⟨h, hno⟩ | ⟨h, x, hx, hexp, -⟩
  · rw [hev] at h; cases h
  · rw [hev] at h; cases h; exact .inl ⟨rfl, hno⟩
  · rw [hev] at h; cases h; exact .inr (.inl ⟨rfl, x, hx, hexp⟩)

theorem processSteps_sig (cenv : CEnv) (f : Bytes → Bytes → Bool) (label : Bytes) (manual : List (Nat × Bytes))
    (l : List (Nat × BinaryLadderStep)) (v : Verifier) :
    processSteps { cenv with sigVerify := f } label manual l v = processSteps cenv label manual l v := by
  induction l generalizing v with
  | nil => rfl
  | cons e l ih =>
    obtain ⟨ver, step⟩ := e
    unfold processSteps
    simp only [ih]
    rfl

theorem checkedSearch_sig (cenv : CEnv) (f : Bytes → Bytes → Bool) (now : Nat) (state : Option ClientState) (req : SearchRequest)
    (res : SearchResponse) :
    checkedSearch { cenv with sigVerify := f } now state req res = checkedSearch cenv now state req res := by
  unfold checkedSearch processLadder
  simp only [processSteps_sig]
  rfl

/-- **The claim C64 is false for every client and every label.**  Take any server that has the VRF key, but not the signature
key (`sigVerify` is arbitrary, it may reject everything), and whose log does not contain the label.  Its answers make the
client report that the version does not exist.  (Whatever the log that the client trusts contains: it does not
occur in the statement.) -/
theorem C64_unauthenticated {env : Env} {cenv : CEnv} {cs : List Change} {us : List AuditorUpdate} {t : Tree} {l : Bytes}
    {nowS nowC : Nat} (sigVerify : Bytes → Bytes → Bool)
    (S : Serving env cenv cs us t l) (habs : versionsOf l cs = []) {v : Nat} (hv : v < 2 ^ 31 - 1)
    (hd : ∀ b, searchBinaryLadder v v [] [] = .ok b → VrfDistinct env cs l b)
    (hS : InWindow env.cfg nowS (entryAt env.cs us (us.length - 1)).timestamp)
    (hC : InWindow env.cfg nowC (entryAt env.cs us (us.length - 1)).timestamp)
    (hleaf : LeafSigned cenv l v ⟨[], none⟩) :
    ∃ res, Server.search env nowS { t with auditor := none } (searchRequest none l (some v)) = .ok res ∧
      verifySearch { cenv with sigVerify := sigVerify } nowC none (searchRequest none l (some v)) res =
        goErr "requested version of label does not exist" := by
  obtain ⟨res, h1, h2, -⟩ := C63_fixed_version_partial (state := none) (aud := none) S habs hv trivial (by rintro k ⟨⟩) hd (by rintro a ⟨⟩)
    hS hC hleaf
  refine ⟨res, h1, ?_⟩
  rw [verifySearch_eq, checkedSearch_sig, h2]
  rfl

/-- a search for version 2 of label 10 in `soundLog`, and the right response -/
def absentReq : SearchRequest := ⟨some 2, [10], some 2⟩
def absentRes : SearchResponse :=
  ⟨⟨none, none⟩, none, [9], ⟨[], none⟩, [⟨[], some [167]⟩, ⟨[], some [156]⟩, ⟨[], none⟩, ⟨[], none⟩],
   ⟨[], [⟨[.inclusion 2, .inclusion 1, .nonInclusionLeaf [0x40] [156] 1, .nonInclusionLeaf [0x40] [156] 1], [[33]]⟩], [], []⟩⟩

/-- the steps in the hypotheses of `C64_fixed_partial` -/
def absentSteps : G (Verifier × Fault × Provider Received × Provider.Result) := do
  let v0 ← newVerifier (some soundState) (some 2) ⟨none, none⟩ absentRes.search
  let v1 ← processLadder soundClient [10] absentRes.binaryLadder [0, 1, 3, 2] [(2, [7])] v0
  let v2 ← v1.updateView soundClient 6
  match v2.p.run (Received.handle toySuite) (fixedVersionSearch soundClient.cfg 2 v2.n) with
  | (.ok _, _) => goErr "found"
  | (.error e, p3) =>
    match p3.finish toySuite (Received.handle toySuite) v2.n v2.nP v2.m with
    | (.error e, _) => .error e
    | (.ok r, _) => pure (v2, e, p3, r)

/-- The hypotheses of `C64_fixed_partial` are met, and no strings collide: version 2 does not exist. -/
example : searchBinaryLadder 2 2 [] [] = .ok [0, 1, 3, 2] ∧
    (do let (v2, e, _, r) ← absentSteps
        let root ← Log.root toySuite v2.n r.fullSubtrees
        pure (e, v2.n, root)) = .ok (.err "requested version of label does not exist", 2, logRoot toySuite soundLog) ∧
    (do let (v2, _) ← absentSteps
        pure ((v2.p.trace (Received.handle toySuite) (fixedVersionSearch soundClient.cfg 2 v2.n)).all (fun ev =>
          match ev.a with | .ok _ => true | .error _ => false))) = .ok true ∧
    (do let (v2, _, p3, _) ← absentSteps
        pure (finishStrings toySuite v2.n v2.nP v2.m p3 ++
          proofStrings toySuite (Provider.evals toySuite (fixedVersionSearch soundClient.cfg 2 v2.n) v2.p))) =
      .ok [[3, 56, 15], [2, 64, 156], [3, 3, 33], [2, 128, 167]] ∧
    ¬ HashBroken toySuite (logStrings toySuite soundLog) [[3, 56, 15], [2, 64, 156], [3, 3, 33], [2, 128, 167]] := by
  refine ⟨by decide, by decide +kernel, by decide +kernel, by decide +kernel, ?_⟩
  rw [soundLog_strings]
  unfold HashBroken LogSpec.Collides PrefixSpec.ZeroDigest
  decide +kernel

/-- A client that accepts no signature at all reports that the label does not exist. -/
example := C64_unauthenticated (nowS := 300) (nowC := 300) (fun _ _ => false) toyServing77 (by decide) (v := 0) (by decide)
  (fun b hb => vrfDistinct_of_check (by
    rw [← Except.ok.inj ((by decide : searchBinaryLadder 0 0 [] [] = .ok [0, 1]).symm.trans hb)]
    decide +kernel))
  ⟨by decide +kernel, by decide +kernel⟩ ⟨by decide +kernel, by decide +kernel⟩ (fun h => by cases h)

end Katie.Props
