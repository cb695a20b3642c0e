import Verif.Lemmas.ReceiveMonitor

/-
The verification of a response by a client without state: it ends with an error, or with the panic of C42.
-/

namespace Katie.Client
open Katie Katie.Wire Katie.Alg Katie.Ladder Katie.Server Katie.Prefix

/-- what is kept about the verifier of a client without state -/
structure Fresh (env : CEnv) (v : Verifier) : Prop where
  p : Sound env.cs v.p
  state : v.state = none
  m : v.m = none
  n : v.n < 2 ^ 64
  auditor : v.fth.auditor.isSome → env.cfg.mode = thirdPartyAuditing

section
variable {env : CEnv}

theorem newVerifier_newly {fth : FullTreeHead} (hf : fth.Typed env.cfg) {proof : CombinedTreeProof}
    (hp : ∀ q ∈ proof.prefixProofs, DepthsFit env.cs q) : Safe (Fresh env) (newVerifier none none fth proof) := by
  unfold newVerifier retainedProvider
  refine Safe.bind (P := Sound env.cs) (.pure ⟨TsMap.nil, hp⟩) (fun p hp => ?_)
  refine Safe.bind (P := fun n => n < 2 ^ 64) ?_ (fun n hn => .pure ⟨hp, rfl, rfl, hn, fun ha => (hf.2.2.1 ha).2⟩)
  unfold treeSizeOf
  cases hth : fth.treeHead with
  | none => exact .err
  | some th => exact .pure (by have := hf.1 th hth; unfold TreeHead.Typed Wire.Fits at this; omega)

theorem run_newly {α : Type} {prog : Prog α} {Q : α → Prop} (hs : Spec prog Mild Q IsErr) {v : Verifier} (hv : Fresh env v) :
    Safe (fun r => Fresh env r.2) (v.run env prog) := by
  obtain ⟨h1, h2, -⟩ := receive_calm (cs := env.cs) hs hv.p
  unfold Verifier.run
  generalize v.p.run (Received.handle env.cs) prog = r at h1 h2
  obtain ⟨r, p⟩ := r
  cases r with
  | error f => exact ⟨calm_error h1.1 rfl, fun _ h => nomatch h⟩
  | ok a => exact ⟨.ok, fun b hb => by cases hb; exact ⟨h2, hv.state, hv.m, hv.n, hv.auditor⟩⟩

theorem addVersion_newly {v : Verifier} (hv : Fresh env v) {ver : Nat} {vrf : Bytes} {com : Option Bytes} :
    Safe (Fresh env) (v.addVersion env ver vrf com) := by
  unfold Verifier.addVersion Received.addVersion
  refine Safe.bind (P := fun s' => s'.inner = v.p.state.inner) ?_ (fun s' h => .pure ⟨⟨hv.p.ts, ?_⟩, hv.state, hv.m, hv.n, hv.auditor⟩)
  · refine Safe.bind (P := fun _ => True) ⟨?_, fun _ _ => trivial⟩ (fun _ _ => .pure rfl)
    unfold Alg.addVersion
    exact .ite (fun _ => .err) (fun _ => .ite (fun _ => .err) (fun _ => .ite (fun _ => .err) (fun _ => .pure)))
  · rw [h]
    exact hv.p.fits

theorem processSteps_newly (he : Equipped env) {label : Bytes} {manual : List (Nat × Bytes)} :
    ∀ {l : List (Nat × BinaryLadderStep)} {v : Verifier}, Fresh env v → Safe (Fresh env) (processSteps env label manual l v)
  | [], _, h => .pure h
  | (ver, step) :: l, v, h => by
    unfold processSteps
    refine Safe.bind (P := fun _ => True) ⟨wSeq_calm wBytes_calm .ok, fun _ _ => trivial⟩ (fun input _ => ?_)
    refine Safe.bind (P := fun _ => True) ⟨he.vrf _ _, fun _ _ => trivial⟩ (fun vrf _ => ?_)
    refine Safe.bind (P := fun _ => True) ⟨?_, fun _ _ => trivial⟩ (fun com _ => ?_)
    · unfold ladderCommitment
      split
      · exact .ite (fun _ => .err) (fun _ => .pure)
      · exact .pure
    exact (addVersion_newly h).bind (fun v' h' => processSteps_newly he h')

theorem processLadder_newly (he : Equipped env) {label : Bytes} {ladder : List BinaryLadderStep} {vers : List Nat}
    {manual : List (Nat × Bytes)} {v : Verifier} (h : Fresh env v) :
    Safe (Fresh env) (processLadder env label ladder vers manual v) := by
  unfold processLadder
  exact .ite (fun _ => .err) (fun _ => processSteps_newly he h)

theorem updateView_newly {now : Nat} {v : Verifier} (h : Fresh env v) : Safe (Fresh env) (v.updateView env now) := by
  unfold Verifier.updateView
  exact (run_newly (updateView_mild h.n (by rw [h.m]; rintro k ⟨⟩)) h).bind (fun r hr => .pure hr)

theorem provider_finish_newly (hg : env.cs.Good) {v : Verifier} (h : Fresh env v) :
    Calm (v.p.finish env.cs (Received.handle env.cs) v.n v.nP v.m).1 ∧
    Sound env.cs (v.p.finish env.cs (Received.handle env.cs) v.n v.nP v.m).2 := by
  obtain ⟨h1, h2⟩ := inspectedLeaves_sound h.p
  unfold Provider.finish
  generalize v.p.inspectedLeaves (Received.handle env.cs) = r at h1 h2
  obtain ⟨r, p⟩ := r
  cases r with
  | error f => exact ⟨calm_error h1 rfl, h2⟩
  | ok leaves =>
    simp only
    cases hlh : Provider.leafHashes env.cs leaves with
    | error f => exact ⟨calm_error leafHashes_calm hlh, h2⟩
    | ok values =>
      simp only [Received.handle, Received.finish]
      by_cases c1 : p.state.inner.timestamps ≠ []
      · rw [if_pos c1]
        exact ⟨.err, h2.setState h2.fits⟩
      by_cases c2 : p.state.inner.prefixProofs ≠ []
      · rw [if_neg c1, if_pos c2]
        exact ⟨.err, h2.setState h2.fits⟩
      by_cases c3 : p.state.inner.prefixRoots ≠ []
      · rw [if_neg c1, if_neg c2, if_pos c3]
        exact ⟨.err, h2.setState h2.fits⟩
      rw [if_neg c1, if_neg c2, if_neg c3]
      refine ⟨?_, h2.setState h2.fits⟩
      unfold Provider.verifierFor
      rw [h.m]
      simp only
      refine .bind .pure (fun lv hlv => ?_)
      cases hlv
      have hev := Log.evaluate_calm hg (v := ⟨none, [], []⟩) (.inl ⟨rfl, rfl, rfl⟩) (entries := leaves.map (·.1)) (n := v.n) (nP := v.nP)
        (by rintro k ⟨⟩) (values := values) (proof := p.state.inner.inclusion)
      refine .bind hev.1 (fun res hres => ?_)
      obtain ⟨f, hf, -⟩ := SearchTree.frontier_spine (n := v.n) (hev.2 res hres).2 h.n
      rw [hf]
      exact .bind .ok (fun _ _ => .bind retained_calm (fun _ _ => .pure))

/-- `finish`: the checks do not crash, but then the missing state is read -/
theorem finish_newly (he : Equipped env) {v : Verifier} (h : Fresh env v) :
    (∃ m, v.finish env = .error (.err m)) ∨ v.finish env = .error (.panic "nil pointer dereference") := by
  obtain ⟨h1, h2⟩ := provider_finish_newly he.good h
  unfold Verifier.finish
  generalize v.p.finish env.cs (Received.handle env.cs) v.n v.nP v.m = r at h1 h2
  obtain ⟨r, p⟩ := r
  cases r with
  | error f =>
    obtain ⟨m, rfl⟩ := h1 f rfl
    exact .inl ⟨m, rfl⟩
  | ok result =>
    simp only
    have hroot : Calm (Log.root env.cs v.n result.fullSubtrees) := Log.root_calm he.good
    cases hr : Log.root env.cs v.n result.fullSubtrees with
    | error f =>
      obtain ⟨m, rfl⟩ := hroot f hr
      exact .inl ⟨m, rfl⟩
    | ok root =>
      rw [G.ok_bind]
      have hrootP : Calm (auditorRoot env v.nP result.additional) := by
        unfold auditorRoot
        split
        · exact .pure
        · exact Log.root_calm he.good
      cases hrp : auditorRoot env v.nP result.additional with
      | error f =>
        obtain ⟨m, rfl⟩ := hrootP f hrp
        exact .inl ⟨m, rfl⟩
      | ok rootP =>
        rw [G.ok_bind]
        have hv : Safe (fun w => w.state = none) (verifyTreeHead env { v with p := p } root rootP) := by
          unfold verifyTreeHead
          split
          · rw [if_pos h.state]
            exact .err
          · rw [if_neg (by simp [h.state])]
            refine Safe.bind (P := fun _ => True) ⟨?_, fun _ _ => trivial⟩ (fun tbs _ => ?_)
            · unfold treeHeadTBS
              exact wSeq_calm (marshalConfig_calm he.keyed) (wSeq_calm .ok .ok)
            refine .ite (fun _ => .err) (fun _ => ?_)
            split
            · exact .pure h.state
            next a ha =>
            have hm := h.auditor (by change v.fth.auditor = some a at ha; rw [ha]; rfl)
            unfold verifyAuditor
            simp only [h.state]
            refine Safe.bind (P := fun _ => True) (.pure trivial) (fun _ _ => ?_)
            obtain ⟨t1, -⟩ := getTimestamp_sound (cs := env.cs) h2 (sub64 v.n 1)
            generalize p.getTimestamp (Received.handle env.cs) (sub64 v.n 1) = g at t1
            obtain ⟨g, p'⟩ := g
            cases g with
            | error f => exact ⟨calm_error t1 rfl, fun _ h => nomatch h⟩
            | ok ts =>
              simp only
              refine .ite (fun _ => .err) (fun _ => .ite (fun _ => .err) (fun _ => .ite (fun _ => .err) (fun _ => ?_)))
              refine Safe.bind (P := fun _ => True) ⟨?_, fun _ _ => trivial⟩ (fun tbs _ => ?_)
              · unfold auditorTreeHeadTBS
                exact wSeq_calm (marshalConfig_calm he.keyed) (wSeq_calm .ok (wSeq_calm .ok .ok))
              rw [if_neg (he.keyed.2 hm)]
              exact .ite (fun _ => .err) (fun _ => .pure rfl)
        cases hw : verifyTreeHead env { v with p := p } root rootP with
        | error f =>
          obtain ⟨m, rfl⟩ := hv.1 f hw
          exact .inl ⟨m, rfl⟩
        | ok w =>
          right
          rw [G.ok_bind, newState, hv.2 w hw]
          rfl

/-- a computation that ends with an error or with this panic -/
def Stuck {α : Type} (r : G α) : Prop := (∃ m, r = .error (.err m)) ∨ r = .error (.panic "nil pointer dereference")

theorem Stuck.after {α β : Type} {P : α → Prop} {r : G α} {f : α → G β} (h : Safe P r) (hf : ∀ a, P a → Stuck (f a)) :
    Stuck (r >>= f) := by
  cases r with
  | error e =>
    obtain ⟨m, rfl⟩ := h.1 e rfl
    exact .inl ⟨m, rfl⟩
  | ok a => exact hf a (h.2 a rfl)

theorem Stuck.bind {α β : Type} {r : G α} {f : α → G β} (h : Stuck r) : Stuck (r >>= f) := by
  rcases h with ⟨m, rfl⟩ | rfl
  · exact .inl ⟨m, rfl⟩
  · exact .inr rfl

theorem search_newly (he : Equipped env) {now : Nat} {order : PMap → List (Nat × Nat)} {req : SearchRequest} {res : SearchResponse}
    {st : CStore} (hl : req.last = none) (hf : res.fullTreeHead.Typed env.cfg) (hp : ∀ q ∈ res.search.prefixProofs, DepthsFit env.cs q)
    (ht : SmallTarget req res) : Stuck (search env now order none req res st) := by
  unfold search verifySearch
  rw [hl]
  refine Stuck.bind ?_
  refine Stuck.after (newVerifier_newly hf hp) (fun v hv => ?_)
  refine Stuck.after (P := fun t => t < 2 ^ 31 - 1) ⟨targetOf_calm, fun a ha => ht a ha⟩ (fun t htt => ?_)
  refine Stuck.after (Safe.of_calm (verifyUpdateValue_calm he.keyed)) (fun _ _ => ?_)
  refine Stuck.after (Safe.of_calm (searchBinaryLadder_calm htt)) (fun ladder _ => ?_)
  refine Stuck.after (Safe.of_calm computeCommitment_calm) (fun com _ => ?_)
  refine Stuck.after (processLadder_newly he hv) (fun v1 h1 => ?_)
  refine Stuck.after (updateView_newly h1) (fun v2 h2 => ?_)
  refine Stuck.after (run_newly (search_mild htt) h2) (fun r h3 => ?_)
  exact Stuck.bind (finish_newly he h3)

end
end Katie.Client
