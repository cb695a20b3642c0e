import Verif.Lemmas.ReceiveLog
import Verif.Lemmas.ReceiveRun
import Verif.Lemmas.ServeCalm
import Verif.Lemmas.ChangeMade
import Verif.Lemmas.NoFault

/-
The steps of the client's verification functions do not crash, whatever the response is.
-/

namespace Katie.Client
open Katie Katie.Wire Katie.Alg Katie.Ladder Katie.Server Katie.Prefix

/-- what is assumed of a client: the hash function is one, and long enough for the depths that a proof can contain; the
verification of VRF proofs returns; the configuration has the keys that its mode asks for -/
structure Equipped (env : CEnv) : Prop where
  good : env.cs.Good
  vrf : ∀ a b, Calm (env.vrfVerify a b)
  keyed : Keyed env.cfg

/-- what is kept about the verifier -/
structure Going (env : CEnv) (s : ClientState) (v : Verifier) : Prop where
  p : Sound env.cs v.p
  state : v.state = some s
  m : v.m = some s.treeHead.treeSize
  n : v.n < 2 ^ 64

section
variable {env : CEnv} {s : ClientState}

theorem retainLoop_sound {cs : Log.Suite} : ∀ {es : List (Nat × LogEntry)} {p : Provider Received}, Sound cs p →
    Calm (Provider.retainLoop es p).1 ∧ Sound cs (Provider.retainLoop es p).2
  | [], p, h => ⟨.ok, h⟩
  | (x, e) :: es, p, h => by
    unfold Provider.retainLoop
    cases ha : addTimestamp p.timestamps x e.timestamp with
    | error f => exact ⟨calm_error addTimestamp_calm ha, h⟩
    | ok ts =>
      simp only
      have h1 : Sound cs { p with timestamps := ts } := ⟨h.ts.add ha, h.fits⟩
      cases hb : addPrefixTree p.prefixTrees x e.prefixTree with
      | error f => exact ⟨calm_error addPrefixTree_calm hb, h1⟩
      | ok pt => exact retainLoop_sound (p := { p with timestamps := ts, prefixTrees := pt }) ⟨h1.ts, h1.fits⟩

theorem retainedProvider_safe {cs : Log.Suite} {proof : CombinedTreeProof} (hp : ∀ q ∈ proof.prefixProofs, DepthsFit cs q) :
    Safe (Sound cs) (retainedProvider (some s) proof) := by
  have h0 : Sound cs { newProvider (⟨proof, [], {}⟩ : Received) with fullSubtrees := s.fullSubtrees, logEntries := s.logEntries } :=
    ⟨TsMap.nil, hp⟩
  obtain ⟨h1, h2⟩ := retainLoop_sound (es := s.logEntries) h0
  unfold retainedProvider Provider.addRetained
  simp only
  generalize Provider.retainLoop s.logEntries _ = r at h1 h2
  obtain ⟨r, p⟩ := r
  cases r with
  | error f => exact ⟨calm_error h1 rfl, fun _ h => nomatch h⟩
  | ok u => exact ⟨.ok, fun a ha => by cases ha; exact h2⟩

theorem newVerifier_safe {fth : FullTreeHead} (hs : s.treeHead.treeSize < 2 ^ 64) (hf : Maybe TreeHead.Typed fth.treeHead)
    {proof : CombinedTreeProof} (hp : ∀ q ∈ proof.prefixProofs, DepthsFit env.cs q) :
    Safe (Going env s) (newVerifier (some s) (getLast (some s)) fth proof) := by
  unfold newVerifier
  refine (retainedProvider_safe hp).bind (fun p hp => ?_)
  refine Safe.bind (P := fun n => n < 2 ^ 64) ?_ (fun n hn => .pure ⟨hp, rfl, rfl, hn⟩)
  unfold treeSizeOf getLast
  simp only [Option.map_some]
  cases hth : fth.treeHead with
  | none => exact .pure hs
  | some th => exact .pure (by have := hf th hth; unfold TreeHead.Typed Wire.Fits at this; omega)

theorem run_safe {α : Type} {prog : Prog α} {Q : α → Prop} (hs : Spec prog Mild Q IsErr) {v : Verifier} (hv : Going env s v) :
    Safe (fun r => Q r.1 ∧ Going env s r.2 ∧ r.2.n = v.n) (v.run env prog) := by
  obtain ⟨h1, h2, -⟩ := receive_calm (cs := env.cs) hs hv.p
  unfold Verifier.run
  generalize v.p.run (Received.handle env.cs) prog = r at h1 h2
  obtain ⟨r, p⟩ := r
  cases r with
  | error f => exact ⟨calm_error h1.1 rfl, fun _ h => nomatch h⟩
  | ok a => exact ⟨.ok, fun b hb => by cases hb; exact ⟨h1.2 a rfl, ⟨h2, hv.state, hv.m, hv.n⟩, rfl⟩⟩

theorem addVersion_safe {v : Verifier} (hv : Going env s v) {ver : Nat} {vrf : Bytes} {com : Option Bytes} :
    Safe (fun v' => Going env s v' ∧ v'.n = v.n) (v.addVersion env ver vrf com) := by
  unfold Verifier.addVersion Received.addVersion
  refine Safe.bind (P := fun s' => s'.inner = v.p.state.inner) ?_ (fun s' h => .pure ⟨⟨⟨hv.p.ts, ?_⟩, hv.state, hv.m, hv.n⟩, rfl⟩)
  · refine Safe.bind (P := fun _ => True) ⟨?_, fun _ _ => trivial⟩ (fun _ _ => .pure rfl)
    unfold Alg.addVersion
    exact .ite (fun _ => .err) (fun _ => .ite (fun _ => .err) (fun _ => .ite (fun _ => .err) (fun _ => .pure)))
  · rw [h]
    exact hv.p.fits

theorem addRetainedVersions_safe : ∀ {l : List RetainedVersion} {v : Verifier}, Going env s v →
    Safe (fun v' => Going env s v' ∧ v'.n = v.n) (addRetainedVersions env l v)
  | [], _, h => .pure ⟨h, rfl⟩
  | e :: l, v, h => by
    unfold addRetainedVersions
    refine (addVersion_safe h).bind (fun v' h' => ?_)
    have := addRetainedVersions_safe (l := l) h'.1
    exact ⟨this.1, fun a ha => ⟨(this.2 a ha).1, (this.2 a ha).2.trans h'.2⟩⟩

theorem processSteps_safe (he : Equipped env) {label : Bytes} {manual : List (Nat × Bytes)} :
    ∀ {l : List (Nat × BinaryLadderStep)} {v : Verifier}, Going env s v →
    Safe (fun v' => Going env s v' ∧ v'.n = v.n) (processSteps env label manual l v)
  | [], _, h => .pure ⟨h, rfl⟩
  | (ver, step) :: l, v, h => by
    unfold processSteps
    refine Safe.bind (P := fun _ => True) ⟨wSeq_calm wBytes_calm .ok, fun _ _ => trivial⟩ (fun input _ => ?_)
    refine Safe.bind (P := fun _ => True) ⟨he.vrf _ _, fun _ _ => trivial⟩ (fun vrf _ => ?_)
    refine Safe.bind (P := fun _ => True) ⟨?_, fun _ _ => trivial⟩ (fun com _ => ?_)
    · unfold ladderCommitment
      split
      · exact .ite (fun _ => .err) (fun _ => .pure)
      · exact .pure
    refine (addVersion_safe h).bind (fun v' h' => ?_)
    have := processSteps_safe he (label := label) (manual := manual) (l := l) h'.1
    exact ⟨this.1, fun a ha => ⟨(this.2 a ha).1, (this.2 a ha).2.trans h'.2⟩⟩

theorem processLadder_safe (he : Equipped env) {label : Bytes} {ladder : List BinaryLadderStep} {vers : List Nat}
    {manual : List (Nat × Bytes)} {v : Verifier} (h : Going env s v) :
    Safe (fun v' => Going env s v' ∧ v'.n = v.n) (processLadder env label ladder vers manual v) := by
  unfold processLadder
  exact .ite (fun _ => .err) (fun _ => processSteps_safe he h)

/-- after `updateView` the tree is known not to have shrunk -/
theorem updateView_safe (h0 : 0 < s.treeHead.treeSize) {now : Nat} {v : Verifier} (h : Going env s v) :
    Safe (fun v' => Going env s v' ∧ v'.n = v.n ∧ s.treeHead.treeSize ≤ v.n) (v.updateView env now) := by
  have hspec : Spec (Alg.updateView env.cfg now v.n v.m) Mild (fun _ => s.treeHead.treeSize ≤ v.n) IsErr := by
    by_cases hc : s.treeHead.treeSize ≤ v.n
    · exact (updateView_mild h.n (by rw [h.m]; rintro k hk; cases hk; exact h0)).imp (fun _ h => h) (fun _ _ => hc) (fun _ h => h)
    · unfold Alg.updateView
      rw [h.m, if_pos (by simpa using hc)]
      exact .fail ⟨_, rfl⟩
  unfold Verifier.updateView
  exact (run_safe hspec h).bind (fun r hr => .pure ⟨hr.2.1, hr.2.2, hr.1⟩)

/-! ### the end -/

theorem leafHashes_calm {cs : Log.Suite} : ∀ {l : List (Nat × LogEntry)}, Calm (Provider.leafHashes cs l)
  | [] => .ok
  | e :: l => by
    unfold Provider.leafHashes LogEntry.hash
    exact .bind (.bind (wSeq_calm .ok .ok) (fun _ _ => .pure)) (fun _ _ => .bind leafHashes_calm (fun _ _ => .pure))

theorem retained_calm {σ : Type} {p : Provider σ} : ∀ {l : List Nat}, Calm (Provider.retained p l)
  | [] => .ok
  | x :: l => by
    unfold Provider.retained
    split
    · exact .err
    · split
      · exact .err
      · exact .bind retained_calm (fun _ _ => .pure)

theorem inspectedLeaves_sound {cs : Log.Suite} {p : Provider Received} (hp : Sound cs p) :
    Calm (p.inspectedLeaves (Received.handle cs)).1 ∧ Sound cs (p.inspectedLeaves (Received.handle cs)).2 := by
  unfold Provider.inspectedLeaves
  simp only [Received.handle, Received.prefixTrees]
  by_cases hl : (Provider.emptyLeaves p.newLeaves).length ≠ p.state.inner.prefixRoots.length
  · rw [if_pos hl]
    exact ⟨.err, hp.setState hp.fits⟩
  · rw [if_neg hl]
    simp only
    split
    · exact ⟨.err, hp.setState hp.fits⟩
    · exact ⟨.ok, hp.ts, hp.fits⟩

theorem provider_finish_safe (hg : env.cs.Good) {v : Verifier} (h : Going env s v) (hle : s.treeHead.treeSize ≤ v.n) :
    Calm (v.p.finish env.cs (Received.handle env.cs) v.n v.nP v.m).1 ∧
    Sound env.cs (v.p.finish env.cs (Received.handle env.cs) v.n v.nP v.m).2 := by
  obtain ⟨h1, h2⟩ := inspectedLeaves_sound h.p
  unfold Provider.finish
  generalize v.p.inspectedLeaves (Received.handle env.cs) = r at h1 h2
  obtain ⟨r, p⟩ := r
  cases r with
  | error f => exact ⟨calm_error h1 rfl, h2⟩
  | ok leaves =>
    simp only
    cases hlh : Provider.leafHashes env.cs leaves with
    | error f => exact ⟨calm_error leafHashes_calm hlh, h2⟩
    | ok values =>
      simp only [Received.handle, Received.finish]
      by_cases c1 : p.state.inner.timestamps ≠ []
      · rw [if_pos c1]
        exact ⟨.err, h2.setState h2.fits⟩
      by_cases c2 : p.state.inner.prefixProofs ≠ []
      · rw [if_neg c1, if_pos c2]
        exact ⟨.err, h2.setState h2.fits⟩
      by_cases c3 : p.state.inner.prefixRoots ≠ []
      · rw [if_neg c1, if_neg c2, if_pos c3]
        exact ⟨.err, h2.setState h2.fits⟩
      rw [if_neg c1, if_neg c2, if_neg c3]
      refine ⟨?_, h2.setState h2.fits⟩
      unfold Provider.verifierFor
      rw [h.m]
      simp only
      refine .bind Log.retain_calm (fun lv hlv => ?_)
      obtain ⟨r1, r2, r3, r4⟩ := Log.retain_ok hlv
      have hev := Log.evaluate_calm hg (v := lv) (.inr ⟨_, r1, r2, r3, r4⟩) (entries := leaves.map (·.1)) (n := v.n) (nP := v.nP)
        (by rw [r2]; rintro k hk; cases hk; exact hle) (values := values) (proof := p.state.inner.inclusion)
      refine .bind hev.1 (fun res hres => ?_)
      obtain ⟨f, hf, -⟩ := SearchTree.frontier_spine (n := v.n) (hev.2 res hres).2 h.n
      rw [hf]
      exact .bind .ok (fun _ _ => .bind retained_calm (fun _ _ => .pure))

/-- `finish`: there is a state, and a tree head is refused before the auditor's is looked at -/
theorem finish_safe (he : Equipped env) {v : Verifier} (h : Going env s v) (hle : s.treeHead.treeSize ≤ v.n) :
    Safe (fun r => Going env s r.2 ∧ r.2.n = v.n) (v.finish env) := by
  obtain ⟨h1, h2⟩ := provider_finish_safe he.good h hle
  unfold Verifier.finish
  generalize v.p.finish env.cs (Received.handle env.cs) v.n v.nP v.m = r at h1 h2
  obtain ⟨r, p⟩ := r
  cases r with
  | error f => exact ⟨calm_error h1 rfl, fun _ h => nomatch h⟩
  | ok result =>
    simp only
    have hg : Going env s { v with p := p } := ⟨h2, h.state, h.m, h.n⟩
    refine Safe.bind (P := fun _ => True) ⟨Log.root_calm he.good, fun _ _ => trivial⟩ (fun root _ => ?_)
    refine Safe.bind (P := fun _ => True) ⟨?_, fun _ _ => trivial⟩ (fun rootP _ => ?_)
    · unfold auditorRoot
      split
      · exact .pure
      · exact Log.root_calm he.good
    refine Safe.bind (P := fun v' => Going env s v' ∧ v'.n = v.n) ?_ (fun v' h' => ?_)
    · unfold verifyTreeHead
      split
      · exact .ite (fun _ => .err) (fun _ => .pure ⟨hg, rfl⟩)
      · rw [if_pos (by simp only [h.state, Option.any_some, decide_eq_true_eq]; exact hle)]
        exact .err
    · unfold newState
      rw [h'.1.state]
      exact Safe.bind (P := fun _ => True) (.pure trivial) (fun _ _ => .pure h')

/-! ### what is stored -/

theorem wLoop_calm {α : Type} {w : α → G Bytes} (hw : ∀ a, Calm (w a)) : ∀ {l : List α}, Calm (wLoop w l)
  | [] => .ok
  | a :: l => by
    unfold wLoop
    exact wSeq_calm (hw a) (wLoop_calm hw)

theorem wSlice_calm {α : Type} {k : Nat} {name : String} {w : α → G Bytes} (hw : ∀ a, Calm (w a)) {l : List α} :
    Calm (wSlice k name w l) := by
  unfold wSlice
  exact .ite (fun _ => .err) (fun _ => wSeq_calm .ok (wLoop_calm hw))

theorem state_marshal_calm {s : ClientState} : Calm s.marshal := by
  unfold ClientState.marshal TreeHead.marshal marshalStateAuditor AuditorTreeHead.marshal
  refine wSeq_calm (wSeq_calm .ok wBytes_calm) (wSeq_calm ?_ (wSeq_calm (wSlice_calm fun _ => .ok) (wSlice_calm fun _ => ?_)))
  · split
    · exact .ok
    · exact wSeq_calm .ok (wSeq_calm .ok wBytes_calm)
  · exact wSeq_calm .ok (wSeq_calm .ok .ok)

theorem putState_calm {st : CStore} {u : ClientState} : Calm (putState st u) := by
  unfold putState
  exact .bind state_marshal_calm (fun _ _ => .pure)

theorem label_marshal_calm {ls : ClientLabelState} : Calm ls.marshal := by
  unfold ClientLabelState.marshal LabelOwnerState.marshal RetainedVersion.marshal MonitorMapEntry.marshal
  refine wSeq_calm (wSlice_calm fun _ => wSeq_calm .ok .ok) ?_
  split
  · exact wSeq_calm .ok (wSeq_calm .ok (wSeq_calm .ok (wSlice_calm fun _ => .ok)))
  · refine wSeq_calm .ok (wSlice_calm fun r => wSeq_calm .ok (wSeq_calm .ok ?_))
    unfold wOpt
    split
    · exact .ok
    · exact wSeq_calm .ok .ok

theorem putLabelState_calm {st : CStore} {u : ClientState} {label : Bytes} {ls : ClientLabelState} {x : Nat} :
    Calm (putLabelState st u label ls x) := by
  unfold putLabelState rawLabelState
  exact .bind state_marshal_calm (fun _ _ => .bind (.ite (fun _ => .bind label_marshal_calm (fun _ _ => .pure)) (fun _ => .pure)) (fun _ _ => .pure))

end
end Katie.Client
