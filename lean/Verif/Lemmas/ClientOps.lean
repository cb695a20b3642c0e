import Verif.Model.Client
import Verif.Lemmas.Trace
import Verif.Lemmas.Provider

/-
Facts about the operations of the client: which fields of the verifier they leave alone, and what a successful
`finish` implies.
-/

namespace Katie.Client
open Katie Katie.Wire Katie.Alg Katie.Ladder Katie.Server

/-- only the provider differs -/
structure Frame (v w : Verifier) : Prop where
  state : w.state = v.state
  fth : w.fth = v.fth
  n : w.n = v.n
  nP : w.nP = v.nP
  m : w.m = v.m

theorem Frame.refl (v : Verifier) : Frame v v := ⟨rfl, rfl, rfl, rfl, rfl⟩

theorem Frame.trans {u v w : Verifier} (h : Frame u v) (k : Frame v w) : Frame u w :=
  ⟨k.state.trans h.state, k.fth.trans h.fth, k.n.trans h.n, k.nP.trans h.nP, k.m.trans h.m⟩

theorem run_frame {α : Type} {env : CEnv} {prog : Prog α} {v w : Verifier} {a : α} (h : v.run env prog = .ok (a, w)) :
    Frame v w ∧ v.p.run (Received.handle env.cs) prog = (.ok a, w.p) := by
  unfold Verifier.run at h
  split at h
  · cases h
  · next he =>
    obtain ⟨rfl, rfl⟩ := Prod.mk.inj (Except.ok.inj h)
    exact ⟨⟨rfl, rfl, rfl, rfl, rfl⟩, he⟩

theorem updateView_frame {env : CEnv} {now : Nat} {v w : Verifier} (h : v.updateView env now = .ok w) :
    Frame v w ∧ v.p.run (Received.handle env.cs) (Alg.updateView env.cfg now v.n v.m) = (.ok (), w.p) := by
  unfold Verifier.updateView at h
  obtain ⟨⟨a, u⟩, h1, h2⟩ := G.bind_eq_ok.1 h
  cases h2
  exact run_frame h1

theorem addVersion_frame {env : CEnv} {v w : Verifier} {ver : Nat} {vrf : Bytes} {com : Option Bytes}
    (h : v.addVersion env ver vrf com = .ok w) : Frame v w := by
  unfold Verifier.addVersion at h
  obtain ⟨s, -, h⟩ := G.bind_eq_ok.1 h
  cases h
  exact ⟨rfl, rfl, rfl, rfl, rfl⟩

theorem addRetainedVersions_frame {env : CEnv} {l : List RetainedVersion} {v w : Verifier}
    (h : addRetainedVersions env l v = .ok w) : Frame v w := by
  induction l generalizing v with
  | nil => cases h; exact Frame.refl _
  | cons e l ih =>
    unfold addRetainedVersions at h
    obtain ⟨u, h1, h⟩ := G.bind_eq_ok.1 h
    exact (addVersion_frame h1).trans (ih h)

theorem processSteps_frame {env : CEnv} {label : Bytes} {manual : List (Nat × Bytes)} {l : List (Nat × BinaryLadderStep)}
    {v w : Verifier} (h : processSteps env label manual l v = .ok w) : Frame v w := by
  induction l generalizing v with
  | nil => cases h; exact Frame.refl _
  | cons e l ih =>
    unfold processSteps at h
    obtain ⟨i, -, h⟩ := G.bind_eq_ok.1 h
    obtain ⟨o, -, h⟩ := G.bind_eq_ok.1 h
    obtain ⟨c, -, h⟩ := G.bind_eq_ok.1 h
    obtain ⟨u, h1, h⟩ := G.bind_eq_ok.1 h
    exact (addVersion_frame h1).trans (ih h)

theorem processLadder_frame {env : CEnv} {label : Bytes} {ladder : List BinaryLadderStep} {vers : List Nat}
    {manual : List (Nat × Bytes)} {v w : Verifier} (h : processLadder env label ladder vers manual v = .ok w) :
    Frame v w := by
  unfold processLadder at h
  split at h
  · cases h
  · exact processSteps_frame h

theorem newVerifier_ok {state : Option ClientState} {last : Option Nat} {fth : FullTreeHead} {proof : CombinedTreeProof}
    {v : Verifier} (h : newVerifier state last fth proof = .ok v) :
    v.state = state ∧ v.fth = fth ∧ v.m = last ∧ v.nP = fth.auditor.map (·.treeSize) ∧ treeSizeOf fth last = .ok v.n ∧
      retainedProvider state proof = .ok v.p := by
  unfold newVerifier at h
  obtain ⟨p, h1, h⟩ := G.bind_eq_ok.1 h
  obtain ⟨n, h2, h⟩ := G.bind_eq_ok.1 h
  cases h
  exact ⟨rfl, rfl, rfl, rfl, h2, h1⟩

theorem verifyAuditor_frame {env : CEnv} {v w : Verifier} {a : AuditorTreeHead} {rootP : Bytes}
    (h : verifyAuditor env v a rootP = .ok w) : Frame v w := by
  unfold verifyAuditor at h
  obtain ⟨-, -, h⟩ := G.bind_eq_ok.1 h
  split at h
  · cases h
  · split at h
    · cases h
    · split at h
      · cases h
      · split at h
        · cases h
        · obtain ⟨tbs, -, h⟩ := G.bind_eq_ok.1 h
          split at h
          · cases h
          · split at h
            · cases h
            · cases h; exact ⟨rfl, rfl, rfl, rfl, rfl⟩

theorem verifyTreeHead_frame {env : CEnv} {v w : Verifier} {root rootP : Bytes}
    (h : verifyTreeHead env v root rootP = .ok w) : Frame v w := by
  unfold verifyTreeHead at h
  split at h
  · split at h
    · cases h
    · cases h; exact Frame.refl _
  · split at h
    · cases h
    · obtain ⟨tbs, -, h⟩ := G.bind_eq_ok.1 h
      split at h
      · cases h
      · split at h
        · cases h; exact Frame.refl _
        · exact verifyAuditor_frame h

/-- the steps of a successful `finish` -/
theorem finish_ok {env : CEnv} {v w : Verifier} {s : ClientState} (h : v.finish env = .ok (s, w)) :
    ∃ result p root rootP, v.p.finish env.cs (Received.handle env.cs) v.n v.nP v.m = (.ok result, p) ∧
      Log.root env.cs v.n result.fullSubtrees = .ok root ∧ auditorRoot env v.nP result.additional = .ok rootP ∧
      verifyTreeHead env { v with p := p } root rootP = .ok w ∧ newState w result = .ok s ∧ Frame v w := by
  unfold Verifier.finish at h
  split at h
  · cases h
  · next result p hf =>
    obtain ⟨root, h1, h⟩ := G.bind_eq_ok.1 h
    obtain ⟨rootP, h2, h⟩ := G.bind_eq_ok.1 h
    obtain ⟨u, h3, h⟩ := G.bind_eq_ok.1 h
    obtain ⟨st, h4, h⟩ := G.bind_eq_ok.1 h
    cases h
    refine ⟨result, p, root, rootP, hf, h1, h2, h3, h4, ?_⟩
    have := verifyTreeHead_frame h3
    exact ⟨this.state, this.fth, this.n, this.nP, this.m⟩

theorem run_runs {σ α : Type} (H : Handle σ) (prog : Prog α) (p : Provider σ) :
    Runs prog (p.trace H prog) (p.run H prog).1 := by
  induction prog generalizing p with
  | ret r => exact .ret _
  | op q k ih => exact .op _ (ih _ _)

/-- a successful `UpdateView` does not go back -/
theorem updateView_size {env : CEnv} {now : Nat} {v w : Verifier} (h : v.updateView env now = .ok w) :
    ∀ k ∈ v.m, k ≤ v.n := by
  obtain ⟨-, hr⟩ := updateView_frame h
  have hrun := run_runs (Received.handle env.cs) (Alg.updateView env.cfg now v.n v.m) v.p
  rw [hr] at hrun
  intro k hk
  by_contra hlt
  unfold Alg.updateView at hrun
  rw [if_pos] at hrun
  · exact absurd hrun runs_fail_ok
  · rw [Option.mem_def] at hk
    rw [hk]
    simpa using hlt

/-- **The tree head never changes.**  If a verifier made for the client's own state gets through `UpdateView` and
`finish`, then the client had a state, and the response had no tree head. -/
theorem finish_same_head {env : CEnv} {now : Nat} {state : Option ClientState} {fth : FullTreeHead}
    {proof : CombinedTreeProof} {v0 v1 v2 v3 w : Verifier} {s : ClientState}
    (h0 : newVerifier state (getLast state) fth proof = .ok v0) (f01 : Frame v0 v1)
    (h12 : v1.updateView env now = .ok v2) (f23 : Frame v2 v3) (h : v3.finish env = .ok (s, w)) :
    ∃ s0, state = some s0 ∧ fth.treeHead = none ∧ s.treeHead = s0.treeHead ∧ s.auditor = fth.auditor := by
  obtain ⟨e1, e2, e3, e4, e5, -⟩ := newVerifier_ok h0
  obtain ⟨result, p, root, rootP, -, -, -, hv, hs, fw⟩ := finish_ok h
  have f03 : Frame v0 v3 := (f01.trans (updateView_frame h12).1).trans f23
  have f0w := f03.trans fw
  unfold newState at hs
  rw [f0w.state, e1] at hs
  cases state with
  | none => cases hs
  | some s0 =>
    refine ⟨s0, rfl, ?_⟩
    cases hs
    rw [f0w.fth, e2]
    cases hth : fth.treeHead with
    | none => simp
    | some th =>
      exfalso
      have hsize := updateView_size h12 s0.treeHead.treeSize (by rw [f01.m, e3]; rfl)
      unfold verifyTreeHead at hv
      simp only [f03.fth, e2, hth] at hv
      rw [if_pos] at hv
      · cases hv
      · rw [f03.state, e1]
        simp only [Option.any_some, decide_eq_true_eq]
        rw [f03.n, ← f01.n]
        exact hsize

end Katie.Client
