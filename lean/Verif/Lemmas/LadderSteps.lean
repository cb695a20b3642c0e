import Verif.Lemmas.ClientSound

/-! The commitments that a client takes from the steps of a binary ladder. -/

namespace Katie.Client
open Katie Katie.Wire Katie.Alg

theorem processSteps_from {env : CEnv} {label : Bytes} {manual : List (Nat × Bytes)}
    (l : List (Nat × BinaryLadderStep)) (v w : Verifier) (h : processSteps env label manual l v = .ok w) :
    ∀ ver k, w.p.state.versions.lookup ver = some k → v.p.state.versions.lookup ver = some k ∨
      ∃ step, (ver, step) ∈ l ∧ ladderCommitment manual ver step = .ok k.com := by
  induction l generalizing v with
  | nil => cases h; exact fun _ _ h => Or.inl h
  | cons e l ih =>
    obtain ⟨ver, step⟩ := e
    unfold processSteps at h
    obtain ⟨i, h1, h⟩ := G.bind_eq_ok.1 h
    obtain ⟨o, h2, h⟩ := G.bind_eq_ok.1 h
    obtain ⟨c, h3, h⟩ := G.bind_eq_ok.1 h
    obtain ⟨u, h4, h⟩ := G.bind_eq_ok.1 h
    unfold Verifier.addVersion at h4
    obtain ⟨s, h5, h4⟩ := G.bind_eq_ok.1 h4
    have h4 := Except.ok.inj h4
    subst h4
    unfold Received.addVersion at h5
    obtain ⟨vs, h6, h5⟩ := G.bind_eq_ok.1 h5
    have h5 := Except.ok.inj h5
    subst h5
    unfold Alg.addVersion at h6
    split at h6
    · cases h6
    split at h6
    · cases h6
    split at h6
    · cases h6
    have h6 := Except.ok.inj h6
    subst h6
    intro y k hy
    rcases ih _ h y k hy with h7 | ⟨step', h7, h8⟩
    · simp only [List.lookup_cons] at h7
      split at h7
      · next heq =>
        rw [beq_iff_eq] at heq
        subst heq
        have h7 := Option.some.inj h7
        subst h7
        exact Or.inr ⟨step, List.mem_cons_self, h3⟩
      · exact Or.inl h7
    · exact Or.inr ⟨step', List.mem_cons_of_mem _ h7, h8⟩

/-- without commitments computed by the client, a known commitment is the one in the step for the version -/
theorem processLadder_from {env : CEnv} {label : Bytes} {ladder : List BinaryLadderStep} {vers : List Nat} {v w : Verifier}
    (h : processLadder env label ladder vers [] v = .ok w) :
    ∀ ver k, w.p.state.versions.lookup ver = some k → v.p.state.versions.lookup ver = some k ∨
      ∃ step, (ver, step) ∈ vers.zip ladder ∧ step.commitment = k.com := by
  unfold processLadder at h
  split at h
  · cases h
  intro ver k hk
  rcases processSteps_from _ _ _ h ver k hk with h3 | ⟨step, h3, h4⟩
  · exact Or.inl h3
  · exact Or.inr ⟨step, h3, Except.ok.inj h4⟩

end Katie.Client
