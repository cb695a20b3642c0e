import Verif.Lemmas.LogSound
import Verif.Props.C02_LogAppend

/-
C05: log inclusion proofs are sound.  C06: log consistency proofs are sound.

Both are about `Verifier.Evaluate` (verify.go:54-118) followed by `Root` (log.go:167-195), which is how
every caller uses it.  `L` is the list of leaf values of the log whose root the verifier obtained.  The
alternative is an explicit collision between a string hashed when computing the root of `L` and a string
hashed by the verifier.
-/

namespace Katie.Props
open Katie Katie.Log Katie.LogSpec

/-- C05: every claimed leaf value is the value at that position of the log (and the additional heads the
verifier outputs for a size `k` are the heads of the first `k` leaves), or a collision is exhibited. -/
theorem C05_inclusion_sound {cs : Suite} (hcs : cs.Good) (L : List Bytes)
    (hL : ∀ v ∈ L, v.length = cs.hashSize) (h0 : 0 < L.length)
    (entries : List Nat) (nP : Option Nat) (values proof : List Bytes) (res : EvalResult)
    (h : evaluate cs newVerifier entries L.length nP values proof = .ok res)
    (hroot : root cs L.length res.fullSubtrees = .ok (rootHash cs.H L)) :
    (entries.length = values.length ∧
      (∀ i (hi : i < entries.length), L[entries[i]]? = values[i]?) ∧
      res.fullSubtrees = heads cs.H L ∧
      (∀ k, nP = some k → k ≤ L.length ∧ res.additional = heads cs.H (L.take k))) ∨
    Collides cs.H (inputs cs.H L) (evalInputs L.length res.nodes ++ rootInputs cs.H L.length res.fullSubtrees) := by
  rcases evaluate_sound hcs hL h0 (Or.inl ⟨rfl, rfl⟩) h hroot with ⟨h1, h2, h3, h4, _, h6, _⟩ | hc
  · left
    refine ⟨h2, ?_, h1, fun k hk => (h6 k hk).2⟩
    intro i hi
    have hx := h3 _ (List.getElem_mem hi)
    have hi' : i < values.length := by omega
    have hm : (2 * entries[i], values[i]) ∈ (entries.map (2 * ·)).zip values := by
      rw [List.mem_iff_getElem]
      exact ⟨i, by simp; omega, by simp⟩
    have := h4 _ hm entries[i] 1 (LogMath.Sub.leaf hx) (by simp [LogMath.ht]) (LogMath.nd_leaf _)
    rw [blk_one _ hx] at this
    rw [List.getElem?_eq_getElem hx, List.getElem?_eq_getElem hi']
    simpa using this.symm
  · exact Or.inr hc

/-- C05: there is only one proof.  Two responses that a verifier accepts against the same root, for the same
entries, have the same leaf values and the same proof elements (in particular nothing can be left out of or
added to an accepted proof), or a collision is exhibited. -/
theorem C05_proof_unique {cs : Suite} (hcs : cs.Good) (L : List Bytes)
    (hL : ∀ v ∈ L, v.length = cs.hashSize) (h0 : 0 < L.length)
    (entries : List Nat) (nP : Option Nat) (values proof values' proof' : List Bytes) (res res' : EvalResult)
    (h : evaluate cs newVerifier entries L.length nP values proof = .ok res)
    (hroot : root cs L.length res.fullSubtrees = .ok (rootHash cs.H L))
    (h' : evaluate cs newVerifier entries L.length nP values' proof' = .ok res')
    (hroot' : root cs L.length res'.fullSubtrees = .ok (rootHash cs.H L)) :
    (values = values' ∧ proof = proof') ∨
    Collides cs.H (inputs cs.H L) (evalInputs L.length res.nodes ++ rootInputs cs.H L.length res.fullSubtrees) ∨
    Collides cs.H (inputs cs.H L) (evalInputs L.length res'.nodes ++ rootInputs cs.H L.length res'.fullSubtrees) := by
  rcases C05_inclusion_sound hcs L hL h0 entries nP values proof res h hroot with ⟨a1, a2, _⟩ | hc
  swap
  · exact Or.inr (Or.inl hc)
  rcases C05_inclusion_sound hcs L hL h0 entries nP values' proof' res' h' hroot' with ⟨b1, b2, _⟩ | hc
  swap
  · exact Or.inr (Or.inr hc)
  rcases evaluate_sound hcs hL h0 (Or.inl ⟨rfl, rfl⟩) h hroot with ⟨_, _, _, _, _, _, cop, c1, c2⟩ | hc
  swap
  · exact Or.inr (Or.inl hc)
  rcases evaluate_sound hcs hL h0 (Or.inl ⟨rfl, rfl⟩) h' hroot' with ⟨_, _, _, _, _, _, cop', d1, d2⟩ | hc
  swap
  · exact Or.inr (Or.inr hc)
  left
  rw [c1] at d1
  cases d1
  refine ⟨?_, by rw [c2, d2]⟩
  apply List.ext_getElem (by omega)
  intro i hi1 hi2
  have e1 := a2 i (by omega)
  have e2 := b2 i (by omega)
  rw [e1, List.getElem?_eq_getElem hi1, List.getElem?_eq_getElem hi2] at e2
  exact Option.some.inj e2

/-- C06: if a verifier retained `old` as the heads of an `m`-entry log and accepts a proof against the root
of `L`, then `old` are the heads of the first `m` entries of `L`; the claimed leaf values are true as in
C05; or a collision is exhibited. -/
theorem C06_consistency_sound {cs : Suite} (hcs : cs.Good) (L : List Bytes)
    (hL : ∀ v ∈ L, v.length = cs.hashSize) (m : Nat) (hm : m ≤ L.length) (old : List Bytes) (v : Verifier)
    (hv : retain cs m old = .ok v)
    (entries : List Nat) (nP : Option Nat) (values proof : List Bytes) (res : EvalResult)
    (h : evaluate cs v entries L.length nP values proof = .ok res)
    (hroot : root cs L.length res.fullSubtrees = .ok (rootHash cs.H L)) :
    (old = heads cs.H (L.take m) ∧
      entries.length = values.length ∧
      (∀ i (hi : i < entries.length), L[entries[i]]? = values[i]?) ∧
      res.fullSubtrees = heads cs.H L ∧
      (∀ k, nP = some k → k ≤ L.length ∧ res.additional = heads cs.H (L.take k))) ∨
    Collides cs.H (inputs cs.H L) (evalInputs L.length res.nodes ++ rootInputs cs.H L.length res.fullSubtrees) := by
  unfold retain at hv
  split at hv
  · cases hv
  rename_i hm0
  have hm0 : 0 < m := by omega
  have h0 : 0 < L.length := by omega
  rw [LogMath.root_eq hm0, LogMath.fullSubtrees_eq (LogMath.Sub.root hm0), G.ok_bind] at hv
  split at hv
  · cases hv
  rename_i hlen
  simp only [ne_eq, not_not, List.length_map] at hlen
  split at hv
  · cases hv
  cases hv
  rcases evaluate_sound hcs hL h0 (Or.inr ⟨m, hm0, hm, rfl, rfl⟩) h hroot with ⟨h1, h2, h3, h4, h5, h6, _⟩ | hc
  · left
    refine ⟨?_, h2, ?_, h1, fun k hk => (h6 k hk).2⟩
    · rw [heads_take _ _ hm0 hm]
      apply List.ext_getElem
      · simp [hlen]
      · intro i hi1 hi2
        rw [List.length_map] at hi2
        have hp : (fsList 0 m)[i] ∈ fsList 0 m := List.getElem_mem _
        obtain ⟨a, b, c, d⟩ := fsList_mem _ _ (LogMath.Sub.root hm0) _ hp
        have hmem : (nd (fsList 0 m)[i].1 (fsList 0 m)[i].2, old[i]) ∈
            ((fsList 0 m).map fun p => nd p.1 p.2).zip old := by
          rw [List.mem_iff_getElem]
          exact ⟨i, by simp; omega, by simp⟩
        have := h5 _ hmem _ _ (a.mono b hm) b rfl
        simpa using this
    · intro i hi
      have hx := h3 _ (List.getElem_mem hi)
      have hi' : i < values.length := by omega
      have hm : (2 * entries[i], values[i]) ∈ (entries.map (2 * ·)).zip values := by
        rw [List.mem_iff_getElem]
        exact ⟨i, by simp; omega, by simp⟩
      have := h4 _ hm entries[i] 1 (LogMath.Sub.leaf hx) (by simp [LogMath.ht]) (LogMath.nd_leaf _)
      rw [blk_one _ hx] at this
      rw [List.getElem?_eq_getElem hx, List.getElem?_eq_getElem hi']
      simpa using this.symm
  · exact Or.inr hc

/-- Two consecutive acceptances: a verifier whose retained heads came from the root of an older log `L₁`
cannot be moved to a log `L₂` that does not extend it, unless a collision is exhibited. -/
theorem C06_append_only {cs : Suite} (hcs : cs.Good) (L₁ L₂ : List Bytes)
    (hL₁ : ∀ v ∈ L₁, v.length = cs.hashSize) (hL₂ : ∀ v ∈ L₂, v.length = cs.hashSize)
    (hm : L₁.length ≤ L₂.length) (old : List Bytes) (v : Verifier)
    (hold : root cs L₁.length old = .ok (rootHash cs.H L₁))
    (hv : retain cs L₁.length old = .ok v)
    (entries : List Nat) (nP : Option Nat) (values proof : List Bytes) (res : EvalResult)
    (h : evaluate cs v entries L₂.length nP values proof = .ok res)
    (hroot : root cs L₂.length res.fullSubtrees = .ok (rootHash cs.H L₂)) :
    L₁ = L₂.take L₁.length ∨
    Collides cs.H (inputs cs.H L₁) (inputs cs.H (L₂.take L₁.length)) ∨
    Collides cs.H (inputs cs.H L₂) (evalInputs L₂.length res.nodes ++ rootInputs cs.H L₂.length res.fullSubtrees) := by
  rcases C06_consistency_sound hcs L₂ hL₂ L₁.length hm old v hv entries nP values proof res h hroot with ⟨h1, _⟩ | hc
  · have h0 : 0 < L₁.length := by
      by_contra h0
      have : L₁.length = 0 := by omega
      unfold root at hold
      simp [this] at hold
    have hmax : L₁.length ≤ LogMath.maxTreeSize := by
      unfold root at hold
      split at hold
      · cases hold
      · omega
    have hlen : (L₂.take L₁.length).length = L₁.length := by simp; omega
    have h2 := root_heads hcs (L := L₂.take L₁.length) (fun v hv => hL₂ v (List.mem_of_mem_take hv))
      (by omega) (by omega)
    rw [← h1, hlen, hold] at h2
    rcases merkle_inj hcs L₁.length L₁ (L₂.take L₁.length) rfl hlen h0 hL₁
      (fun v hv => hL₂ v (List.mem_of_mem_take hv)) (Except.ok.inj h2) with h | h
    · exact Or.inl h
    · exact Or.inr (Or.inl h)
  · exact Or.inr (Or.inr hc)

/-- the example log -/
def exLog : List Bytes := [[1], [2], [3], [4], [5]]

/-- a verifier that retained the heads of the first three entries -/
def exVerifier : Verifier := ⟨some 3, [1, 4], [toySuite.H [0, 1, 0, 2], [3]]⟩

/-- root of `exLog`, written out -/
def exRoot : Bytes :=
  toySuite.H ([1] ++ toySuite.H ([1] ++ toySuite.H [0, 1, 0, 2] ++ [1] ++ toySuite.H [0, 3, 0, 4]) ++ [0, 5])

-- it accepts an honest proof for entry 3 of the log of five entries (C06, and C05 with a fresh verifier)
example : retain toySuite 3 [toySuite.H [0, 1, 0, 2], [3]] = .ok exVerifier ∧
    ((evaluate toySuite exVerifier [3] 5 none [[4]] [[5]]).bind fun res => root toySuite 5 res.fullSubtrees)
      = .ok exRoot ∧
    ((evaluate toySuite newVerifier [1, 3] 5 none [[2], [4]] [[1], [3], [5]]).bind
      fun res => root toySuite 5 res.fullSubtrees) = .ok exRoot := by
  decide +kernel

/-- The bound `m ≤ n` of C06 is needed: `Evaluate` does not check the retained size against the new one, and a
verifier that retained 4 entries panics (nil map entry) when it evaluates a proof for a tree of 3. -/
theorem C06_shrinking_tree_panics :
    ((retain toySuite 4 [[9]]).bind fun v => evaluate toySuite v [] 3 none [] [])
      = goPanic "invalid memory address or nil pointer dereference" := by
  decide +kernel

end Katie.Props
