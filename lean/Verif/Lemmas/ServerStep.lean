import Verif.Lemmas.ServerRuns

/-
Executions of the server: the invariant of `ServerRuns` holds in every reachable state.
-/

namespace Katie.Server
open Katie Katie.Wire Katie.ServerSpec Katie.PrefixSpec Katie.AuditSpec Katie.SearchSpec

theorem mutate_ok_iff {env : Env} {c : Change} {t t' : Tree} {u : AuditorUpdate} (h : mutate env c t = (.ok u, t')) :
    ∃ hd st, mutateStore env c t.size t.tx = (.ok (hd, .ok u), st) ∧ t' = { t with db := st, tx := st, head := some hd } := by
  unfold mutate at h
  split at h
  · obtain ⟨h1, _⟩ := Prod.mk.inj h
    cases h1
  · rename_i hd v st hm
    obtain ⟨rfl, rfl⟩ := Prod.mk.inj h
    exact ⟨hd, st, hm, rfl⟩

/-- A call of `Mutate` that fails has committed nothing. -/
theorem mutate_error {env : Env} {c : Change} {t t' : Tree} {e : Fault} (h : mutate env c t = (.error e, t')) :
    t'.db = t.db ∧ t'.head = t.head := by
  unfold mutate at h
  split at h
  · obtain ⟨_, rfl⟩ := Prod.mk.inj h
    exact ⟨rfl, rfl⟩
  · rename_i hd v st hm
    exfalso
    obtain ⟨rfl, _⟩ := Prod.mk.inj h
    unfold mutateStore at hm
    obtain ⟨d, hd1, k1⟩ := St.read_bind_ok.1 hm
    obtain ⟨ms, hg, k2⟩ := St.read_bind_ok.1 k1
    obtain ⟨rs, s1, hf, k3⟩ := St.bind_ok.1 k2
    obtain ⟨res, hres, k4⟩ := St.read_bind_ok.1 k3
    rw [St.modify_bind] at k4
    obtain ⟨hd', s2, hi, k5⟩ := St.bind_ok.1 k4
    obtain ⟨k6, _⟩ := St.pure_ok.1 k5
    obtain ⟨_, hau⟩ := Prod.mk.inj k6
    obtain ⟨u, hu⟩ := auditorUpdate_total (t := c.now) (added := Prefix.sortBy Prefix.Entry.vrf (rs.flatMap (·.1)))
      (proof := res.proof) (Prefix.mutate_removed_length hres)
    rw [hu] at hau
    cases hau

theorem newTree_ok {env : Env} {db : Store} {t : Tree} (h : newTree env db = .ok t) :
    t.db = db ∧ t.tx = db ∧ readHead db.head = .ok t.head := by
  unfold newTree at h
  obtain ⟨hd, h1, k1⟩ := G.bind_eq_ok.1 h
  obtain ⟨a, h2, k2⟩ := G.bind_eq_ok.1 k1
  rw [← Except.ok.inj k2]
  exact ⟨rfl, rfl, h1⟩

theorem inv_restart {env : Env} {cs : List Change} {us : List AuditorUpdate} {db : Store} {head : Option TreeHead} {t : Tree}
    (h : Inv env cs us db head) (ht : newTree env db = .ok t) : t.tx = t.db ∧ Inv env cs us t.db t.head := by
  obtain ⟨h1, h2, h3⟩ := newTree_ok ht
  refine ⟨by rw [h1, h2], ?_⟩
  have hs := h.size
  rw [h.head.read (by rw [logOf_length, h.len]; omega)] at h3
  rw [h1, ← Except.ok.inj h3]
  exact h

theorem runs_inv {env : Env} (hcs : env.cs.Good) (hsm : Prefix.Small env.cs) {cs : List Change} {us : List AuditorUpdate}
    {t : Tree} (h : ServerSpec.Runs env cs us t) : t.tx = t.db ∧ Inv env cs us t.db t.head := by
  induction h with
  | start ht => exact inv_restart (inv_start env) ht
  | @change cs us t t' c u hr hm hc hrange hne ih =>
    obtain ⟨htx, hinv⟩ := ih
    obtain ⟨hd, st, hms, rfl⟩ := mutate_ok_iff hm
    rw [hinv.head.size, logOf_length, hinv.len, htx] at hms
    exact ⟨rfl, (mutate_step hcs hsm hinv hc hrange hms hne).1⟩
  | restart hr ht ih => exact inv_restart ih.2 ht
  | failed hr hm ht ih =>
    rw [(mutate_error hm).1] at ht
    exact inv_restart ih.2 ht

/-- the facts about one change in an execution -/
theorem runs_change {env : Env} (hcs : env.cs.Good) (hsm : Prefix.Small env.cs) {cs : List Change} {us : List AuditorUpdate}
    {t t' : Tree} {c : Change} {u : AuditorUpdate} (h : ServerSpec.Runs env cs us t) (hm : mutate env c t = (.ok u, t'))
    (hc : ChangeOk env c) (hrange : InRange (cs ++ [c])) (hne : cs = [] ∨ u.added ≠ [] ∨ u.removed ≠ []) :
    ∃ res d, StepFacts env cs us t.db c u res d := by
  obtain ⟨htx, hinv⟩ := runs_inv hcs hsm h
  obtain ⟨hd, st, hms, rfl⟩ := mutate_ok_iff hm
  rw [hinv.head.size, logOf_length, hinv.len, htx] at hms
  exact (mutate_step hcs hsm hinv hc hrange hms hne).2

/-- Every prefix of the changes was once all there was. -/
theorem runs_prefix {env : Env} {cs : List Change} {us : List AuditorUpdate} {t : Tree} (h : ServerSpec.Runs env cs us t) :
    ∀ k, k ≤ cs.length → ∃ t', ServerSpec.Runs env (cs.take k) (us.take k) t' := by
  have hlen : ∀ {cs us t}, ServerSpec.Runs env cs us t → us.length = cs.length := by
    intro cs us t h
    induction h with
    | start => rfl
    | change _ _ _ _ _ ih => simp [ih]
    | restart _ _ ih => exact ih
    | failed _ _ _ ih => exact ih
  induction h with
  | start ht =>
    intro k _
    rw [List.take_nil, List.take_nil]
    exact ⟨_, .start ht⟩
  | @change cs us t t' c u hr hm hc hrange hne ih =>
    intro k hk
    by_cases hk' : k ≤ cs.length
    · rw [List.take_append_of_le_length hk', List.take_append_of_le_length (by rw [hlen hr]; exact hk')]
      exact ih k hk'
    · have h1 : (cs ++ [c]).length ≤ k := by simp; omega
      have h2 : (us ++ [u]).length ≤ k := by simp [hlen hr]; omega
      rw [List.take_of_length_le h1, List.take_of_length_le h2]
      exact ⟨_, .change hr hm hc hrange hne⟩
  | restart hr ht ih => exact ih
  | failed hr hm ht ih => exact ih

end Katie.Server
