import Verif.Lemmas.ServerAudit
import Verif.Props.ServerExample2

/-
C34: the auditor accepts everything an honest log publishes.

`Runs env cs us t`: the server `t` has made the changes `cs` and has returned the updates `us` (Spec/Server.lean).
`auditAll`: a new auditor is given the updates one after the other (Spec/Server.lean).
-/

namespace Katie.Props
open Katie Katie.Wire Katie.Server Katie.ServerSpec Katie.PrefixSpec Katie.AuditSpec

theorem auditAll_snoc (cs : Log.Suite) (cfg : Config) (us : List AuditorUpdate) (u : AuditorUpdate) (a b : Audit.Auditor)
    (h : auditAll cs cfg us a = .ok b) : auditAll cs cfg (us ++ [u]) a = auditAll cs cfg [u] b := by
  induction us generalizing a with
  | nil => cases h; rfl
  | cons v us ih =>
    rw [List.cons_append]
    unfold auditAll at h
    rw [auditAll.eq_2]
    cases hp : Audit.process cs cfg v a with
    | mk r a' =>
      rw [hp] at h
      cases r with
      | error e => cases h
      | ok _ => exact ih a' h

theorem checkable_init {us : List AuditorUpdate} {u : AuditorUpdate} (h : Checkable (us ++ [u])) : Checkable us ∧
    ((batchOf u).add.map Prod.fst ++ (batchOf u).remove).Nodup ∧ (batchOf u).Resolved (contents (us.map batchOf)) := by
  constructor
  · intro i v hv
    have hi : i < us.length := by
      by_contra hc
      rw [List.getElem?_eq_none (by omega)] at hv
      cases hv
    have := h i v (by rw [List.getElem?_append_left hi]; exact hv)
    rwa [List.take_append_of_le_length (by omega)] at this
  · have := h us.length u (by simp)
    rwa [List.take_append_of_le_length (le_refl _), List.take_length] at this

theorem audit_all {env : Env} (hcs : env.cs.Good) (hsm : Prefix.Small env.cs) {cs : List Change}
    {us : List AuditorUpdate} {t : Tree} (h : ServerSpec.Runs env cs us t) : Checkable us →
    ∃ a, auditAll env.cs env.cfg us {} = .ok a ∧ DescribesO env.cs (logOf env.cs us) a.state ∧ Recent env cs a.state := by
  induction h with
  | start _ =>
    intro _
    exact ⟨{}, rfl, rfl, fun s hs => by cases hs⟩
  | restart _ _ ih => exact ih
  | failed _ _ _ ih => exact ih
  | @change cs us t t' c u hr hm hc hrange hne ih =>
    intro hchk
    obtain ⟨hchk', hu⟩ := checkable_init hchk
    obtain ⟨a, ha, hd, hrec⟩ := ih hchk'
    obtain ⟨_, hinv⟩ := runs_inv hcs hsm hr
    obtain ⟨res, d, hf⟩ := runs_change hcs hsm hr hm hc hrange hne
    obtain ⟨_, hinv'⟩ := runs_inv hcs hsm (ServerSpec.Runs.change hr hm hc hrange hne)
    have hcount : (contents (us.map batchOf ++ [batchOf u])).length < 2 ^ 54 := by
      have h1 := hinv'.count
      have h2 := hrange.pairs
      rw [List.map_append, List.map_singleton] at h1
      omega
    have hne' : us = [] ∨ u.added ≠ [] ∨ u.removed ≠ [] := by
      rcases hne with hne | hne
      · left
        have := hinv.len
        rw [hne] at this
        exact List.length_eq_zero_iff.1 this
      · exact .inr hne
    obtain ⟨s, hp, hds, -, hrec'⟩ := audit_step hcs hsm hinv hf hc hrange hne' hcount hu hd hrec
    refine ⟨{ a with state := some s }, ?_, hds, hrec'⟩
    rw [auditAll_snoc _ _ _ _ _ _ ha]
    unfold auditAll Audit.process
    rw [hp]
    rfl

/-- C34: a new auditor that is given all the updates of an honest log, one after the other, accepts each of them.  In the
end it has the size of the log, the root of the current prefix tree, and the Merkle root that the log has signed.
Missing for the full statement: a call of `Mutate` that removes a label and adds it again, and removals that leave an
unlisted entry alone in its subtree (`Checkable`); for these the claim is false, see `C34_replace_rejected` and
`C34_removal_rejected`. -/
theorem C34_accepted_partial {env : Env} (hcs : env.cs.Good) (hsm : Prefix.Small env.cs) {cs : List Change}
    {us : List AuditorUpdate} {t : Tree} (h : ServerSpec.Runs env cs us t) (hchk : Checkable us) :
    ∃ a, auditAll env.cs env.cfg us {} = .ok a ∧
      (cs ≠ [] → ∃ s root sig tbs, a.state = some s ∧ s.treeSize = cs.length ∧
        s.prefixTree = rootHash env.cs.H env.cs.hashSize (contents (us.map batchOf)) ∧
        Log.root env.cs s.treeSize s.fullSubtrees = .ok root ∧
        t.head = some ⟨cs.length, sig⟩ ∧ treeHeadTBS env.cfg cs.length root = .ok tbs ∧ env.sign tbs = .ok sig) := by
  obtain ⟨a, ha, hd, -⟩ := audit_all hcs hsm h hchk
  refine ⟨a, ha, ?_⟩
  intro hne
  obtain ⟨_, hinv⟩ := runs_inv hcs hsm h
  have hlen : (logOf env.cs us).length = cs.length := by rw [logOf_length, hinv.len]
  have hpos : 0 < cs.length := List.length_pos_of_ne_nil hne
  obtain ⟨s, hs⟩ : ∃ s, a.state = some s := by
    cases hst : a.state with
    | none =>
      rw [hst] at hd
      have : logOf env.cs us = [] := hd
      rw [this] at hlen
      simp at hlen
      omega
    | some s => exact ⟨s, rfl⟩
  rw [hs] at hd
  have hds : Describes env.cs (logOf env.cs us) s := hd
  have hu0 : us ≠ [] := by
    intro h0
    have := hinv.len
    rw [h0] at this
    simp at this
    omega
  have hsize : s.treeSize = cs.length := by rw [hds.size, hlen]
  have hroot : Log.root env.cs s.treeSize s.fullSubtrees =
      .ok (LogSpec.rootHash env.cs.H ((logOf env.cs us).map (leafHash env.cs))) := by
    have hl : ((logOf env.cs us).map (leafHash env.cs)).length = cs.length := by rw [List.length_map, hlen]
    have hmax : LogMath.maxTreeSize = 2 ^ 63 := by decide +kernel
    have hsz := hinv.size
    rw [hds.heads, hsize, ← hl]
    refine Log.root_heads hcs ?_ (by rw [hl]; exact hpos) (by rw [hl, hmax]; omega)
    intro v hv
    obtain ⟨w, _, rfl⟩ := List.mem_map.1 hv
    exact Audit.leafHash_len hcs w
  rcases hinv.head with ⟨h0, _⟩ | ⟨_, sig, tbs, b, _, h2, _, h4, h5⟩
  · rw [h0] at hlen; simp at hlen; omega
  · rw [hlen] at h2 h4
    refine ⟨s, _, sig, tbs, hs, hsize, ?_, hroot, h2, h4, h5⟩
    obtain ⟨us', w, rfl⟩ : ∃ us' w, us = us' ++ [w] := ⟨us.dropLast, us.getLast hu0, (List.dropLast_append_getLast hu0).symm⟩
    rw [hds.root _ (by rw [logOf_snoc, List.getLast?_concat])]

/-- Without removals, C34 holds as it stands. -/
theorem C34_additions {env : Env} (hcs : env.cs.Good) (hsm : Prefix.Small env.cs) {cs : List Change}
    {us : List AuditorUpdate} {t : Tree} (h : ServerSpec.Runs env cs us t) (hrem : ∀ c ∈ cs, c.remove = []) :
    ∃ a, auditAll env.cs env.cfg us {} = .ok a ∧
      (cs ≠ [] → ∃ s root sig tbs, a.state = some s ∧ s.treeSize = cs.length ∧
        s.prefixTree = rootHash env.cs.H env.cs.hashSize (contents (us.map batchOf)) ∧
        Log.root env.cs s.treeSize s.fullSubtrees = .ok root ∧
        t.head = some ⟨cs.length, sig⟩ ∧ treeHeadTBS env.cfg cs.length root = .ok tbs ∧ env.sign tbs = .ok sig) := by
  refine C34_accepted_partial hcs hsm h ?_
  clear * - h hcs hsm hrem
  induction h with
  | start _ => intro i u hu; simp at hu
  | restart _ _ ih => exact ih hrem
  | failed _ _ _ ih => exact ih hrem
  | @change cs us t t' c u hr hm hc hrange hne ih =>
    obtain ⟨_, hinv⟩ := runs_inv hcs hsm hr
    obtain ⟨res, d, hf⟩ := runs_change hcs hsm hr hm hc hrange hne
    have hr0 : (batchOf u).remove = [] := by
      rw [List.eq_nil_iff_forall_not_mem]
      intro o ho
      obtain ⟨l, _, _, _, _, hl, _⟩ := hf.recent o ho
      rw [hrem c (by simp)] at hl
      cases hl
    intro i v hv
    by_cases hi : i < us.length
    · rw [List.getElem?_append_left hi] at hv
      rw [List.take_append_of_le_length (by omega)]
      exact ih (fun c hc => hrem c (List.mem_append_left _ hc)) i v hv
    · have hi' : i = us.length := by
        by_contra hc
        rw [List.getElem?_eq_none (by simp; omega)] at hv
        cases hv
      subst hi'
      simp only [List.getElem?_concat_length, Option.some.injEq] at hv
      subst hv
      refine ⟨?_, Prefix.resolved_of_add hr0⟩
      rw [hr0, List.append_nil]
      exact hf.valid.addDistinct

/-- The hypotheses of `C34_accepted_partial` are met by an execution of four changes, the third a removal. -/
example : toyEnv.cs.Good ∧ Prefix.Small toyEnv.cs ∧ toyRemovalHistory ≠ [] ∧
    ServerSpec.Runs toyEnv toyRemovalHistory [toyRU1, toyRU2, toyRU3, toyRU4] toyRT4 ∧
    Checkable [toyRU1, toyRU2, toyRU3, toyRU4] := by
  refine ⟨toySuite_good, (by decide : toySuite.hashSize ≤ 32), by simp [toyRemovalHistory], toyRemoval_runs, ?_⟩
  intro i u hu
  match i, hu with
  | 0, hu => cases hu; exact ⟨by decide +kernel, by decide +kernel⟩
  | 1, hu => cases hu; exact ⟨by decide +kernel, by decide +kernel⟩
  | 2, hu => cases hu; exact ⟨by decide +kernel, by decide +kernel⟩
  | 3, hu => cases hu; exact ⟨by decide +kernel, by decide +kernel⟩

/-- C34 is false for removals: in this execution the fourth change removes label 20, which leaves label 30 alone in its
subtree.  The auditor accepts the update but computes another root than the log; it then rejects the fifth update. -/
theorem C34_removal_rejected :
    ServerSpec.Runs toyEnv toyHistory [toyU1, toyU2, toyU3, toyU4, toyU5] toyT5 ∧
    (∃ a, auditAll toyEnv.cs toyEnv.cfg [toyU1, toyU2, toyU3, toyU4] {} = .ok a) ∧
    auditAll toyEnv.cs toyEnv.cfg [toyU1, toyU2, toyU3, toyU4, toyU5] {} =
      goErr "prefix tree root does not match expected" := by
  refine ⟨toyHistory_runs, ?_, by decide +kernel⟩
  have h : (auditAll toyEnv.cs toyEnv.cfg [toyU1, toyU2, toyU3, toyU4] {}).toBool = true := by decide +kernel
  cases hx : auditAll toyEnv.cs toyEnv.cfg [toyU1, toyU2, toyU3, toyU4] {} with
  | ok a => exact ⟨a, rfl⟩
  | error e => rw [hx] at h; cases h

/-- C34 is false for a call of `Mutate` that removes a label and adds it again: the log makes the change, the auditor
rejects the update because a VRF output is listed twice. -/
theorem C34_replace_rejected :
    ServerSpec.Runs toyEnv (toyHistory.take 3 ++ [toyChange [⟨[20], ⟨[7], none⟩⟩] [[20]] 200])
      [toyU1, toyU2, toyU3, toyXU4] toyXT4 ∧
    auditAll toyEnv.cs toyEnv.cfg [toyU1, toyU2, toyU3, toyXU4] {} = goErr "same vrf output present multiple times" :=
  ⟨toyReplace_runs, by decide +kernel⟩

end Katie.Props
