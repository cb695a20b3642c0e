import Verif.Props.C34_HonestAudit
import Verif.Props.C12_Exact

/-
C34: exactly which histories of an honest log an auditor can follow.
-/

namespace Katie.Props
open Katie Katie.Wire Katie.Server Katie.ServerSpec Katie.PrefixSpec Katie.AuditSpec Katie.Audit Katie.SearchSpec

/-- a new auditor accepts all the updates, and computes the root of the log's prefix tree in the end -/
def Follows (env : Env) (us : List AuditorUpdate) : Prop :=
  ∃ a, auditAll env.cs env.cfg us {} = .ok a ∧
    ∀ s, a.state = some s → s.prefixTree = rootHash env.cs.H env.cs.hashSize (contents (us.map batchOf))

/-- among the strings that are hashed for one of the updates, two collide or one has an all-zero digest -/
def Collision (env : Env) (us : List AuditorUpdate) : Prop :=
  ∃ us' u, us' ++ [u] <+: us ∧
    (Broken env.cs (verifierInputs env.cs (u.added ++ u.removed) u.proof)
      (rootInputs env.cs.H env.cs.hashSize (contents (us'.map batchOf))) ∨
    Broken env.cs (afterInputs env.cs u.added u.removed u.proof)
      (rootInputs env.cs.H env.cs.hashSize (contents ((us' ++ [u]).map batchOf))))

theorem Collision.snoc {env : Env} {us : List AuditorUpdate} {u : AuditorUpdate} (h : Collision env us) : Collision env (us ++ [u]) := by
  obtain ⟨us', v, hp, h⟩ := h
  exact ⟨us', v, hp.trans (List.prefix_append _ _), h⟩

theorem checkable_snoc {us : List AuditorUpdate} {u : AuditorUpdate} (h : Checkable us)
    (hu : ((batchOf u).add.map Prod.fst ++ (batchOf u).remove).Nodup ∧ (batchOf u).Resolved (contents (us.map batchOf))) :
    Checkable (us ++ [u]) := by
  intro i v hv
  by_cases hi : i < us.length
  · rw [List.getElem?_append_left hi] at hv
    rw [List.take_append_of_le_length (by omega)]
    exact h i v hv
  · have hi' : i = us.length := by
      by_contra hc
      rw [List.getElem?_eq_none (by simp; omega)] at hv
      cases hv
    subst hi'
    simp only [List.getElem?_concat_length, Option.some.injEq] at hv
    subst hv
    rw [List.take_append_of_le_length (le_refl _), List.take_length]
    exact hu

theorem auditAll_split (cs : Log.Suite) (cfg : Config) : ∀ (us : List AuditorUpdate) (u : AuditorUpdate) (a b : Auditor),
    auditAll cs cfg (us ++ [u]) a = .ok b →
    ∃ c s, auditAll cs cfg us a = .ok c ∧ processed cs cfg c.state u = .ok s ∧ b.state = some s
  | [], u, a, b, h => by
    rw [List.nil_append] at h
    unfold auditAll process at h
    cases hp : processed cs cfg a.state u with
    | error e => rw [hp] at h; cases h
    | ok s => rw [hp] at h; cases h; exact ⟨a, s, rfl, hp, rfl⟩
  | v :: us, u, a, b, h => by
    rw [List.cons_append] at h
    unfold auditAll at h
    rw [auditAll.eq_2]
    cases hp : process cs cfg v a with
    | mk r a' =>
      rw [hp] at h
      cases r with
      | error e => cases h
      | ok _ => exact auditAll_split cs cfg us u a' b h

/-- One step: an auditor that has accepted an update had the right root before, and the update is one that can be
checked if the root is right afterwards. -/
theorem follows_step {env : Env} (hcs : env.cs.Good) (hsm : Prefix.Small env.cs) {cs : List Change} {us : List AuditorUpdate}
    {t t' : Tree} {c : Change} {u : AuditorUpdate} (hr : ServerSpec.Runs env cs us t) (hm : mutate env c t = (.ok u, t'))
    (hc : ChangeOk env c) (hrange : InRange (cs ++ [c])) (hne : cs = [] ∨ u.added ≠ [] ∨ u.removed ≠ [])
    {a : Option AState} {s : AState} (hp : processed env.cs env.cfg a u = .ok s) :
    (∀ s0, a = some s0 → s0.prefixTree = rootHash env.cs.H env.cs.hashSize (contents (us.map batchOf))) ∧
    ((batchOf u).add.map Prod.fst ++ (batchOf u).remove).Nodup ∧
    (DescribesO env.cs (logOf env.cs us) a →
      s.prefixTree = rootHash env.cs.H env.cs.hashSize (contents ((us ++ [u]).map batchOf)) →
      (batchOf u).Resolved (contents (us.map batchOf)) ∨ Collision env (us ++ [u])) := by
  obtain ⟨_, hinv⟩ := runs_inv hcs hsm hr
  obtain ⟨res, d, hf⟩ := runs_change hcs hsm hr hm hc hrange hne
  obtain ⟨_, hinv'⟩ := runs_inv hcs hsm (ServerSpec.Runs.change hr hm hc hrange hne)
  have hcount : (contents (us.map batchOf ++ [batchOf u])).length < 2 ^ 54 := by
    have h1 := hinv'.count
    have h2 := hrange.pairs
    rw [List.map_append, List.map_singleton] at h1
    omega
  have hsize' := hrange.size
  rw [List.length_append, List.length_singleton] at hsize'
  have hver : (us.map batchOf).length + 1 < 2 ^ 64 := by rw [List.length_map, hinv.len]; omega
  have hne' : us.map batchOf = [] ∨ (batchOf u).add ≠ [] ∨ (batchOf u).remove ≠ [] := by
    rcases hne with hne | hne | hne
    · left
      have := hinv.len
      rw [hne] at this
      rw [List.length_eq_zero_iff.1 this]
      rfl
    · right; left; unfold batchOf; simpa using hne
    · right; right; unfold batchOf; simpa using hne
  have hb1 : entries (batchOf u).add = u.added := entries_pairs _
  have hb2 : entries ((batchOf u).remove.zip res.removed) = u.removed := by
    rw [← hf.removed]
    unfold entries batchOf
    rw [List.zip_map', List.map_map]
    exact List.map_id _
  obtain ⟨c1, -, -, -, -, -, r, p, before, after, hprev, c7, c8, hev, c9, hs⟩ := processed_ok.1 hp
  have hdist : ((batchOf u).add.map Prod.fst ++ (batchOf u).remove).Nodup := by
    unfold Prefix.evaluateBeforeAfter at hev
    obtain ⟨n, hn, -⟩ := G.bind_eq_ok.1 hev
    unfold Prefix.evaluate at hn
    obtain ⟨_, hchk, -⟩ := G.bind_eq_ok.1 hn
    have := ((Prefix.checkEntries_ok _ _ _ _).mp hchk).2
    rw [List.map_append] at this
    unfold batchOf
    simpa [List.map_map, Function.comp_def] using this
  obtain ⟨n, T, -, -, hn, -, hbefore⟩ := mutate_evaluates hcs hsm hinv.hist (batchOf u) res hf.mutate hne' hver hcount hdist
  rw [hb1, hb2, ← hf.proof] at hn
  have hbf : before = rootHash env.cs.H env.cs.hashSize (contents (us.map batchOf)) := by
    unfold Prefix.evaluateBeforeAfter at hev
    rw [hn, G.ok_bind] at hev
    obtain ⟨n', -, hev⟩ := G.bind_eq_ok.1 hev
    cases hev
    exact hbefore
  refine ⟨fun s0 h0 => by rw [← c9 s0 h0, hbf], hdist, fun hd hroot => ?_⟩
  -- the root afterwards
  have ht : u.timestamp < 2 ^ 64 := by rw [hf.time]; exact hc.now
  have hg : GoodTimes (timeOf (logOf env.cs us)) (logOf env.cs us).length := by rw [logOf_length]; exact hinv.times
  have hWn : (logOf env.cs us).length + 1 < 2 ^ 64 := by rw [logOf_length, hinv.len]; omega
  have hgood := good_next after hd hg ht c1
  obtain ⟨r0, p0, h1, h2, h3⟩ := previousRightmost_spec (cfg := env.cfg) hd (good_next [] hd hg ht c1) hWn
  rw [hprev] at h1
  obtain ⟨rfl, rfl⟩ := Prod.mk.inj (Except.ok.inj h1)
  obtain ⟨r', s', h4, h5, -, -, -⟩ := updateState_spec hcs (cfg := env.cfg) (p := p) u.added hd hgood hWn
    (by intro y hy; rw [timeOf_root _ _ _ []]; exact h3 y hy)
  rw [hs] at h4
  cases h4
  have hlast := h5.last
  rw [List.getLast?_append, List.getLast?_singleton] at hlast
  simp only [Option.some_or, Option.some.injEq, LogEntry.mk.injEq] at hlast
  obtain ⟨hmap, X, hpinv⟩ := Prefix.history_inv hcs hsm hinv.hist
  have happ : contents ((us ++ [u]).map batchOf) = (batchOf u).apply (contents (us.map batchOf)) := by
    rw [List.map_append, List.map_singleton, Prefix.contents_snoc]
  have hlenR : res.removed.length = (batchOf u).remove.length := by
    rw [← hf.removed]; simp [batchOf]
  have hwp : Prefix.WireProof env.cs.hashSize u.proof := by
    rw [hf.proof]
    refine mutate_wireProof hcs ?_ ?_ hf.mutate
    · rw [Prefix.entries_vrf]
      exact Prefix.vrfs_len (fun e he => (hf.valid.addLen e he).1) hf.valid.removeLen
    · rcases hne' with h | h | h
      · exact Or.inl (by rw [h]; rfl)
      · exact Or.inr (Or.inl (by rw [hb1]; intro h'; apply h; unfold batchOf; rw [h']; rfl))
      · exact Or.inr (Or.inr h)
  have := C12_exact hcs _ hmap (batchOf u) res.removed hlenR u.proof hwp after (fun e he => (hf.valid.addLen e he).2)
    (by rw [hb1, hb2, hev, hbf])
  rw [hb1, hb2, ← happ] at this
  rcases this with h | h
  · exact .inl (h.1 (by rw [hlast.2, hroot]))
  · exact .inr ⟨us, u, List.prefix_rfl, h⟩

/-- **C34**, exactly: an auditor that is given all the updates of an honest log accepts each of them and has the log's root in
the end if and only if every update is `Checkable`, unless hash inputs collide or have an all-zero digest. -/
theorem C34_exact {env : Env} (hcs : env.cs.Good) (hsm : Prefix.Small env.cs) {cs : List Change}
    {us : List AuditorUpdate} {t : Tree} (h : ServerSpec.Runs env cs us t) :
    (Follows env us ↔ Checkable us) ∨ Collision env us := by
  by_cases hcol : Collision env us
  · exact .inr hcol
  refine .inl ⟨?_, fun hchk => ?_⟩
  · revert hcol
    induction h with
    | start _ => intro _ _ i u hu; simp at hu
    | restart _ _ ih => exact ih
    | failed _ _ _ ih => exact ih
    | @change cs us t t' c u hr hm hc hrange hne ih =>
      rintro hcol ⟨a, ha, hroot⟩
      obtain ⟨b, s, hb, hp, hs⟩ := auditAll_split _ _ _ _ _ _ ha
      obtain ⟨f1, f2, f3⟩ := follows_step hcs hsm hr hm hc hrange hne hp
      have hchk := ih (fun h => hcol h.snoc) ⟨b, hb, f1⟩
      obtain ⟨b', hb', hd, -⟩ := audit_all hcs hsm hr hchk
      rw [hb] at hb'
      cases hb'
      rcases f3 hd (hroot s hs) with h | h
      · exact checkable_snoc hchk ⟨f2, h⟩
      · exact absurd h hcol
  · obtain ⟨a, ha, -⟩ := C34_accepted_partial hcs hsm h hchk
    obtain ⟨a', ha', hd, -⟩ := audit_all hcs hsm h hchk
    rw [ha] at ha'
    cases ha'
    refine ⟨a, ha, fun s hs => ?_⟩
    rw [hs] at hd
    have hds : Describes env.cs (logOf env.cs us) s := hd
    have hu0 : us ≠ [] := by
      rintro rfl
      have := hds.pos
      rw [logOf_length] at this
      exact absurd this (by simp)
    obtain ⟨us', w, rfl⟩ : ∃ us' w, us = us' ++ [w] := ⟨us.dropLast, us.getLast hu0, (List.dropLast_append_getLast hu0).symm⟩
    rw [hds.root _ (by rw [logOf_snoc, List.getLast?_concat])]

/-- **An auditor that has lost track of an honest log notices at once**: if it accepts all the updates, then all but the last are
`Checkable`.  So the update after one that cannot be checked is rejected, unless hash inputs collide or have an all-zero digest. -/
theorem C34_noticed {env : Env} (hcs : env.cs.Good) (hsm : Prefix.Small env.cs) {cs : List Change} {us : List AuditorUpdate}
    {u : AuditorUpdate} {t : Tree} (h : ServerSpec.Runs env cs (us ++ [u]) t) {a : Auditor}
    (ha : auditAll env.cs env.cfg (us ++ [u]) {} = .ok a) : Checkable us ∨ Collision env us := by
  have key : ∀ {cs vs t}, ServerSpec.Runs env cs vs t → vs = us ++ [u] →
      ∃ cs' t', ServerSpec.Runs env cs' us t' ∧ Follows env us := by
    intro cs vs t h
    induction h with
    | start _ => intro h; simp at h
    | restart _ _ ih => exact ih
    | failed _ _ _ ih => exact ih
    | @change cs us' t t' c u' hr hm hc hrange hne ih =>
      intro he
      obtain ⟨h1, h2⟩ := List.append_inj' he rfl
      subst h1
      have h3 := (List.cons.inj h2).1
      subst h3

      obtain ⟨b, s, hb, hp, -⟩ := auditAll_split _ _ _ _ _ _ ha
      exact ⟨cs, t, hr, b, hb, (follows_step hcs hsm hr hm hc hrange hne hp).1⟩
  obtain ⟨cs', t', hr, hfol⟩ := key h rfl
  rcases C34_exact hcs hsm hr with h | h
  · exact .inl (h.1 hfol)
  · exact .inr h

/-- no collision: checked update by update -/
theorem no_collision {env : Env} {us : List AuditorUpdate} (h : ∀ i, (hi : i < us.length) →
    ¬ ((Collides env.cs.H (verifierInputs env.cs (us[i].added ++ us[i].removed) us[i].proof)
          (rootInputs env.cs.H env.cs.hashSize (contents ((us.take i).map batchOf))) ∨
        ZeroDigest env.cs.H env.cs.hashSize (verifierInputs env.cs (us[i].added ++ us[i].removed) us[i].proof ++
          rootInputs env.cs.H env.cs.hashSize (contents ((us.take i).map batchOf)))) ∨
      (Collides env.cs.H (afterInputs env.cs us[i].added us[i].removed us[i].proof)
          (rootInputs env.cs.H env.cs.hashSize (contents ((us.take (i + 1)).map batchOf))) ∨
        ZeroDigest env.cs.H env.cs.hashSize (afterInputs env.cs us[i].added us[i].removed us[i].proof ++
          rootInputs env.cs.H env.cs.hashSize (contents ((us.take (i + 1)).map batchOf)))))) :
    ¬ Collision env us := by
  rintro ⟨us', u, ⟨r, rfl⟩, hb⟩
  have hi : us'.length < (us' ++ [u] ++ r).length := by simp
  refine h us'.length hi ?_
  have h1 : (us' ++ [u] ++ r)[us'.length] = u := by simp
  have h2 : (us' ++ [u] ++ r).take us'.length = us' := by simp
  have h3 : (us' ++ [u] ++ r).take (us'.length + 1) = us' ++ [u] := by simp [List.take_append]
  rw [h1, h2, h3]
  exact hb

/-- `C34_exact` where the auditor cannot follow: the execution of `C34_removal_rejected`, without collisions -/
example : toyEnv.cs.Good ∧ Prefix.Small toyEnv.cs ∧
    ServerSpec.Runs toyEnv toyHistory [toyU1, toyU2, toyU3, toyU4, toyU5] toyT5 ∧
    ¬ Collision toyEnv [toyU1, toyU2, toyU3, toyU4, toyU5] ∧ ¬ Checkable [toyU1, toyU2, toyU3, toyU4, toyU5] ∧
    ¬ Follows toyEnv [toyU1, toyU2, toyU3, toyU4, toyU5] := by
  have hc : ¬ Collision toyEnv [toyU1, toyU2, toyU3, toyU4, toyU5] := by
    refine no_collision ?_
    unfold Collides ZeroDigest
    decide +kernel
  have hf : ¬ Follows toyEnv [toyU1, toyU2, toyU3, toyU4, toyU5] := by
    rintro ⟨a, ha, -⟩
    rw [C34_removal_rejected.2.2] at ha
    cases ha
  have hs : Prefix.Small toyEnv.cs := (by decide : toySuite.hashSize ≤ 32)
  refine ⟨toySuite_good, hs, toyHistory_runs, hc, ?_, hf⟩
  rcases C34_exact toySuite_good hs toyHistory_runs with h | h
  · exact fun h' => hf (h.2 h')
  · exact absurd h hc

/-- `C34_exact` where the auditor follows all the changes, some of them removals, without collisions -/
example : ServerSpec.Runs toyEnv toyRemovalHistory [toyRU1, toyRU2, toyRU3, toyRU4] toyRT4 ∧
    ¬ Collision toyEnv [toyRU1, toyRU2, toyRU3, toyRU4] ∧ Follows toyEnv [toyRU1, toyRU2, toyRU3, toyRU4] := by
  have hc : ¬ Collision toyEnv [toyRU1, toyRU2, toyRU3, toyRU4] := by
    refine no_collision ?_
    unfold Collides ZeroDigest
    decide +kernel
  refine ⟨toyRemoval_runs, hc, ?_⟩
  rcases C34_exact (env := toyEnv) toySuite_good (by decide : toySuite.hashSize ≤ 32) toyRemoval_runs with h | h
  · refine h.2 ?_
    intro i u hu
    match i, hu with
    | 0, hu => cases hu; exact ⟨by decide +kernel, by decide +kernel⟩
    | 1, hu => cases hu; exact ⟨by decide +kernel, by decide +kernel⟩
    | 2, hu => cases hu; exact ⟨by decide +kernel, by decide +kernel⟩
    | 3, hu => cases hu; exact ⟨by decide +kernel, by decide +kernel⟩
  · exact absurd h hc

/-- `C34_noticed`: all updates but the last are accepted and checkable here -/
example : ∃ a, auditAll toyEnv.cs toyEnv.cfg ([toyRU1, toyRU2, toyRU3] ++ [toyRU4]) {} = .ok a := by
  have h : (auditAll toyEnv.cs toyEnv.cfg ([toyRU1, toyRU2, toyRU3] ++ [toyRU4]) {}).toBool = true := by decide +kernel
  cases hx : auditAll toyEnv.cs toyEnv.cfg ([toyRU1, toyRU2, toyRU3] ++ [toyRU4]) {} with
  | ok a => exact ⟨a, rfl⟩
  | error e => rw [hx] at h; cases h

end Katie.Props
