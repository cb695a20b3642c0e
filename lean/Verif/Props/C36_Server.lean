import Verif.Lemmas.ServerVersions
import Verif.Props.C07_C09_Prefix
import Verif.Props.ServerExample

/-
C36: versions are assigned consecutively, positions never decrease.
C58: the published tree head covers the whole log.

`Runs env cs us t` (Spec/Server.lean): the server `t` has made the changes `cs` — calls of `Mutate` that succeeded — and
has returned the updates `us`; it may have been restarted, and other calls may have failed, each followed by a restart.
-/

namespace Katie.Props
open Katie Katie.Wire Katie.Server Katie.ServerSpec Katie.PrefixSpec Katie.AuditSpec

/-! ### C36 -/

/-- The versions of a label are numbered in the order in which they were submitted: if no change removed the label, its
version `v` is the `v`-th value submitted for it, over all batches, and there are no others. -/
theorem C36_consecutive {env : Env} (hcs : env.cs.Good) (hsm : Prefix.Small env.cs) {cs : List Change}
    {us : List AuditorUpdate} {t : Tree} (h : ServerSpec.Runs env cs us t) (l : Bytes) (hl : ∀ c ∈ cs, l ∉ c.remove) :
    (∃ index, getIndex t.db l = .ok index ∧ index.length = (cs.flatMap (added l)).length) ∧
    ∀ v value, (cs.flatMap (added l))[v]? = some value →
      ∃ opening, getVersion env t.db l v = .ok ⟨opening, value⟩ := by
  obtain ⟨_, hinv⟩ := runs_inv hcs hsm h
  have hv := versionsOf_values l cs hl
  refine ⟨⟨_, hinv.getIndex l, by rw [← hv]; simp⟩, ?_⟩
  intro v value hval
  rw [← hv, List.getElem?_map] at hval
  have hg := hinv.getVersion l v
  cases hx : (versionsOf l cs)[v]? with
  | none => rw [hx] at hval; cases hval
  | some x =>
    rw [hx] at hval hg
    simp only [Option.map_some] at hval
    exact ⟨x.opening, by rw [hg, ← Option.some.inj hval]⟩

/-- With removals: the label starts again at version 0 after each removal. -/
theorem C36_versions {env : Env} (hcs : env.cs.Good) (hsm : Prefix.Small env.cs) {cs : List Change}
    {us : List AuditorUpdate} {t : Tree} (h : ServerSpec.Runs env cs us t) (l : Bytes) :
    getIndex t.db l = .ok ((versionsOf l cs).map Version.pos) ∧
    ∀ v x, (versionsOf l cs)[v]? = some x → getVersion env t.db l v = .ok ⟨x.opening, x.value⟩ := by
  obtain ⟨_, hinv⟩ := runs_inv hcs hsm h
  refine ⟨hinv.getIndex l, ?_⟩
  intro v x hx
  have hg := hinv.getVersion l v
  rw [hx] at hg
  exact hg

/-- The recorded positions never decrease, and are positions of log entries. -/
theorem C36_positions {env : Env} (hcs : env.cs.Good) (hsm : Prefix.Small env.cs) {cs : List Change}
    {us : List AuditorUpdate} {t : Tree} (h : ServerSpec.Runs env cs us t) (l : Bytes) :
    ∃ index, getIndex t.db l = .ok index ∧ index.Pairwise (· ≤ ·) ∧ ∀ p ∈ index, p < t.size := by
  obtain ⟨_, hinv⟩ := runs_inv hcs hsm h
  have hp := versionsOf_pos l cs
  refine ⟨_, hinv.getIndex l, hp.1, ?_⟩
  rw [hinv.head.size, logOf_length, hinv.len]
  exact hp.2

/-- What a lookup in the prefix tree of log entry `x` returns for the VRF output of version `v` of label `l`: it is
there exactly when the label had a version `v` after the change that made log entry `x` — unless another version of
some label has the same VRF output. -/
theorem C36_prefix_tree {env : Env} (hcs : env.cs.Good) (hsm : Prefix.Small env.cs) {cs : List Change}
    {us : List AuditorUpdate} {t : Tree} (h : ServerSpec.Runs env cs us t) (x : Nat) (hx : x < cs.length) (l : Bytes) (v : Nat)
    (out proof : Bytes) (hout : computeVrf env l v = .ok (out, proof)) (hlen : out.length = env.cs.hashSize) :
    ∃ pf com, Prefix.search env.cs t.db.tiles [⟨x + 1, [out]⟩] = .ok [(pf, [com])] ∧
      ((com.isSome ↔ v < (versionsOf l (cs.take (x + 1))).length) ∨
       ∃ l' v' proof', (l', v') ≠ (l, v) ∧ v' < (versionsOf l' (cs.take (x + 1))).length ∧
         computeVrf env l' v' = .ok (out, proof')) := by
  obtain ⟨_, hinv⟩ := runs_inv hcs hsm h
  obtain ⟨t', h'⟩ := runs_prefix h (x + 1) hx
  obtain ⟨_, hinv'⟩ := runs_inv hcs hsm h'
  obtain ⟨outs, hs, hf⟩ := C09_search_partial hcs hsm hinv.hist [⟨x + 1, [out]⟩] (by
    intro s hs
    rw [List.mem_singleton] at hs
    subst hs
    refine ⟨by simp, by rw [List.length_map, hinv.len]; exact hx, by simp, ?_⟩
    intro w hw
    rw [List.mem_singleton] at hw
    rw [hw]; exact hlen)
  cases hf with
  | cons hr htail =>
    cases htail
    rename_i r
    obtain ⟨pf, coms⟩ := r
    obtain ⟨hr1, -, -⟩ := hr
    simp only at hr1
    cases hr1 with
    | cons hc htl =>
      cases htl
      rename_i com
      refine ⟨pf, com, hs, ?_⟩
      have hmap : (us.map batchOf).take (x + 1) = (us.take (x + 1)).map batchOf := by rw [List.map_take]
      rw [hmap] at hc
      have key : ∀ {l' v' y p}, (versionsOf l' (cs.take (x + 1)))[v']? = some y → pairOf env l' v' y = .ok p → p.1 = out →
          com = some p.2 := by
        intro l' v' y p hy hp he
        rw [hc, ← he]
        exact (hinv'.mem p).2 ⟨l', v', y, hy, hp⟩
      by_cases hv : v < (versionsOf l (cs.take (x + 1))).length
      · left
        simp only [hv, iff_true]
        have hy := List.getElem?_eq_getElem hv
        obtain ⟨p, hp⟩ := hinv'.total l v _ hy
        obtain ⟨pr, hpr⟩ := pairOf_vrf hp
        rw [hout] at hpr
        rw [key hy hp (Prod.mk.inj (Except.ok.inj hpr)).1.symm]
        rfl
      · cases com with
        | none => left; simp [hv]
        | some c =>
          right
          obtain ⟨l', v', y, hy, hp⟩ := (hinv'.mem (out, c)).1 ((hc c).1 rfl)
          obtain ⟨pr, hpr⟩ := pairOf_vrf hp
          have hv' : v' < (versionsOf l' (cs.take (x + 1))).length := by
            by_contra hcon
            rw [List.getElem?_eq_none (by omega)] at hy
            cases hy
          refine ⟨l', v', pr, ?_, hv', hpr⟩
          intro he
          obtain ⟨rfl, rfl⟩ := Prod.mk.inj he
          exact hv hv'

/-- Version `v` of a label is in the prefix tree of log entry `x` exactly when its recorded position is at most `x`,
provided the label has not been removed after log entry `x` (and VRF outputs do not coincide). -/
theorem C36_in_tree_iff_position {env : Env} (hcs : env.cs.Good) (hsm : Prefix.Small env.cs) {cs : List Change}
    {us : List AuditorUpdate} {t : Tree} (h : ServerSpec.Runs env cs us t) (x : Nat) (hx : x < cs.length) (l : Bytes)
    (hl : ∀ c ∈ cs.drop (x + 1), l ∉ c.remove) (v : Nat) (out proof : Bytes)
    (hout : computeVrf env l v = .ok (out, proof)) (hlen : out.length = env.cs.hashSize)
    (hvrf : ∀ l' v' proof', computeVrf env l' v' = .ok (out, proof') → (l', v') = (l, v)) :
    ∃ index pf com, getIndex t.db l = .ok index ∧ Prefix.search env.cs t.db.tiles [⟨x + 1, [out]⟩] = .ok [(pf, [com])] ∧
      (com.isSome ↔ ∃ p, index[v]? = some p ∧ p ≤ x) := by
  obtain ⟨_, hinv⟩ := runs_inv hcs hsm h
  obtain ⟨pf, com, hs, hr⟩ := C36_prefix_tree hcs hsm h x hx l v out proof hout hlen
  refine ⟨_, pf, com, hinv.getIndex l, hs, ?_⟩
  rcases hr with hr | ⟨l', v', pr', hne, _, hc⟩
  · rw [hr, versionsOf_take l cs (x + 1) hx hl v]
    simp only [Nat.lt_succ_iff]
  · exact absurd (hvrf l' v' pr' hc) hne

/-! ### C58 -/

/-- In every execution the tree head that the server publishes, and has stored, is the signature over the number of
changes and the Merkle root of the whole log; the entries of the log are readable, and are the timestamps and prefix tree
roots that the updates describe. -/
theorem C58_head_covers_log {env : Env} (hcs : env.cs.Good) (hsm : Prefix.Small env.cs) {cs : List Change}
    {us : List AuditorUpdate} {t : Tree} (h : ServerSpec.Runs env cs us t) (hne : cs ≠ []) :
    ∃ W : List LogEntry, W.length = cs.length ∧ (∀ x, (hx : x < W.length) → getEntry env t.db x = .ok W[x]) ∧
      (∀ x, (hx : x < W.length) → (us[x]?).map AuditorUpdate.timestamp = some W[x].timestamp ∧
        W[x].prefixTree = rootHash env.cs.H env.cs.hashSize (contents ((us.take (x + 1)).map batchOf))) ∧
      ∃ sig tbs, t.head = some ⟨cs.length, sig⟩ ∧ readHead t.db.head = .ok t.head ∧
        treeHeadTBS env.cfg cs.length (LogSpec.rootHash env.cs.H (W.map (leafHash env.cs))) = .ok tbs ∧
        env.sign tbs = .ok sig := by
  obtain ⟨_, hinv⟩ := runs_inv hcs hsm h
  have hlen : (logOf env.cs us).length = cs.length := by rw [logOf_length, hinv.len]
  refine ⟨logOf env.cs us, hlen, ?_, ?_, ?_⟩
  · intro x hx
    exact hinv.getEntry hcs x _ (List.getElem?_eq_getElem hx)
  · intro x hx
    have hxu : x < us.length := by rw [logOf_length] at hx; exact hx
    rw [List.getElem?_eq_getElem hxu]
    simp [logOf]
  · have hs := hinv.size
    have hread := hinv.head.read (by omega)
    rcases hinv.head with ⟨h0, _⟩ | ⟨_, sig, tbs, b, _, h2, _, h4, h5⟩
    · rw [h0] at hlen
      exact absurd (List.length_eq_zero_iff.1 hlen.symm) hne
    · rw [hlen] at h2 h4
      exact ⟨sig, tbs, h2, hread, h4, h5⟩

/-- The head in an execution can always be read back: restarting never fails on it. -/
theorem C58_restart {env : Env} (hcs : env.cs.Good) (hsm : Prefix.Small env.cs) {cs : List Change}
    {us : List AuditorUpdate} {t : Tree} (h : ServerSpec.Runs env cs us t) (ha : t.db.auditor = none) :
    ∃ t', newTree env t.db = .ok t' ∧ t'.db = t.db ∧ t'.head = t.head := by
  obtain ⟨_, hinv⟩ := runs_inv hcs hsm h
  have hs := hinv.size
  have hread := hinv.head.read (by rw [logOf_length, hinv.len]; omega)
  refine ⟨⟨t.db, t.db, t.head, none⟩, ?_, rfl, rfl⟩
  unfold newTree
  rw [hread, ha]
  rfl

/-! ### Examples -/

/-- The hypotheses of the theorems above are met: an execution of five changes. -/
example : toyEnv.cs.Good ∧ Prefix.Small toyEnv.cs ∧
    ServerSpec.Runs toyEnv toyHistory [toyU1, toyU2, toyU3, toyU4, toyU5] toyT5 ∧
    getIndex toyT5.db [10] = .ok [0, 0, 1] ∧ getIndex toyT5.db [20] = .ok [4] ∧ toyT5.size = 5 :=
  ⟨toySuite_good, (by decide : toySuite.hashSize ≤ 32), toyHistory_runs, by decide +kernel, by decide +kernel, rfl⟩

/-- The proviso of `C36_in_tree_iff_position` is needed: label 20 was in the first prefix tree, was removed and added
again, and its index now says that its version 0 was not there before log entry 4. -/
theorem C36_removed_label_differs :
    ServerSpec.Runs toyEnv toyHistory [toyU1, toyU2, toyU3, toyU4, toyU5] toyT5 ∧ getIndex toyT5.db [20] = .ok [4] ∧
    ∃ out proof pf com, computeVrf toyEnv [20] 0 = .ok (out, proof) ∧
      Prefix.search toyEnv.cs toyT5.db.tiles [⟨1, [out]⟩] = .ok [(pf, [some com])] :=
  ⟨toyHistory_runs, by decide +kernel, [71], [], ⟨[.inclusion 2], [[193], [0]]⟩, [134], by decide +kernel, by decide +kernel⟩

/-- Without a restart after a call that failed, the claim is false.  The second call stores a version of label 20,
then fails because label 10 was modified recently; the third call succeeds, and commits what the second one left behind.
The index then says that label 20 has a version since log entry 1, the prefix tree of log entry 1 does not have it. -/
theorem C36_after_failure_false : ∃ t₁ t₂ t₃ u₁ u₃,
    mutate toyEnv (toyChange [⟨[10], ⟨[1], none⟩⟩] [] 5) {} = (.ok u₁, t₁) ∧
    mutate toyEnv (toyChange [⟨[20], ⟨[2], none⟩⟩] [[10]] 6) t₁ =
      (goErr "unable to delete label that was modified recently", t₂) ∧
    mutate toyEnv (toyChange [⟨[30], ⟨[3], none⟩⟩] [] 7) t₂ = (.ok u₃, t₃) ∧
    getIndex t₃.db [20] = .ok [1] ∧
    ∃ out proof pf, computeVrf toyEnv [20] 0 = .ok (out, proof) ∧
      Prefix.search toyEnv.cs t₃.db.tiles [⟨2, [out]⟩] = .ok [(pf, [none])] :=
  ⟨⟨toyFail1, toyFail1, some ⟨1, [80]⟩, none⟩, ⟨toyFail1, toyFail2, some ⟨1, [80]⟩, none⟩,
   ⟨toyFail3, toyFail3, some ⟨2, [225]⟩, none⟩,
   ⟨5, [⟨[29], [167]⟩], [], ⟨[.nonInclusionParent 0], []⟩⟩,
   ⟨7, [⟨[113], [101]⟩], [], ⟨[.nonInclusionLeaf [29] [167] 0], []⟩⟩,
   by decide +kernel, by decide +kernel, by decide +kernel, by decide +kernel, [71], [],
   ⟨[.nonInclusionLeaf [113] [101] 2], [[218], [0]]⟩, by decide +kernel, by decide +kernel⟩

end Katie.Props
