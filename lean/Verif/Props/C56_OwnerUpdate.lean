import Verif.Lemmas.OwnerUpdate

/-
C56: what `Monitor.Update` checks when a label owner's new versions are added at a log entry.
Runs are against an arbitrary provider, as in C29.
-/

namespace Katie.Props
open Katie Katie.SearchSpec Katie.Alg Katie.SearchTree

variable {m m' : Monitor} {o : Owner} {ts : Nat → Nat} {tr : List Ev} {pos : Nat} {k : Int}

/-- what a successful `Update(pos, k)` with owner state `o` has established -/
structure UpdateOk (m m' : Monitor) (o o' : Owner) (ts : Nat → Nat) (tr : List Ev) (pos : Nat) (k : Int) : Prop where
  /-- the position is a log entry right of all versions known before -/
  pos_new : o.lastUpdate < pos ∧ pos < m.treeSize
  /-- at least one version was added, and version numbers fit in 32 bits -/
  count : 1 ≤ k ∧ 0 ≤ o.greatest + k ∧ o.greatest + k < 2 ^ 32 - 1
  /-- the owner now expects `k` more versions, from `pos` on -/
  owner : m'.owner = some o' ∧ o'.WF ∧ o'.greatest = o.greatest + k
  before : ∀ y, y < pos → o'.greatestAt y = o.greatestAt y
  after : ∀ y, pos ≤ y → o'.greatestAt y = o.greatest + k
  /-- every new version was proved to be included at `pos`, except those looked up in the ladder for the greatest one -/
  new_included : ∃ vs ladder, (⟨.incl pos vs, .ok ()⟩ : Ev) ∈ tr ∧
    Ladder.searchBinaryLadder (o.greatest + k).toNat (o.greatest + k).toNat [] [] = .ok ladder ∧
    ∀ v : Nat, o.greatest < v → v ≤ o.greatest + k → v ∈ vs ∨ v ∈ ladder
  /-- entries of the right edge of the previous tree, unless distinguished or checked by an earlier update, had no other version -/
  previous : ∀ y, OnFrontier pos y → ¬ Distinguished (Wide m.cfg.rmw) ts m.treeSize y → o.lastUpdate < y →
    ShownGreatest tr y o.greatest true
  /-- a distinguished entry is left to owner monitoring -/
  dist : Distinguished (Wide m.cfg.rmw) ts m.treeSize pos → m'.contact = m.contact
  /-- from any other, a ladder showed that the last new version is the greatest one, and it is monitored -/
  nondist : ¬ Distinguished (Wide m.cfg.rmw) ts m.treeSize pos →
    (⟨.search pos (o.greatest + k).toNat true, .ok (0 : Int)⟩ : Ev) ∈ tr ∧
    ∀ y, (m'.contact.getD []).lookup y = if y = pos then some (o.greatest + k).toNat else (m.contact.getD []).lookup y
  rest : m'.cfg = m.cfg ∧ m'.treeSize = m.treeSize ∧ m'.rightmost = m.rightmost

/-- A successful `Update` has checked all of the above. -/
theorem C56_update_sound (ho : m.owner = some o) (hwf : o.WF) (hg : -1 ≤ o.greatest) (ht : GoodTimes ts m.treeSize) (htr : TsTrace tr ts)
    (h : Runs (monitorUpdate m pos k) tr (.ok m')) : ∃ o', UpdateOk m m' o o' ts tr pos k := by
  unfold monitorUpdate at h
  rw [ho] at h
  simp only [] at h
  rw [runs_ite] at h
  rcases h with ⟨-, h⟩ | ⟨h1, h⟩
  · exact absurd h runs_fail_ok
  rw [runs_ite] at h
  rcases h with ⟨-, h⟩ | ⟨h2, h⟩
  · exact absurd h runs_fail_ok
  rw [runs_ite] at h
  rcases h with ⟨-, h⟩ | ⟨h3, h⟩
  · exact absurd h runs_fail_ok
  rw [runs_ite] at h
  rcases h with ⟨-, h⟩ | ⟨h4, h⟩
  · exact absurd h runs_fail_ok
  obtain ⟨ladder, t1, t2, rfl, hl, h⟩ := runs_bind_ok.1 h
  have hl := (runs_lift.1 hl).2
  obtain ⟨u, t3, t4, rfl, hv, h⟩ := runs_bind_ok.1 h
  obtain ⟨res, t5, t6, rfl, hr, h⟩ := runs_bind_ok.1 h
  have hnd := nonDistinguishedAncestor_runs ht (by omega : pos < m.treeSize) htr.right.right.left hr
  have hprev := verifyPreviousTree_runs ht (by omega : pos < m.treeSize) htr.right.left hv
  obtain ⟨w1, w2, w3, w4⟩ := update_owner hwf (k := k.toNat) (by omega : o.lastUpdate < pos)
  have ek : (k.toNat : Int) = k := by omega
  rw [ek] at w2 w4
  have hbefore : ∀ y, y < pos → ({ o with upcoming := o.upcoming ++ List.replicate k.toNat pos } : Owner).greatestAt y = o.greatestAt y := by
    intro y hy; rw [greatestAt_eq w1, greatestAt_eq hwf]; exact w3 y hy
  have hafter : ∀ y, pos ≤ y → ({ o with upcoming := o.upcoming ++ List.replicate k.toNat pos } : Owner).greatestAt y = o.greatest + k := by
    intro y hy; rw [greatestAt_eq w1]; exact w4 y hy
  have hprev' : ∀ y, OnFrontier pos y → ¬ Distinguished (Wide m.cfg.rmw) ts m.treeSize y → o.lastUpdate < y →
      ShownGreatest (t1 ++ (t3 ++ (t5 ++ t6))) y o.greatest true :=
    fun y a b c => (hprev y a b c).mono (fun e he => List.mem_append_right _ (List.mem_append_left _ he))
  have hnew : ∀ v : Nat, o.greatest < v → v ≤ o.greatest + k →
      v ∈ additionalVersions ladder (o.greatest + 1).toNat ((o.greatest + k).toNat + 1 - (o.greatest + 1).toNat) ∨ v ∈ ladder := by
    intro v hv1 hv2
    by_cases hm : v ∈ ladder
    · exact Or.inr hm
    · exact Or.inl (mem_additional.2 ⟨by omega, by omega, hm⟩)
  rw [runs_ite] at h
  rcases h with ⟨rfl, h⟩ | ⟨hne, h⟩
  · rcases hnd with ⟨-, hd⟩ | ⟨_, _, _, hcon, _⟩
    · obtain ⟨u', t7, t8, rfl, hi, h⟩ := runs_bind_ok.1 h
      obtain ⟨rfl, hk⟩ := runs_pure.1 h
      have hi := runs_call.1 hi
      have hk := Except.ok.inj hk
      subst hk
      refine ⟨_, ⟨⟨by omega, by omega⟩, ⟨by omega, by omega, by omega⟩, ⟨rfl, w1, w2⟩, hbefore, hafter, ⟨_, ladder, ?_, hl.symm, hnew⟩, hprev', fun _ => rfl,
        fun hcon => absurd hd hcon, rfl, rfl, rfl⟩⟩
      rw [hi]
      simp only [List.mem_append]
      exact Or.inr (Or.inr (Or.inr (Or.inl List.mem_cons_self)))
    · cases hcon
  · rcases hnd with ⟨hcon, -⟩ | ⟨_, _, _, -, -, -, -, -, hd⟩
    · exact absurd hcon hne
    · obtain ⟨r, t7, t8, rfl, hs, h⟩ := runs_bind_ok.1 h
      have hs := runs_call.1 hs
      rw [runs_ite] at h
      rcases h with ⟨-, h⟩ | ⟨h0, h⟩
      · exact absurd h runs_fail_ok
      have hr0 : r = 0 := by simpa using h0
      subst hr0
      obtain ⟨u', t9, t10, rfl, hi, h⟩ := runs_bind_ok.1 h
      obtain ⟨rfl, hk⟩ := runs_pure.1 h
      have hi := runs_call.1 hi
      have hk := Except.ok.inj hk
      subst hk
      refine ⟨_, ⟨⟨by omega, by omega⟩, ⟨by omega, by omega, by omega⟩, ⟨rfl, w1, w2⟩, hbefore, hafter, ⟨_, ladder, ?_, hl.symm, hnew⟩, hprev', fun hcon => absurd hcon hd,
        fun _ => ⟨?_, ?_⟩, rfl, rfl, rfl⟩⟩
      · rw [hi]
        simp only [List.mem_append]
        exact Or.inr (Or.inr (Or.inr (Or.inr (Or.inl List.mem_cons_self))))
      · rw [hs]
        simp only [List.mem_append]
        exact Or.inr (Or.inr (Or.inr (Or.inl List.mem_cons_self)))
      · intro y
        exact lookup_set _ _ _ _

/-- A failing `Update` returns an error, its own or one of the provider for an entry of the tree, as long as version numbers stay below
`2^31 - 1`; the `panic("unreachable")` is indeed unreachable. -/
theorem C56_update_failures (hg : ∀ o, m.owner = some o → o.greatest + k < 2 ^ 31 - 1) {f : Fault}
    (h : Runs (monitorUpdate m pos k) tr (.error f)) : IsErr f ∨ ∃ q, InTree m.treeSize q ∧ (⟨q, .error f⟩ : Ev) ∈ tr := by
  have hsp : Spec (monitorUpdate m pos k) (InTree m.treeSize) (fun _ => True) IsErr := by
    unfold monitorUpdate
    split
    · exact .fail ⟨_, rfl⟩
    rename_i o ho
    have hgo := hg o ho
    refine .ite (fun _ => .fail ⟨_, rfl⟩) (fun h1 => .ite (fun _ => .fail ⟨_, rfl⟩) (fun h2 => .ite (fun _ => .fail ⟨_, rfl⟩) (fun h3 =>
      .ite (fun _ => .fail ⟨_, rfl⟩) (fun h4 => ?_))))
    simp only []
    obtain ⟨base, hbase, -⟩ := Ladder.baseBinaryLadder_ok (n := (o.greatest + k).toNat) (by omega)
    have hl : Ladder.searchBinaryLadder (o.greatest + k).toNat (o.greatest + k).toNat [] [] =
        .ok (Ladder.searchLoop (o.greatest + k).toNat (o.greatest + k).toNat [] [] base) := by
      unfold Ladder.searchBinaryLadder
      rw [hbase]; rfl
    have hp : pos < m.treeSize := by omega
    refine .bindT (.lift_ok hl trivial) (fun ladder => .bindT (verifyPreviousTree_spec (by omega) hp (by omega)) (fun _ =>
      .bindT (nonDistinguishedAncestor_spec hp).trueQ (fun r => .ite (fun _ => .bindT (.call hp) (fun _ => .pure trivial)) (fun _ =>
        .bindT (.call hp) (fun r => .ite (fun _ => .fail ⟨_, rfl⟩) (fun _ => .bindT (.call hp) (fun _ => .pure trivial)))))))
  rcases hsp.error tr f h with h | h
  · exact Or.inr h
  · exact Or.inl h

/-- From version `2^31 - 1` on `Update` does not return: the code accepts versions up to `2^32 - 2`, but computing their ladder
does not terminate (C19). -/
theorem C56_update_diverges (ho : m.owner = some o) (hp : o.lastUpdate < pos) (hn : pos < m.treeSize) (hk : 1 ≤ k)
    (h1 : 2 ^ 31 - 1 ≤ o.greatest + k) (h2 : o.greatest + k < 2 ^ 32 - 1) {r : G Monitor} (h : Runs (monitorUpdate m pos k) tr r) :
    r = .error .diverge := by
  unfold monitorUpdate at h
  rw [ho] at h
  simp only [] at h
  rw [if_neg (by omega), if_neg (by omega), if_neg (by omega), if_neg (by omega)] at h
  have hd : Ladder.searchBinaryLadder (o.greatest + k).toNat (o.greatest + k).toNat [] [] = .error .diverge := by
    unfold Ladder.searchBinaryLadder Ladder.baseBinaryLadder
    rw [Ladder.base_diverges (by omega) (by omega)]; rfl
  rcases runs_bind.1 h with ⟨a, t1, t2, rfl, hl, -⟩ | ⟨e, hl, rfl⟩
  · have := (runs_lift.1 hl).2
    rw [hd] at this; cases this
  · have := (runs_lift.1 hl).2
    rw [hd] at this; cases this
    rfl

/-- versions 3, 4 and 5 are added at entry 6 of a log of 7 entries, which is not distinguished -/
example : (monitorUpdate ⟨{ rmw := 50 }, 180, 7, none, some ⟨1, 0, [3, 5]⟩⟩ 6 3).eval
    (honest (fun x => [10, 20, 40, 90, 110, 160, 180].getD x 0) (fun x => [0, 0, 0, 1, 1, 2, 5].getD x 0)) =
    .ok ⟨{ rmw := 50 }, 180, 7, some [(6, 5)], some ⟨1, 0, [3, 5, 6, 6, 6]⟩⟩ := by decide

end Katie.Props
