import Verif.Lemmas.Owner

/-
C30: owner monitoring.  Runs are against an arbitrary provider, as in C29.  Vocabulary: `Verif/Spec/Owner.lean`.
-/

namespace Katie.Props
open Katie Katie.SearchSpec Katie.Alg Katie.SearchTree

/-- `GreatestVersionAt` counts: the version at the starting position plus the later versions created up to `y`. -/
theorem C30_greatest_version_at {o : Owner} (h : o.WF) (y : Nat) : o.greatestAt y = o.versionAt y := greatestAt_eq h y

/-- `SetStarting x` keeps the total number of versions and the answers for every position from `x` on, and the new
starting version is the one that was expected at `x`. -/
theorem C30_set_starting {o : Owner} (h : o.WF) (x : Nat) :
    (o.setStarting x).WF ∧ (o.setStarting x).starting = x ∧ (o.setStarting x).greatest = o.greatest ∧
    (o.setStarting x).verAtStarting = o.versionAt x ∧
    ∀ y, x ≤ y → (o.setStarting x).greatestAt y = o.greatestAt y := by
  refine ⟨setStarting_WF h x, rfl, setStarting_greatest h x, ?_, ?_⟩
  · rw [← greatestAt_eq h]; rfl
  · intro y hy
    rw [greatestAt_eq (setStarting_WF h x), greatestAt_eq h, setStarting_versionAt h hy]

/-- the premises: an initialized owner, orderly timestamps, and a proof that stays exhausted once it is
(true of a received proof: `len(PrefixProofs) == 0`, proof_handle.go:251-255) -/
structure OwnerRun (m : Monitor) (o : Owner) (ts : Nat → Nat) (tr : List Ev) (m' : Monitor) : Prop where
  owner : m.owner = some o
  wf : o.WF
  size : 0 < m.treeSize
  times : GoodTimes ts m.treeSize
  rightmost : m.rightmost = ts (m.treeSize - 1)
  answers : TsTrace tr ts
  sticks : StopSticks tr
  run : Runs (ownerMonitor m) tr (.ok m')

variable {m m' : Monitor} {o : Owner} {ts : Nat → Nat} {tr : List Ev}

theorem OwnerRun.walk (h : OwnerRun m o ts tr m') : ∃ o', m' = { m with owner := some o' } ∧ WalkOk m.cfg.rmw ts m.treeSize 0 m.treeSize o o' tr := by
  have hr := h.run
  unfold ownerMonitor at hr
  rw [h.owner] at hr
  simp only [] at hr
  obtain ⟨o', t1, t2, rfl, h1, h2⟩ := runs_bind_ok.1 hr
  obtain ⟨rfl, hk⟩ := runs_pure.1 h2
  have erb : rb ts m.treeSize m.treeSize = ts (m.treeSize - 1) := by simp [rb]
  refine ⟨o', Except.ok.inj hk, ?_⟩
  rw [List.append_nil]
  rw [root_eq h.size, h.rightmost, ← erb] at h1
  exact ownerWalk_runs h.times _ 0 m.treeSize [] o o' t1 (.root h.size) h.wf h.answers.left h.sticks.left h1

/-- A successful monitoring run: the starting position does not move backwards, and is the old one or a distinguished entry; the
total number of versions and the expectations from there on are unchanged; and from every distinguished entry that the
starting position passed (or reached), a ladder showed that the greatest version there is the one the owner expects. -/
theorem C30_monitor_sound (h : OwnerRun m o ts tr m') : ∃ o', m' = { m with owner := some o' } ∧ o'.WF ∧
    o.starting ≤ o'.starting ∧
    (o'.starting = o.starting ∨ Distinguished (Wide m.cfg.rmw) ts m.treeSize o'.starting) ∧
    o'.greatest = o.greatest ∧ (∀ y, o'.starting ≤ y → o'.greatestAt y = o.greatestAt y) ∧
    ∀ y, o.starting < y → y ≤ o'.starting → Distinguished (Wide m.cfg.rmw) ts m.treeSize y → ShownGreatest tr y (o.versionAt y) := by
  obtain ⟨o', h1, h2⟩ := h.walk
  refine ⟨o', h1, h2.adv.wf, h2.adv.le, h2.start.imp id (fun h => h.2.2), h2.adv.total, ?_, ?_⟩
  · intro y hy
    rw [greatestAt_eq h2.adv.wf, greatestAt_eq h.wf]
    exact h2.adv.keeps y hy
  · intro y h3 h4 h5
    exact h2.shown y (by omega) h5.lt h3 h4 h5

/-- If the provider never said that the proof is exhausted, every distinguished entry right of the old starting position was
checked and is not right of the new one. -/
theorem C30_monitor_complete (h : OwnerRun m o ts tr m') (hs : ¬ Stopped tr) : ∃ o', m' = { m with owner := some o' } ∧
    ∀ y, Distinguished (Wide m.cfg.rmw) ts m.treeSize y → y ≤ o'.starting ∧ (o.starting < y → ShownGreatest tr y (o.versionAt y)) := by
  obtain ⟨o', h1, h2⟩ := h.walk
  refine ⟨o', h1, ?_⟩
  intro y hy
  have h3 := (h2.all.resolve_left hs) y (by omega) hy.lt hy
  exact ⟨h3, fun h4 => h2.shown y (by omega) hy.lt h4 h3 hy⟩

/-- A run that fails does so with an error: one of its own, or one that the provider returned for an entry of the tree.  It
does not crash. -/
theorem C30_monitor_failures {m : Monitor} (h0 : 0 < m.treeSize) {tr : List Ev} {f : Fault} (h : Runs (ownerMonitor m) tr (.error f)) :
    IsErr f ∨ ∃ q, InTree m.treeSize q ∧ (⟨q, .error f⟩ : Ev) ∈ tr := by
  have hsp : Spec (ownerMonitor m) (InTree m.treeSize) (fun _ => True) IsErr := by
    unfold ownerMonitor
    split
    · exact .fail ⟨_, rfl⟩
    · refine .bindT ?_ (fun _ => .pure trivial)
      rw [root_eq h0]
      exact ownerWalk_spec _ _ _ [] _ _ _ (.root h0) (by omega)
  rcases hsp.error tr f h with h | h
  · exact Or.inr h
  · exact Or.inl h

/-- On an honest log in which every distinguished entry after the starting position has the expected version, monitoring
succeeds. -/
theorem C30_honest_log_accepted {m : Monitor} {o : Owner} {ts : Nat → Nat} {g : Nat → Int} (ho : m.owner = some o) (hwf : o.WF)
    (h0 : 0 < m.treeSize) (ht : GoodTimes ts m.treeSize) (hrm : m.rightmost = ts (m.treeSize - 1))
    (hg : ∀ y, o.starting < y → Distinguished (Wide m.cfg.rmw) ts m.treeSize y → g y = o.versionAt y ∧ g y < 2 ^ 32) :
    ∃ o', (ownerMonitor m).eval (honest ts g) = .ok { m with owner := some o' } ∧
      ∀ y, Distinguished (Wide m.cfg.rmw) ts m.treeSize y → y ≤ o'.starting := by
  have erb : rb ts m.treeSize m.treeSize = ts (m.treeSize - 1) := by simp [rb]
  obtain ⟨o', h1⟩ := ownerWalk_honest (cfg := m.cfg) (g := g) ht (m.treeSize + 1) 0 m.treeSize [] o (.root h0) (by omega) hwf
    (fun y _ _ h3 h4 => hg y h3 h4)
  have h2 : (ownerMonitor m).eval (honest ts g) = .ok { m with owner := some o' } := by
    unfold ownerMonitor
    rw [ho]
    simp only []
    rw [eval_bind, root_eq h0, hrm, ← erb]
    have elb : lb ts 0 = 0 := rfl
    rw [elb] at h1
    rw [h1]
    rfl
  refine ⟨o', h2, ?_⟩
  obtain ⟨tr, h3, h4⟩ := runs_eval (honest ts g) (ownerMonitor m)
  rw [h2] at h3
  obtain ⟨h5, h6, h7⟩ := honest_trace h4
  obtain ⟨o'', h8, h9⟩ := C30_monitor_complete ⟨ho, hwf, h0, ht, hrm, h5, h6, h3⟩ h7
  have h10 : some o' = some o'' := congrArg Monitor.owner h8
  cases h10
  exact fun y hy => (h9 y hy).1

/-- an owner of a label whose versions 1 and 2 were created at entries 3 and 5, monitoring from entry 1 on;
entries 3 and 5 are distinguished -/
example : (ownerMonitor ⟨{ rmw := 50 }, 180, 7, none, some ⟨1, 0, [3, 5]⟩⟩).eval
    (honest (fun x => [10, 20, 40, 90, 110, 160, 180].getD x 0) (fun x => [0, 0, 0, 1, 1, 2, 2].getD x 0)) =
    .ok ⟨{ rmw := 50 }, 180, 7, none, some ⟨5, 2, []⟩⟩ := by decide
/-- the server slipped in another version at entry 3 -/
example : (ownerMonitor ⟨{ rmw := 50 }, 180, 7, none, some ⟨1, 0, [3, 5]⟩⟩).eval
    (honest (fun x => [10, 20, 40, 90, 110, 160, 180].getD x 0) (fun x => [0, 0, 0, 2, 2, 3, 3].getD x 0)) =
    goErr "binary ladder inconsistent with expected greatest version of label" := by decide
example : (⟨1, 0, [3, 5]⟩ : Owner).WF := by unfold Owner.WF; decide

/-! ### initialization -/

/-- A successful initialization at `s`: `s` is a distinguished entry that has not expired.  The entries checked are `s` and those of its
ancestors to the left that have not expired, nearest first.  For the `i`-th of them a ladder showed that its greatest
version is `vers[i]` (that the label does not exist, if there are fewer versions); the versions do not increase.  The
owner starts at `s` with the version found there. -/
theorem C30_init_sound {m m' : Monitor} {s : Nat} {vers xs : List Nat} (h0 : 0 < m.treeSize) (ht : GoodTimes ts m.treeSize)
    (hrm : m.rightmost = ts (m.treeSize - 1)) (htr : TsTrace tr ts) (h : Runs (ownerInit m s vers) tr (.ok (m', xs))) :
    Live m.cfg ts m.treeSize s ∧
    (∃ lo hi anc, IsNode m.treeSize s lo hi anc ∧
      xs = s :: anc.filter (fun y => decide (y < s) && !m.cfg.isExpired (ts y) m.rightmost)) ∧
    vers.length ≤ xs.length ∧
    (∀ (i : Nat) (hi : i < xs.length),
      (∀ v, vers[i]? = some v → (⟨.search xs[i] v false, .ok (0 : Int)⟩ : Ev) ∈ tr) ∧
      (vers[i]? = none → (⟨.search xs[i] 0 false, .ok (-1 : Int)⟩ : Ev) ∈ tr)) ∧
    nonIncreasing vers = true ∧
    m' = { m with owner := some ⟨s, (vers.head?.map Int.ofNat).getD (-1), []⟩ } := by
  unfold ownerInit at h
  rw [runs_ite] at h
  rcases h with ⟨-, h⟩ | ⟨-, h⟩
  · exact absurd h runs_fail_ok
  obtain ⟨ys, t1, t2, rfl, hi, h⟩ := runs_bind_ok.1 h
  rw [runs_ite] at h
  rcases h with ⟨-, h⟩ | ⟨hlen, h⟩
  · exact absurd h runs_fail_ok
  rw [runs_ite] at h
  rcases h with ⟨-, h⟩ | ⟨hni, h⟩
  · exact absurd h runs_fail_ok
  obtain ⟨u, t3, t4, rfl, hl, h⟩ := runs_bind_ok.1 h
  obtain ⟨-, hk⟩ := runs_pure.1 h
  have hk := Except.ok.inj hk
  obtain ⟨rfl, rfl⟩ := Prod.mk.injEq _ _ _ _ ▸ hk
  have erb : rb ts m.treeSize m.treeSize = ts (m.treeSize - 1) := by simp [rb]
  unfold initEntries at hi
  rw [root_eq h0, show m.rightmost = rb ts m.treeSize m.treeSize by rw [erb, hrm]] at hi
  obtain ⟨i1, i2, lo, hi', pre, i3, i4, i5⟩ := initWalk_runs ht hrm _ 0 m.treeSize [] _ _ (.root h0) (by omega) (Or.inr rfl) htr.left hi
  rw [List.append_nil] at i3
  refine ⟨i2, ⟨lo, hi', pre, ⟨i3, i4⟩, i5⟩, by omega, ?_, by simpa using hni, ?_⟩
  · intro i hi
    obtain ⟨h1, h2⟩ := initLadders_runs _ _ _ hl i hi
    exact ⟨fun v hv => List.mem_append_right _ (List.mem_append_left _ (h1 v hv)),
      fun hv => List.mem_append_right _ (List.mem_append_left _ (h2 hv))⟩
  · cases vers <;> rfl

example : (ownerInit ⟨{ rmw := 50 }, 180, 7, none, none⟩ 5 [2, 1]).eval
    (honest (fun x => [10, 20, 40, 90, 110, 160, 180].getD x 0) (fun x => [0, 0, 0, 1, 1, 2, 2].getD x 0)) =
    .ok (⟨{ rmw := 50 }, 180, 7, none, some ⟨5, 2, []⟩⟩, [5, 3]) := by decide

end Katie.Props
