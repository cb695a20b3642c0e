import Verif.Lemmas.Faults
import Verif.Spec.Search

/-
C29: contact monitoring.

`Runs (contactMonitor m) tr (.ok m')` is a successful run of `ContactMonitor` against an arbitrary provider, `tr` is
what it asked and what it was answered.  The only assumption on the answers is that the timestamps are those of
some non-decreasing `ts` (`Verif/Props/C28_Timestamps.lean` proves this of the code's provider).  Vocabulary:
`Verif/Spec/Monitor.lean`.
-/

namespace Katie.Props
open Katie Katie.SearchSpec Katie.Alg Katie.SearchTree

/-- the premises of the theorems below: a map with keys in the tree, and a provider with orderly timestamps -/
structure ContactRun (m : Monitor) (c : PMap) (ts : Nat → Nat) (tr : List Ev) (m' : Monitor) : Prop where
  contact : m.contact = some c
  keys : c.Pairwise (fun a b => a.1 ≠ b.1)
  inTree : ∀ e ∈ c, e.1 < m.treeSize
  times : GoodTimes ts m.treeSize
  rightmost : m.rightmost = ts (m.treeSize - 1)
  answers : TsTrace tr ts
  run : Runs (contactMonitor m) tr (.ok m')

/-- the version monitored at `y`, if any -/
def monitored (m : Monitor) (y : Nat) : Option Nat := (m.contact.getD []).lookup y

theorem ContactRun.inv {m m' : Monitor} {c : PMap} {ts : Nat → Nat} {tr : List Ev} (h : ContactRun m c ts tr m') :
    ∃ prev out, CInv m ts tr (sortDesc c) prev out ∧ m' = { m with contact := if out = [] then none else some out } := by
  have hr := h.run
  unfold contactMonitor at hr
  rw [h.contact] at hr
  simp only [] at hr
  obtain ⟨out, t1, t2, rfl, h1, h2⟩ := runs_bind_ok.1 hr
  obtain ⟨rfl, hk⟩ := runs_pure.1 h2
  have h0 : CInv m ts [] [] [] [] :=
    ⟨by simp, by simp, by simp, by simp, by simp, by simp⟩
  obtain ⟨prev, hp⟩ := contactLoop_runs h.times h.rightmost (sortDesc c) [] [] [] out [] t1 (sortDesc_sorted h.keys)
    (fun e he => h.inTree e (mem_sortDesc.1 he)) (by simp) h.answers.left h0 h1
  refine ⟨prev, out, by simpa using hp, ?_⟩
  exact Except.ok.inj hk

theorem monitored_eq {m : Monitor} {out : PMap} (y : Nat) :
    monitored { m with contact := if out = [] then none else some out } y = out.lookup y := by
  unfold monitored
  by_cases h : out = [] <;> simp [h]

variable {m m' : Monitor} {c : PMap} {ts : Nat → Nat} {tr : List Ev}

/-- In a successful run, a proof was obtained and verified, for every monitored position `x` with version `v`, from every
entry above it and to its right up to the first distinguished one, that the entry contains `v` (or a later version).  In the context
of owner monitoring the distinguished entry is included if it is not right of the owner's starting position. -/
theorem C29_every_ancestor_inspected (h : ContactRun m c ts tr m') {x v : Nat} (hx : (x, v) ∈ c) {y : Nat}
    (hy : ToInspect m.cfg.rmw ts m.treeSize (m.owner.map (·.starting)) x y) : Verified tr y v := by
  obtain ⟨prev, out, hI, -⟩ := h.inv
  exact hI.ver (x, v) (mem_sortDesc.2 hx) y hy

/-- Without owner state this includes the first distinguished entry at or after `x`, if it is not `x`: it was proved to contain `v`. -/
theorem C29_distinguished_inspected (h : ContactRun m c ts tr m') (ho : m.owner = none) {x v : Nat} (hx : (x, v) ∈ c) {d : Nat}
    (hd : RightAnc m.treeSize x d) (hmin : ∀ d', RightUp m.treeSize x d' → Distinguished (Wide m.cfg.rmw) ts m.treeSize d' → d ≤ d') :
    Verified tr d v := by
  apply C29_every_ancestor_inspected h hx
  rw [ho]
  exact ⟨hd, fun d' h1 h2 => ⟨hmin d' h1 h2, fun _ s hs => by cases hs⟩⟩

/-- A monitored position is dropped only if it, or an entry above and to its right, is distinguished.  Otherwise the
topmost such entry `t` is monitored afterwards, and for a version that is not lower, if `t` is not the position itself. -/
theorem C29_moved_to_top_partial (h : ContactRun m c ts tr m') {x v : Nat} (hx : (x, v) ∈ c)
    (hno : NoDist m.cfg.rmw ts m.treeSize x) {t : Nat} (ht : Top m.treeSize x t) :
    ∃ v', monitored m' t = some v' ∧ (x ≠ t → v ≤ v') := by
  obtain ⟨prev, out, hI, rfl⟩ := h.inv
  obtain ⟨v', h1, h2⟩ := hI.ptr (x, v) (mem_sortDesc.2 hx) hno t ht
  exact ⟨v', by rw [monitored_eq]; exact h1, fun hne => (h2 hne).1⟩

/-- Every position monitored afterwards replaces one monitored before, for the same version, and is the topmost entry
on its right direct path, on which no entry is distinguished. -/
theorem C29_positions_come_from_before (h : ContactRun m c ts tr m') {y v : Nat} (hy : monitored m' y = some v) :
    ∃ x, (x, v) ∈ c ∧ NoDist m.cfg.rmw ts m.treeSize x ∧ Top m.treeSize x y := by
  obtain ⟨prev, out, hI, rfl⟩ := h.inv
  rw [monitored_eq] at hy
  obtain ⟨⟨x, v'⟩, h1, h2, h3, h4⟩ := hI.origin y v hy
  simp only at h2 h3 h4
  subst h2
  exact ⟨x, mem_sortDesc.1 h1, h3, h4⟩

/-- Once nothing is monitored, every position had reached a distinguished entry. -/
theorem C29_finished (h : ContactRun m c ts tr m') (he : m'.contact = none) {x v : Nat} (hx : (x, v) ∈ c) :
    ∃ d, RightUp m.treeSize x d ∧ Distinguished (Wide m.cfg.rmw) ts m.treeSize d := by
  by_contra hcon
  have hno : NoDist m.cfg.rmw ts m.treeSize x := fun d h1 h2 => hcon ⟨d, h1, h2⟩
  have hxn := h.inTree _ hx
  obtain ⟨t, ht⟩ := exists_top hxn
  obtain ⟨v', h1, -⟩ := C29_moved_to_top_partial h hx hno ht
  unfold monitored at h1
  rw [he] at h1
  simp at h1

/-- Nothing but the monitored positions changes, and nothing at all without any. -/
theorem C29_rest_unchanged {m m' : Monitor} {tr : List Ev} (h : Runs (contactMonitor m) tr (.ok m')) :
    m'.cfg = m.cfg ∧ m'.rightmost = m.rightmost ∧ m'.treeSize = m.treeSize ∧ m'.owner = m.owner ∧
    (m.contact = none → m' = m ∧ tr = []) := by
  unfold contactMonitor at h
  cases hc : m.contact with
  | none =>
    rw [hc] at h
    obtain ⟨h1, h2⟩ := runs_pure.1 h
    cases h2
    exact ⟨rfl, rfl, rfl, rfl, fun _ => ⟨rfl, h1⟩⟩
  | some c =>
    rw [hc] at h
    simp only [] at h
    obtain ⟨out, t1, t2, -, -, h2⟩ := runs_bind_ok.1 h
    obtain ⟨-, h2⟩ := runs_pure.1 h2
    cases h2
    exact ⟨rfl, rfl, rfl, rfl, fun e => by simp at e⟩

/-- If a run fails, then because the provider answered a request with that error, or because monitored versions do not increase
from left to right.  The requests are for timestamps in the tree and for ladders of monitored versions from entries above
and to the right of their positions.  In particular monitoring does not crash by itself. -/
theorem C29_failures {m : Monitor} {c : PMap} (hc : m.contact = some c) (hk : c.Pairwise (fun a b => a.1 ≠ b.1))
    (hn : ∀ e ∈ c, e.1 < m.treeSize) {tr : List Ev} {f : Fault} (h : Runs (contactMonitor m) tr (.error f)) :
    (∃ x, x < m.treeSize ∧ (⟨.ts x, .error f⟩ : Ev) ∈ tr) ∨
    (∃ x v y, (x, v) ∈ c ∧ RightAnc m.treeSize x y ∧ (⟨.monitor y v, .error f⟩ : Ev) ∈ tr) ∨
    (f = .err "monitoring detected versions that are not monotonic" ∧ ∃ e ∈ c, ∃ e' ∈ c, e.1 < e'.1 ∧ e'.2 ≤ e.2) := by
  obtain ⟨b, hb⟩ : ∃ b : Prop, b = (∃ e ∈ c, ∃ e' ∈ c, e.1 < e'.1 ∧ e'.2 ≤ e.2) := ⟨_, rfl⟩
  have hsp : Spec (contactMonitor m) (ContactReq m.treeSize c) (fun _ => True) (MonoErr b) := by
    unfold contactMonitor
    rw [hc]
    simp only []
    refine .bindT (contactLoop_spec _ _ _ (sortDesc_sorted hk) (fun e he => ⟨hn e (mem_sortDesc.1 he), mem_sortDesc.1 he⟩) ?_ (by simp))
      (fun _ => .pure trivial)
    intro hnb
    refine (sortDesc_sorted hk).imp_of_mem ?_
    intro e e' he he' hgt
    by_contra hle
    exact hnb (hb ▸ ⟨e', mem_sortDesc.1 he', e, mem_sortDesc.1 he, hgt, by omega⟩)
  rcases hsp.error tr f h with ⟨q, hq, hm⟩ | ⟨h1, h2⟩
  · cases q with
    | ts x => exact Or.inl ⟨x, hq, hm⟩
    | monitor y v =>
      obtain ⟨x, h1, h2⟩ := hq
      exact Or.inr (Or.inl ⟨x, v, y, h1, h2, hm⟩)
    | search => exact absurd hq (by simp [ContactReq])
    | incl => exact absurd hq (by simp [ContactReq])
    | stop => exact absurd hq (by simp [ContactReq])
    | addLadder => exact absurd hq (by simp [ContactReq])
  · exact Or.inr (Or.inr ⟨h2, hb ▸ h1⟩)

/-- On an honest log, monitoring versions that exist at their positions, and increase from left to right, succeeds. -/
theorem C29_honest_log_accepted {m : Monitor} {c : PMap} (hc : m.contact = some c) (hk : c.Pairwise (fun a b => a.1 ≠ b.1))
    (hn : ∀ e ∈ c, e.1 < m.treeSize) {ts : Nat → Nat} {g : Nat → Int} (hg : Grows g m.treeSize)
    (hv : ∀ e ∈ c, Contains g e.2 e.1) (hinc : ∀ e ∈ c, ∀ e' ∈ c, e.1 < e'.1 → e.2 < e'.2) :
    ∃ m', (contactMonitor m).eval (honest ts g) = .ok m' := by
  obtain ⟨tr, h1, h2⟩ := runs_eval (honest ts g) (contactMonitor m)
  cases hr : (contactMonitor m).eval (honest ts g) with
  | ok m' => exact ⟨m', rfl⟩
  | error f =>
    exfalso
    rw [hr] at h1
    rcases C29_failures hc hk hn h1 with ⟨x, -, h3⟩ | ⟨x, v, y, h3, h4, h5⟩ | ⟨-, e, he, e', he', h3, h4⟩
    · have := h2 _ h3
      simp [honest] at this
    · have := h2 _ h5
      have h6 := hg x y (by have := h4.lt; omega) h4.lt_n
      have h7 := hv _ h3
      unfold Contains at h7
      simp only at h7
      simp only [honest] at this
      rw [if_pos (by omega)] at this
      cases this
    · have := hinc e he e' he' h3
      omega

/-- The English claim "never lowers the version monitored at a position" -/
def NeverLowers (m m' : Monitor) : Prop := ∀ y v v', monitored m y = some v → monitored m' y = some v' → v ≤ v'

/-- It is false: the user monitors version 3 at entry 0 and version 5 at entry 1, in an honest log of three entries without
distinguished ones.  Entry 1 is the root, so nothing above it is inspected, and the pointer 1 ↦ 5 is then
overwritten by that of entry 0, which moves to entry 1 with version 3. -/
theorem C29_never_lowers_false :
    let m : Monitor := ⟨{ rmw := 1000 }, 30, 3, some [(0, 3), (1, 5)], none⟩
    ∃ m', (contactMonitor m).eval (honest (fun x => 10 + 10 * x) (fun x => [3, 5, 5].getD x 0)) = .ok m' ∧ ¬ NeverLowers m m' := by
  refine ⟨⟨{ rmw := 1000 }, 30, 3, some [(1, 3)], none⟩, by decide, ?_⟩
  intro h
  have := h 1 5 3 (by decide) (by decide)
  omega

/-- a run on a log of 7 entries: entries 3 and 1 are distinguished -/
example : (contactMonitor ⟨{ rmw := 50 }, 130, 7, some [(0, 1), (4, 2), (2, 1)], none⟩).eval
    (honest (fun x => [10, 20, 40, 90, 110, 120, 130].getD x 0) (fun x => [1, 1, 1, 2, 2, 3, 3].getD x 0)) =
    .ok ⟨{ rmw := 50 }, 130, 7, some [(5, 2)], none⟩ := by decide

end Katie.Props
