import Verif.Lemmas.Provider

/-
C28: the timestamps a client holds are non-decreasing in the position, and a position read again has the same
timestamp.

The provider (`DataProvider`, data_provider.go) is used with an arbitrary handle `H`, that is with an arbitrary
other side; `Reachable` is every sequence of operations on it.
-/

namespace Katie.Props
open Katie Katie.Alg Katie.Wire

variable {σ : Type}

/-- Everything that can be done with a provider: retained data is added, programs are run, the proof is finished,
in any order and any number of times; failing operations included. -/
inductive Reachable (H : Handle σ) : Provider σ → Prop
  | new (s : σ) : Reachable H (newProvider s)
  | retain (p : Provider σ) (full : List Bytes) (es : List (Nat × LogEntry)) :
      Reachable H p → Reachable H (p.addRetained full es).2
  | run (p : Provider σ) {α : Type} (prog : Prog α) : Reachable H p → Reachable H (p.run H prog).2
  | finish (p : Provider σ) (cs : Log.Suite) (n : Nat) (nP m : Option Nat) :
      Reachable H p → Reachable H (p.finish cs H n nP m).2

theorem finish_timestamps (H : Handle σ) (cs : Log.Suite) (n : Nat) (nP m : Option Nat) (p : Provider σ) :
    (p.finish cs H n nP m).2.timestamps = p.timestamps := by
  have h1 : (p.inspectedLeaves H).2.timestamps = p.timestamps := by
    unfold Provider.inspectedLeaves
    simp only
    split
    · rfl
    · split <;> rfl
  unfold Provider.finish
  revert h1
  generalize p.inspectedLeaves H = r
  obtain ⟨r1, p'⟩ := r
  intro h1
  cases r1 with
  | error e => exact h1
  | ok l =>
    simp only
    split
    · exact h1
    · split <;> exact h1

theorem Reachable.tsMap {H : Handle σ} {p : Provider σ} (hp : Reachable H p) : TsMap p.timestamps := by
  induction hp with
  | new s => exact TsMap.nil
  | retain p full es _ ih => exact (retainLoop_spec es { p with fullSubtrees := full, logEntries := es } ih).1
  | run p prog _ ih => exact (run_spec H prog p ih).2.1
  | finish p cs n nP m _ ih => rw [finish_timestamps]; exact ih

/-- Whatever was done with the provider and whatever the other side answered: for two positions `x ≤ y` with known
timestamps, that of `x` is not later than that of `y`. -/
theorem C28_non_decreasing {H : Handle σ} {p : Provider σ} (hp : Reachable H p) {x y a b : Nat} (hxy : x ≤ y)
    (hx : p.timestamps.lookup x = some a) (hy : p.timestamps.lookup y = some b) : a ≤ b :=
  hp.tsMap.mono _ (lookup_mem hx) _ (lookup_mem hy) hxy

/-- A timestamp once known never changes, whatever programs are run afterwards, and reading it again neither
involves the other side nor changes anything. -/
theorem C28_reread {H : Handle σ} {p : Provider σ} (hp : Reachable H p) {x a : Nat}
    (hx : (p.getTimestamp H x).1 = .ok a) {α : Type} (prog : Prog α) :
    let q := ((p.getTimestamp H x).2.run H prog).2
    q.getTimestamp H x = (.ok a, q) := by
  intro q
  obtain ⟨-, h2, h3⟩ := getTimestamp_spec H x p hp.tsMap
  obtain ⟨g, m, -⟩ := run_spec H prog (p.getTimestamp H x).2 h2
  have : q.timestamps.lookup x = some a := lookup_of_mem m.keys (g.ts _ (h3 a hx))
  unfold Provider.getTimestamp
  rw [this]

/-- A run of an algorithm with a provider is a run of the program in the sense of Spec/Trace.lean, in which all
timestamps come from one non-decreasing function, also through all known ones: to the algorithm, the other side
looks like a log with non-decreasing timestamps. -/
theorem C28_run_sees_monotone_log {H : Handle σ} {p : Provider σ} (hp : Reachable H p) {α : Type} (prog : Prog α) :
    ∃ tr ts, Runs prog tr (p.run H prog).1 ∧ TsTrace tr ts ∧ (∀ x y, x ≤ y → ts x ≤ ts y) ∧
      (∀ x a, (x, a) ∈ p.timestamps → ts x = a) := by
  obtain ⟨g, m, h1, h2, -⟩ := run_spec H prog p hp.tsMap
  refine ⟨p.trace H prog, extendTs (p.run H prog).2.timestamps, h1, ?_, fun x y h => extendTs_mono _ h, ?_⟩
  · intro x a hx
    exact (extendTs_mem m (h2 x a hx)).symm
  · intro x a hx
    exact extendTs_mem m (g.ts _ hx)

/-- The request is refused exactly if the other side fails or its answer would be out of order. -/
theorem C28_out_of_order_refused {H : Handle σ} {p : Provider σ} {x : Nat} (hn : p.timestamps.lookup x = none)
    {a : Nat} {s : σ} (hs : H.getTs x p.state = (.ok a, s)) :
    (∃ q, p.getTimestamp H x = (.ok a, q)) ↔
      ∀ e ∈ p.timestamps, (x < e.1 → a ≤ e.2) ∧ (e.1 < x → e.2 ≤ a) := by
  have hk := lookup_none hn
  constructor
  · rintro ⟨q, hq⟩ e he
    unfold Provider.getTimestamp at hq
    rw [hn] at hq
    simp only [hs] at hq
    split at hq
    · cases hq
    next m hadd =>
    have := (addTimestamp_ok hadd).2.2 e he
    exact ⟨fun h => this.1 (by omega), fun h => this.2 (by omega)⟩
  · intro h
    have : addTimestamp p.timestamps x a = .ok ((x, a) :: p.timestamps) := by
      unfold addTimestamp
      rw [if_neg, if_neg]
      · simp only [List.any_eq_true, not_exists, not_and, decide_eq_true_eq, not_or]
        intro e he
        have := h e he
        omega
      · simp only [List.any_eq_true, not_exists, not_and, beq_iff_eq]
        rintro e he rfl
        exact hk (List.mem_map.2 ⟨e, he, rfl⟩)
    unfold Provider.getTimestamp
    rw [hn]
    simp only [hs, this]
    exact ⟨_, rfl⟩

/-! ### an other side that lies about time -/

/-- a handle that only answers timestamp requests, with the values of a list -/
def listHandle : Handle (List Nat) where
  getTs _ s := match s with
    | [] => (goErr "unexpected number of timestamps consumed", [])
    | a :: s => (.ok a, s)
  search _ _ _ s := (goErr "", s)
  monitor _ _ s := (goErr "", s)
  incl _ _ s := (goErr "", s)
  prefixTrees _ s := (goErr "", s)
  finish s := (goErr "", s)
  stop _ _ _ := false
  addLadder _ _ _ _ s := s

/-- read entries 3, 1 and 3 again -/
def read313 : Prog (Nat × Nat × Nat) := do
  let a ← Prog.getTs 3
  let b ← Prog.getTs 1
  let c ← Prog.getTs 3
  pure (a, b, c)

example : ((newProvider [50, 40, 60]).run listHandle read313).1 = .ok (50, 40, 50) := by decide
example : ((newProvider [50, 51]).run listHandle read313).1 = goErr "timestamps are not monotonic" := by decide
example : Reachable listHandle ((newProvider [50, 40, 60]).run listHandle read313).2 := .run _ _ (.new _)
example : ((newProvider [50, 40, 60]).run listHandle read313).2.timestamps = [(1, 40), (3, 50)] := by decide

end Katie.Props
