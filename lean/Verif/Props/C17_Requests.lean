import Verif.Model.ServerOps
import Verif.Lemmas.ServerStep
import Verif.Lemmas.Ladder
import Verif.Props.ServerExample

/-
C17: requests that crash the server, or that it never answers.
-/

namespace Katie.Props
open Katie Katie.Wire Katie.Alg Katie.Ladder Katie.Server Katie.ServerSpec

theorem frontier_zero : SearchTree.frontier 0 = goPanic "leaf node has no children" := by decide

/-- the tree head of a server that has made at least one change -/
theorem head_some {env : Env} (hcs : env.cs.Good) (hsm : Prefix.Small env.cs) {cs : List Change} {us : List AuditorUpdate}
    {t : Tree} (h : Runs env cs us t) (hne : cs ≠ []) : ∃ th, t.head = some th ∧ th.treeSize = cs.length := by
  obtain ⟨-, hi⟩ := runs_inv hcs hsm h
  have hs := hi.head.size
  rw [logOf_length, hi.len] at hs
  unfold Server.Tree.size at hs
  cases hh : t.head with
  | none =>
    rw [hh] at hs
    have : cs.length ≠ 0 := fun h0 => hne (List.length_eq_zero_iff.1 h0)
    simp at hs; omega
  | some th => rw [hh] at hs; exact ⟨th, rfl, by simpa using hs⟩

theorem fullTreeHead_zero {t : Tree} {th : TreeHead} (h : t.head = some th) (hpos : 0 < th.treeSize) :
    ∃ hd, fullTreeHead t (some 0) = .ok hd := by
  unfold fullTreeHead
  rw [h]
  simp only
  rw [if_neg (by omega), if_neg (by omega)]
  exact ⟨_, rfl⟩

theorem updateView_zero {env : Env} {now : Nat} {t : Tree} {index : List Nat} {p : Provider Produced} {th : TreeHead}
    (h : t.head = some th) : Panics (Server.updateView env now t index (some 0) p) := by
  unfold Server.updateView loadRetained
  rw [h]
  simp only [frontier_zero, G.panic_bind]
  exact ⟨_, rfl⟩

theorem startMonitor_zero {env : Env} (hcs : env.cs.Good) (hsm : Prefix.Small env.cs) {cs : List Change}
    {us : List AuditorUpdate} {t : Tree} (h : Runs env cs us t) (hne : cs ≠ []) (now : Nat) (label : Bytes) :
    Panics (startMonitor env now t (some 0) label) := by
  obtain ⟨th, hth, hsz⟩ := head_some hcs hsm h hne
  obtain ⟨htx, hi⟩ := runs_inv hcs hsm h
  have hpos : 0 < th.treeSize := by rw [hsz]; exact List.length_pos_iff.2 hne
  obtain ⟨hd, hhd⟩ := fullTreeHead_zero hth hpos
  obtain ⟨m, hm⟩ := updateView_zero (env := env) (now := now) (index := (versionsOf label cs).map Version.pos)
    (p := newProvider {}) hth
  unfold startMonitor
  rw [hhd, htx, hi.getIndex label]
  simp only [G.ok_bind]
  rw [hm]
  exact ⟨m, rfl⟩

/-- **C17 is false.**  On every reachable server with a non-empty log, a request that advertises a previous tree of
size zero crashes the server, whatever its other fields are. -/
theorem C17_zero_size_crashes {env : Env} (hcs : env.cs.Good) (hsm : Prefix.Small env.cs) {cs : List Change}
    {us : List AuditorUpdate} {t : Tree} (h : Runs env cs us t) (hne : cs ≠ []) (now : Nat) :
    (∀ req : ContactMonitorRequest, req.last = some 0 → Panics (Server.contactMonitor env now t req)) ∧
    (∀ req : OwnerInitRequest, req.last = some 0 → Panics (Server.ownerInit env now t req)) ∧
    (∀ req : OwnerMonitorRequest, req.last = some 0 → Panics (Server.ownerMonitor env now t req)) := by
  refine ⟨fun req hr => ?_, fun req hr => ?_, fun req hr => ?_⟩
  all_goals
    obtain ⟨m, hm⟩ := startMonitor_zero hcs hsm h hne now req.label
    refine ⟨m, ?_⟩
  · unfold Server.contactMonitor; rw [hr, hm]; rfl
  · unfold Server.ownerInit; rw [hr, hm]; rfl
  · unfold Server.ownerMonitor; rw [hr, hm]; rfl

/-- the same for searches: such a search never gets a response -/
theorem C17_zero_size_search {env : Env} (hcs : env.cs.Good) (hsm : Prefix.Small env.cs) {cs : List Change}
    {us : List AuditorUpdate} {t : Tree} (h : Runs env cs us t) (hne : cs ≠ []) (now : Nat) (req : SearchRequest)
    (hr : req.last = some 0) (r : SearchResponse) : search env now t req ≠ .ok r := by
  intro hs
  obtain ⟨th, hth, hsz⟩ := head_some hcs hsm h hne
  unfold search at hs
  obtain ⟨hd, -, hs⟩ := G.bind_eq_ok.1 hs
  obtain ⟨index, -, hs⟩ := G.bind_eq_ok.1 hs
  obtain ⟨ladder, -, hs⟩ := G.bind_eq_ok.1 hs
  obtain ⟨ov, -, hs⟩ := G.bind_eq_ok.1 hs
  obtain ⟨⟨steps, s⟩, -, hs⟩ := G.bind_eq_ok.1 hs
  obtain ⟨p, hp, -⟩ := G.bind_eq_ok.1 hs
  obtain ⟨m, hm⟩ := updateView_zero (env := env) (now := now) (index := index) (p := newProvider s) hth
  rw [hr, hm] at hp
  cases hp

/-- a search request in which the requested version is 2^31 - 1 or more is never answered: the server loops -/
theorem C17_large_version_loops {env : Env} (hcs : env.cs.Good) (hsm : Prefix.Small env.cs) {cs : List Change}
    {us : List AuditorUpdate} {t : Tree} (h : Runs env cs us t) (hne : cs ≠ []) (now : Nat) (req : SearchRequest)
    {v : Nat} (hv : req.version = some v) (h1 : 2 ^ 31 - 1 ≤ v) (h2 : v < 2 ^ 32)
    (hl : ∀ l ∈ req.last, l ≤ cs.length) : search env now t req = .error .diverge := by
  obtain ⟨th, hth, hsz⟩ := head_some hcs hsm h hne
  obtain ⟨htx, hi⟩ := runs_inv hcs hsm h
  have hhd : ∃ hd, fullTreeHead t req.last = .ok hd := by
    unfold fullTreeHead
    rw [hth]
    cases hr : req.last with
    | none => exact ⟨_, rfl⟩
    | some l =>
      have := hl l (by rw [hr]; rfl)
      simp only
      split
      · exact ⟨_, rfl⟩
      · rw [if_neg (by omega)]; exact ⟨_, rfl⟩
  obtain ⟨hd, hhd⟩ := hhd
  unfold search
  rw [hhd, htx, hi.getIndex req.label]
  simp only [G.ok_bind]
  have hlad : searchLadder req.version ((versionsOf req.label cs).map Version.pos) = .error .diverge := by
    unfold searchLadder
    rw [hv, if_neg (by simp)]
    unfold searchBinaryLadder searchTarget baseBinaryLadder
    simp only
    rw [show baseLadderFuel 64 v = .error .diverge from base_diverges h1 h2 _]
    rfl
  rw [hlad]
  rfl

/-- the two-entry log of `toyHistory`: a search with an advertised tree size of zero, and one without -/
example : search toyEnv 6 toyT2 ⟨some 0, [10], none⟩ = goPanic "leaf node has no children" ∧
    (∃ r, search toyEnv 6 toyT2 ⟨none, [10], none⟩ = .ok r) := by
  refine ⟨by decide +kernel, ?_⟩
  have : (search toyEnv 6 toyT2 ⟨none, [10], none⟩).isOk = true := by decide +kernel
  cases hs : search toyEnv 6 toyT2 ⟨none, [10], none⟩ with
  | error e => rw [hs] at this; cases this
  | ok r => exact ⟨r, rfl⟩

end Katie.Props
