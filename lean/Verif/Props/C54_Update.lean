import Verif.Model.ServerOps
import Verif.Lemmas.ClientRun
import Verif.Lemmas.Ladder
import Verif.Props.ServerExample

/-
C54: update responses.  The code does not meet the claim, for three independent reasons, each proved for all inputs:

* no update response is ever produced (`C54_no_response`), because `updater.next` calls `Monitor.Update` on a monitor
  whose owner state was never initialised;
* the binary ladder of the response would never contain the first new version (`C54_new_version_missing`);
* the client accepts an inclusion proof for one version only (`C54_one_version_only`).
-/

namespace Katie.Props
open Katie Katie.Wire Katie.Alg Katie.Ladder Katie.Server

/-- a run of an algorithm on a provider is a run of the algorithm -/
theorem run_runs {σ α : Type} (H : Handle σ) (prog : Prog α) (p : Provider σ) :
    Runs prog (p.trace H prog) (p.run H prog).1 := by
  induction prog generalizing p with
  | ret r => exact .ret _
  | op q k ih => exact .op _ (ih _ _)

theorem runOn_runs {α : Type} {H : Handle Produced} {prog : Prog α} {p p' : Provider Produced} {a : α}
    (h : runOn H prog p = .ok (a, p')) : Runs prog (p.trace H prog) (.ok a) := by
  have hr := run_runs H prog p
  unfold runOn at h
  split at h
  · cases h
  · next he =>
    obtain ⟨rfl, rfl⟩ := Prod.mk.inj (Except.ok.inj h)
    rw [he] at hr
    exact hr

theorem newMonitor_owner {cfg : Config} {n : Nat} {tr : List Ev} {m : Monitor} (h : Runs (newMonitor cfg n) tr (.ok m)) :
    m.owner = none := by
  unfold newMonitor at h
  split at h
  · exact absurd h runs_fail_ok
  · obtain ⟨a, tr1, tr2, -, -, h⟩ := runs_bind_ok.1 h
    obtain ⟨-, h⟩ := runs_pure.1 h
    cases h; rfl

theorem next_fails (env : Env) (now : Nat) (u : Updater) (b : Bool) (r : UpdateResponse × Nat) :
    next env now u b ≠ .ok r := by
  intro h
  unfold next at h
  split at h
  · cases h
  · obtain ⟨⟨values, info⟩, -, h⟩ := G.bind_eq_ok.1 h
    obtain ⟨ladder, -, h⟩ := G.bind_eq_ok.1 h
    obtain ⟨hd, -, h⟩ := G.bind_eq_ok.1 h
    obtain ⟨p, -, h⟩ := G.bind_eq_ok.1 h
    obtain ⟨⟨m, p2⟩, hm, h⟩ := G.bind_eq_ok.1 h
    obtain ⟨⟨m', p3⟩, hu, -⟩ := G.bind_eq_ok.1 h
    have ho := newMonitor_owner (runOn_runs hm)
    have hu := runOn_runs hu
    unfold monitorUpdate at hu
    rw [ho] at hu
    exact runs_fail_ok hu

theorem sendAll_no_ok (env : Env) (now : Nat) (w : Nat → Bool) (fuel : Nat) (u : Updater) :
    ∀ m ∈ (sendAll env now w fuel u).1, ∀ r, m ≠ .ok r := by
  cases fuel with
  | zero => intro m hm; cases hm
  | succ fuel =>
    intro m hm r hr
    unfold sendAll at hm
    split at hm
    · split at hm
      · simp only [List.mem_singleton] at hm
        rw [hm] at hr; cases hr
      · next he => exact next_fails _ _ _ _ _ he
    · cases hm

theorem process_no_ok (env : Env) (now : Nat) (seq : Sequenced) (u : Updater) :
    ∀ m ∈ process env now seq u, ∀ r, m ≠ .ok r := by
  intro m hm r hr
  subst hr
  unfold process at hm
  rcases List.mem_append.1 hm with hm | hm
  · exact sendAll_no_ok _ _ _ _ _ _ hm r rfl
  · split at hm
    · cases hm
    · split at hm
      · cases hm
      · split at hm
        · simp [goErr] at hm
        · simp [goErr] at hm
        · split at hm
          · simp at hm
          · exact sendAll_no_ok _ _ _ _ _ _ hm r rfl

/-- **C54 is false.**  Whatever the state of the tree, the request, and the fate of the new versions, `Update` never
sends an update response: every message that it sends is an error. -/
theorem C54_no_response (env : Env) (now : Nat) (seq : Sequenced) (t : Tree) (req : UpdateRequest)
    (msgs : List (G UpdateResponse)) (h : update env now seq t req = .ok msgs) : ∀ r, Except.ok r ∉ msgs := by
  intro r hr
  unfold update at h
  obtain ⟨u, -, h⟩ := G.bind_eq_ok.1 h
  cases h
  exact process_no_ok _ _ _ _ _ hr r rfl

/-- the same for `ManagerUpdate` -/
theorem C54_no_manager_response (env : Env) (now : Nat) (verify : Bytes → Bytes → Bool) (seq : Sequenced) (t : Tree)
    (req : ManagerUpdateRequest) (msgs : List (G UpdateResponse))
    (h : managerUpdate env now verify seq t req = .ok msgs) : ∀ r, Except.ok r ∉ msgs := by
  intro r hr
  unfold managerUpdate at h
  obtain ⟨u, -, h⟩ := G.bind_eq_ok.1 h
  cases h
  exact process_no_ok _ _ _ _ _ hr r rfl

/-- the owner of label 10, who knows of its first two versions, asks for news of the two-entry log: version 2 is
there, but the only message is an error -/
example : update toyEnv 6 .unsupported toyT2 ⟨none, [10], some 1, []⟩ =
    .ok [goErr "label owner state has not been initialized"] := by decide +kernel

/-- the owner adds a version, and the sequencer puts it in log entry 1: no response -/
example : update toyEnv 6 (.sequenced 1 toyT2.db) toyT1 ⟨none, [10], some 1, [[4]]⟩ =
    .ok [goErr "label owner state has not been initialized"] := by decide +kernel

theorem searchBinaryLadder_next {t : Nat} {l : List Nat} (ht : t < 2 ^ 32) (h : searchBinaryLadder t t [] [] = .ok l) :
    t + 1 ∈ l ∧ t ∈ l := by
  unfold searchBinaryLadder at h
  by_cases hs : t < 2 ^ 31 - 1
  · obtain ⟨b, hb, hbis, -⟩ := baseBinaryLadder_ok hs
    rw [hb] at h
    simp only [G.ok_bind, G.pure_eq, searchLoop_self] at h
    have hlb : l = b := by rw [← Except.ok.inj h]; simp
    subst hlb
    have h1 := List.mem_of_getLast? hbis.highEnd
    have h2 := List.mem_of_getLast? hbis.lowEnd
    exact ⟨(List.mem_filter.1 h1).1, (List.mem_filter.1 h2).1⟩
  · have hd : baseBinaryLadder t = .error .diverge := base_diverges (by omega) ht _
    rw [hd] at h
    cases h

theorem mem_insertNat {v w : Nat} {l : List Nat} : v ∈ insertNat w l ↔ v = w ∨ v ∈ l := by
  induction l with
  | nil => simp [insertNat]
  | cons a l ih =>
    unfold insertNat
    split
    · simp
    · split
      · next h => subst h; simp
      · simp [ih]; tauto

theorem mem_sortedSet {v : Nat} {l : List Nat} : v ∈ sortedSet l ↔ v ∈ l := by
  induction l with
  | nil => simp [sortedSet]
  | cons a l ih =>
    change v ∈ insertNat a (sortedSet l) ↔ _
    rw [mem_insertNat, ih]; simp

/-- the ladder of an update response never contains the first version that the response is about -/
theorem C54_new_version_missing {startVer endVer : Nat} {l : List Nat} (hs : startVer < 2 ^ 32)
    (h : updateLadderVersions startVer endVer = .ok l) : startVer ∉ l := by
  unfold updateLadderVersions at h
  obtain ⟨a, -, h⟩ := G.bind_eq_ok.1 h
  have key : ∀ {d all : List Nat}, startVer ∈ d →
      startVer ∉ sortedSet (all.filter (fun v => ¬ d.contains v)) := by
    intro d all hd
    rw [mem_sortedSet, List.mem_filter]
    rintro ⟨-, hc⟩
    simp [hd] at hc
  dsimp only at h
  split at h
  · next h0 =>
    obtain ⟨d, hd, h⟩ := G.bind_eq_ok.1 h
    cases h
    cases hd
    exact key (by simp [h0])
  · next h0 =>
    obtain ⟨d, hd, h⟩ := G.bind_eq_ok.1 h
    cases h
    have := (searchBinaryLadder_next (t := startVer - 1) (by omega) hd).1
    rw [Nat.sub_add_cancel (by omega)] at this
    exact key this

/-- an update from version 2 to version 3: the ladder leaves out version 2 -/
example : updateLadderVersions 2 3 = .ok [4, 5, 7] := by decide +kernel

/-- the client accepts an inclusion proof for exactly one version, although an update that adds several versions
needs one for all of those that are not in the ladder -/
theorem C54_one_version_only {cs : Log.Suite} {vs : Versions} {vers : List Nat} {proof : Prefix.Proof} {root : Bytes}
    (h : Received.evalIncl cs vs vers proof = .ok root) : vers.length = 1 := by
  unfold Received.evalIncl at h
  split at h
  · next r hr =>
    split at h
    · cases h
    · obtain ⟨es, hes, h⟩ := G.bind_eq_ok.1 h
      have h1 := Prefix.evaluateRoot_length h
      have h2 := (allEntries_ok hes).1
      rw [hr] at h1
      simp only [List.length_cons, List.length_nil] at h1
      omega
  · cases h

end Katie.Props
