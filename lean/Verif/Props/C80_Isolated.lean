import Verif.Lemmas.IsolatedAhead
import Verif.Props.C67_Monitored

/-
C80: What a request returns does not depend on the changes that are made while it is being answered.

A `Tree` keeps the tree head it was made with, and reads from a connection without a snapshot, so that every key may be
read before, during or after later changes (/repo/db/leveldb.go:95-97, /repo/tree/transparency/transparency.go:66-104).
Log entries, log tree and prefix tiles are only ever added to.  The index of a label and its versions are not: the first
is rewritten by each new version, and both are deleted with the label.
-/

namespace Katie.Props
open Katie Katie.Wire Katie.Alg Katie.Ladder Katie.Server Katie.Client Katie.ServerSpec

section
variable {env : Env} {cs : List Change} {us : List AuditorUpdate} {t : Tree} {st' : Store}

/-- what the theorems below need: the snapshot of the reader, and the database it reads -/
theorem reader_same (hcs : env.cs.Good) (hsm : Prefix.Small env.cs) (hruns : ServerSpec.Runs env cs us t) {l : Bytes}
    (hr : ReadsFrom (Moment env cs us (ServerSpec.Keeps l)) st') (aud : Option AuditorTreeHead) :
    ∃ ext, Server.Same env cs.length { t with auditor := aud } st' ((versionsOf l cs).map Version.pos)
        ((versionsOf l cs).map Version.pos ++ ext) ∧
      getIndex t.tx l = .ok ((versionsOf l cs).map Version.pos) ∧
      getIndex st' l = .ok ((versionsOf l cs).map Version.pos ++ ext) ∧ (∀ x ∈ ext, cs.length ≤ x) ∧
      ((versionsOf l cs).map Version.pos ++ ext).Pairwise (· ≤ ·) ∧
      (∀ x ∈ (versionsOf l cs).map Version.pos, x < cs.length) ∧ (∀ th, t.head = some th → th.treeSize = cs.length) ∧
      (0 < cs.length ∨ t.head = none) := by
  obtain ⟨htx, hinv⟩ := runs_inv hcs hsm hruns
  obtain ⟨ext, h1, h2, h3⟩ := index_of_moments hcs hsm hr
  have hagr := agrees_of_moments hcs hsm hinv hr
  have hlog : (logOf env.cs us).length = cs.length := by rw [logOf_length, hinv.len]
  refine ⟨ext, ⟨by rw [show ({ t with auditor := aud } : Tree).tx = t.db from htx]; exact hagr,
    fun x hx => greatestAt_append hx h2⟩, htx ▸ hinv.getIndex l, h1, h2, h3, (versionsOf_pos l cs).2, fun th hth => ?_, ?_⟩
  · rcases hinv.head with ⟨-, -, h⟩ | ⟨-, sig, tbs, b, -, h, -⟩
    · rw [hth] at h; cases h
    · rw [hth] at h
      cases h
      exact hlog
  · rcases hinv.head with ⟨-, -, h⟩ | ⟨h, -⟩
    · exact .inr h
    · left
      rw [← hlog]
      exact List.length_pos_iff.2 h

/-- A search for a version that the tree head covers returns what it would have returned from a snapshot, whatever is
added to the log meanwhile, as long as the label is not removed. -/
theorem C80_fixed_version_partial (hcs : env.cs.Good) (hsm : Prefix.Small env.cs) (hruns : ServerSpec.Runs env cs us t)
    {req : SearchRequest} (hr : ReadsFrom (Moment env cs us (ServerSpec.Keeps req.label)) st') (aud : Option AuditorTreeHead)
    {v : Nat} (hreq : req.version = some v) (hv : v < (versionsOf req.label cs).length) (now : Nat) :
    Server.search env now (reading { t with auditor := aud } st') req = Server.search env now { t with auditor := aud } req := by
  obtain ⟨ext, h, hi, hi', -, -, -, hn, h0⟩ := reader_same hcs hsm hruns hr aud
  obtain ⟨htx, hinv⟩ := runs_inv hcs hsm hruns
  rcases h0 with h0 | h0
  · refine h.search h0 hn hi hi' ?_ ?_ ?_ ?_ now
    · rw [hreq]; rfl
    · rw [hreq]; simp [searchLadder, searchTarget]
    · rw [hreq]; intros; rfl
    · rw [hreq]
      change getVersion env st' req.label v = getVersion env t.tx req.label v
      rw [htx]
      exact version_of_moments hcs hsm hinv hr hv
  · unfold Server.search
    rw [fullTreeHead_reading, show fullTreeHead { t with auditor := aud } req.last = goErr "can not operate on an empty tree" by
      unfold fullTreeHead; simp only [h0]]
    rfl

/-- A search of either kind returns what it would have returned from a snapshot, if no change concerns the label. -/
theorem C80_other_labels (hcs : env.cs.Good) (hsm : Prefix.Small env.cs) (hruns : ServerSpec.Runs env cs us t)
    {req : SearchRequest} (hr : ReadsFrom (Moment env cs us (LeavesAlone req.label)) st') (aud : Option AuditorTreeHead) (now : Nat) :
    Server.search env now (reading { t with auditor := aud } st') req = Server.search env now { t with auditor := aud } req := by
  have hr' : ReadsFrom (Moment env cs us (ServerSpec.Keeps req.label)) st' :=
    have key : ∀ s, Moment env cs us (LeavesAlone req.label) s → Moment env cs us (ServerSpec.Keeps req.label) s :=
      fun s ⟨cs', us', t', a, b, c⟩ => ⟨cs', us', t', a, b, fun x hx => (c x hx).1⟩
    ⟨fun k => (hr.entries k).imp fun s h => ⟨key s h.1, h.2⟩, fun k => (hr.index k).imp fun s h => ⟨key s h.1, h.2⟩,
      fun k => (hr.versions k).imp fun s h => ⟨key s h.1, h.2⟩, fun k => (hr.log k).imp fun s h => ⟨key s h.1, h.2⟩,
      fun k => (hr.tiles k).imp fun s h => ⟨key s h.1, h.2⟩⟩
  obtain ⟨ext, h, hi, hi', -, -, -, hn, h0⟩ := reader_same hcs hsm hruns hr' aud
  obtain ⟨htx, hinv⟩ := runs_inv hcs hsm hruns
  have hq := index_of_quiet hcs hsm hr
  rw [hi'] at hq
  have hq := Except.ok.inj hq
  rw [hq] at h hi'
  rcases h0 with h0 | h0
  · refine h.search h0 hn hi hi' rfl rfl (fun _ _ _ => rfl) ?_ now
    change getVersion env st' req.label _ = getVersion env t.tx req.label _
    rw [htx]
    exact version_of_quiet hcs hsm hinv hr _
  · unfold Server.search
    rw [fullTreeHead_reading, show fullTreeHead { t with auditor := aud } req.last = goErr "can not operate on an empty tree" by
      unfold fullTreeHead; simp only [h0]]
    rfl

theorem startMonitor_empty (h0 : t.head = none) (st : Store) (aud : Option AuditorTreeHead) (last : Option Nat) (l : Bytes) (now : Nat) :
    startMonitor env now (reading { t with auditor := aud } st) last l = goErr "can not operate on an empty tree" ∧
    startMonitor env now { t with auditor := aud } last l = goErr "can not operate on an empty tree" := by
  unfold startMonitor
  rw [fullTreeHead_reading, show fullTreeHead { t with auditor := aud } last = goErr "can not operate on an empty tree" by
      unfold fullTreeHead; simp only [h0]]
  exact ⟨rfl, rfl⟩

/-- Contact monitoring of versions that the tree head covers is not affected either. -/
theorem C80_contact_partial (hcs : env.cs.Good) (hsm : Prefix.Small env.cs) (hruns : ServerSpec.Runs env cs us t)
    {req : ContactMonitorRequest} (hr : ReadsFrom (Moment env cs us (ServerSpec.Keeps req.label)) st') (aud : Option AuditorTreeHead)
    (hv : ∀ e ∈ req.entries, e.version < (versionsOf req.label cs).length) (now : Nat) :
    Server.contactMonitor env now (reading { t with auditor := aud } st') req =
      Server.contactMonitor env now { t with auditor := aud } req := by
  obtain ⟨ext, h, hi, hi', -, -, hlt, hn, h0⟩ := reader_same hcs hsm hruns hr aud
  rcases h0 with h0 | h0
  · exact h.contactMonitor h0 hn hi hi' hlt (verifyEntries_same (by simpa using hv)) now
  · unfold Server.contactMonitor
    obtain ⟨h1, h2⟩ := startMonitor_empty (env := env) h0 st' aud req.last req.label now
    rw [h1, h2]
    rfl

/-- The answer to the initialization of an owner is not affected, whatever is added to the label. -/
theorem C80_ownerInit_partial (hcs : env.cs.Good) (hsm : Prefix.Small env.cs) (hruns : ServerSpec.Runs env cs us t)
    {req : OwnerInitRequest} (hr : ReadsFrom (Moment env cs us (ServerSpec.Keeps req.label)) st') (aud : Option AuditorTreeHead)
    (now : Nat) :
    Server.ownerInit env now (reading { t with auditor := aud } st') req =
      Server.ownerInit env now { t with auditor := aud } req := by
  obtain ⟨ext, h, hi, hi', he, hs, hlt, hn, h0⟩ := reader_same hcs hsm hruns hr aud
  rcases h0 with h0 | h0
  · exact h.ownerInit h0 hn hi hi' hs he now
  · unfold Server.ownerInit
    obtain ⟨h1, h2⟩ := startMonitor_empty (env := env) h0 st' aud req.last req.label now
    rw [h1, h2]
    rfl

/-- Owner monitoring is not affected, if the owner refers to versions that the tree head covers. -/
theorem C80_ownerMonitor_partial (hcs : env.cs.Good) (hsm : Prefix.Small env.cs) (hruns : ServerSpec.Runs env cs us t)
    {req : OwnerMonitorRequest} (hr : ReadsFrom (Moment env cs us (ServerSpec.Keeps req.label)) st') (aud : Option AuditorTreeHead)
    (hv : ∀ e ∈ req.entries, e.version < (versionsOf req.label cs).length)
    (hg : ∀ v, req.greatestVersion = some v → v < (versionsOf req.label cs).length) (now : Nat) :
    Server.ownerMonitor env now (reading { t with auditor := aud } st') req =
      Server.ownerMonitor env now { t with auditor := aud } req := by
  obtain ⟨ext, h, hi, hi', he, hs, hlt, hn, h0⟩ := reader_same hcs hsm hruns hr aud
  rcases h0 with h0 | h0
  · exact h.ownerMonitor h0 hn hi hi' hlt (verifyEntries_same (by simpa using hv)) (ownerState_same hs he (by simpa using hg)) now
  · unfold Server.ownerMonitor
    obtain ⟨h1, h2⟩ := startMonitor_empty (env := env) h0 st' aud req.last req.label now
    rw [h1, h2]
    rfl

/-- C80 is false for a search for the greatest version: once the index that is read has a version that the tree head does
not cover, the request is never answered. -/
theorem C80_greatest_refused (hcs : env.cs.Good) (hsm : Prefix.Small env.cs) (hruns : ServerSpec.Runs env cs us t) (hne : cs ≠ [])
    {req : SearchRequest} (hr : ReadsFrom (Moment env cs us (ServerSpec.Keeps req.label)) st') (aud : Option AuditorTreeHead)
    (hreq : req.version = none) {index : List Nat} (hi : getIndex st' req.label = .ok index)
    (hnew : (versionsOf req.label cs).length < index.length) (h1 : 1 < index.length) (h2 : index.length < 2 ^ 31)
    (now : Nat) (res : SearchResponse) :
    Server.search env now (reading { t with auditor := aud } st') req ≠ .ok res := by
  obtain ⟨ext, h, -, hi', he, hs, hlt, hn, -⟩ := reader_same hcs hsm hruns hr aud
  obtain ⟨htx, hinv⟩ := runs_inv hcs hsm hruns
  rw [hi] at hi'
  have hi' := Except.ok.inj hi'
  have hh := honest_of_inv hcs hsm hinv hne
  rw [← htx] at hh
  rw [← hi'] at h
  refine h.search_ahead hh hn hreq hi (by simp; omega) ?_ h1 h2 now res
  rw [greatestAt_last hne]
  omega

end

/-! ### A concrete case: the reader was made after the first change, and reads while the second one is written -/

theorem toyRuns1 : ServerSpec.Runs toyEnv (toyHistory.take 1) [toyU1] toyT1 := by
  obtain ⟨h1, -, -, -, -⟩ := toyHistory_steps
  have r0 : ServerSpec.Runs toyEnv [] [] {} := .start rfl
  exact ServerSpec.Runs.change r0 h1 (toyChange_ok _ _ _ (by decide +kernel) (by simp [UpdateValue.Typed, SuffixTyped, toyEnv, thirdPartyAuditing, thirdPartyManagement]))
    (inRange_of_short (by decide +kernel) (by decide +kernel)) (.inl rfl)

theorem toyRuns2 : ServerSpec.Runs toyEnv (toyHistory.take 1 ++ [toyChange [⟨[10], ⟨[4], none⟩⟩] [] 6]) ([toyU1] ++ [toyU2]) toyT2 := by
  obtain ⟨-, h2, -, -, -⟩ := toyHistory_steps
  exact ServerSpec.Runs.change toyRuns1 h2 (toyChange_ok _ _ _ (by decide +kernel) (by simp [UpdateValue.Typed, SuffixTyped, toyEnv, thirdPartyAuditing, thirdPartyManagement]))
    (inRange_of_short (by decide +kernel) (by decide +kernel)) (.inr (.inl (by decide)))

theorem toyMoment1 (ok : Change → Prop) : Moment toyEnv (toyHistory.take 1) [toyU1] ok toyT1.db :=
  ⟨[], [], toyT1, toyRuns1, rfl, by simp⟩

theorem toyMoment2 {ok : Change → Prop} (h : ok (toyChange [⟨[10], ⟨[4], none⟩⟩] [] 6)) :
    Moment toyEnv (toyHistory.take 1) [toyU1] ok toyT2.db :=
  ⟨[toyChange [⟨[10], ⟨[4], none⟩⟩] [] 6], [toyU2], toyT2, toyRuns2, rfl, by simpa using h⟩

/-- what the reader sees: the versions and the log tree from before the second change, the rest from after it -/
def toyTorn : Store := { toyT2.db with versions := toyT1.db.versions, log := toyT1.db.log }

theorem toyTorn_reads {ok : Change → Prop} (h : ok (toyChange [⟨[10], ⟨[4], none⟩⟩] [] 6)) :
    ReadsFrom (Moment toyEnv (toyHistory.take 1) [toyU1] ok) toyTorn :=
  ⟨fun _ => ⟨_, toyMoment2 h, rfl⟩, fun _ => ⟨_, toyMoment2 h, rfl⟩, fun _ => ⟨_, toyMoment1 ok, rfl⟩,
    fun _ => ⟨_, toyMoment1 ok, rfl⟩, fun _ => ⟨_, toyMoment2 h, rfl⟩⟩

theorem toyKeeps10 : ServerSpec.Keeps [10] (toyChange [⟨[10], ⟨[4], none⟩⟩] [] 6) := by
  change _ ∉ ([] : List Bytes)
  simp

/-- the second change adds to label 10: the reader sees three positions where its tree has two -/
example : getIndex toyTorn [10] = .ok [0, 0, 1] ∧ getIndex toyT1.tx [10] = .ok [0, 0] := ⟨by decide +kernel, by decide +kernel⟩

example := C80_fixed_version_partial (env := toyEnv) toySuite_good (by decide : toySuite.hashSize ≤ 32) toyRuns1
  (req := ⟨none, [10], some 1⟩) (toyTorn_reads toyKeeps10) none rfl (by decide) 5

example := C80_other_labels (env := toyEnv) toySuite_good (by decide : toySuite.hashSize ≤ 32) toyRuns1
  (req := ⟨none, [20], none⟩) (toyTorn_reads ⟨by change _ ∉ ([] : List Bytes); simp, by decide⟩) none 5

example := C80_contact_partial (env := toyEnv) toySuite_good (by decide : toySuite.hashSize ≤ 32) toyRuns1
  (req := ⟨none, [10], [⟨0, 1⟩]⟩) (toyTorn_reads toyKeeps10) none (by decide) 5

example := C80_ownerInit_partial (env := toyEnv) toySuite_good (by decide : toySuite.hashSize ≤ 32) toyRuns1
  (req := ⟨none, [10], 0⟩) (toyTorn_reads toyKeeps10) none 5

example := C80_ownerMonitor_partial (env := toyEnv) toySuite_good (by decide : toySuite.hashSize ≤ 32) toyRuns1
  (req := ⟨none, [10], [⟨0, 1⟩], 0, some 1⟩) (toyTorn_reads toyKeeps10) none (by decide) (by rintro v ⟨⟩; decide) 5

/-- all these requests but the one of the owner are answered -/
example : (Server.search toyEnv 5 toyT1 ⟨none, [10], some 1⟩).toBool = true ∧ (Server.search toyEnv 5 toyT1 ⟨none, [20], none⟩).toBool = true ∧
    (Server.contactMonitor toyEnv 5 toyT1 ⟨none, [10], [⟨0, 1⟩]⟩).toBool = true :=
  ⟨by decide +kernel, by decide +kernel, by decide +kernel⟩

example := C80_greatest_refused (env := toyEnv) toySuite_good (by decide : toySuite.hashSize ≤ 32) toyRuns1 (by decide)
  (req := ⟨none, [10], none⟩) (toyTorn_reads toyKeeps10) none rfl (index := [0, 0, 1]) (by decide +kernel) (by decide) (by decide) (by decide) 5

/-- **Witness.**  The same request is answered from a snapshot, and fails when the database is read after the next change. -/
theorem C80_greatest_witness : (Server.search toyEnv 5 toyT1 ⟨none, [10], none⟩).toBool = true ∧
    Server.search toyEnv 5 (reading toyT1 toyT2.db) ⟨none, [10], none⟩ =
      goErr "rightmost log entry not consistent with claimed greatest version of label" :=
  ⟨by decide +kernel, by decide +kernel⟩

/-- the value and the opening of an answer -/
def valueOf (r : G SearchResponse) : Option (Bytes × Bytes) :=
  match r with
  | .ok r => some (r.opening, r.value.value)
  | .error _ => none

/-- **Witness.**  A version that the tree head does not cover: the reader returns its value, together with a proof that
there is no such version. -/
theorem C80_unpublished_witness : valueOf (Server.search toyEnv 5 toyT1 ⟨none, [10], some 2⟩) = some ([0], []) ∧
    valueOf (Server.search toyEnv 5 (reading toyT1 toyT2.db) ⟨none, [10], some 2⟩) = some ([9], [4]) :=
  ⟨by decide +kernel, by decide +kernel⟩

/-- **Witness.**  A label that is removed meanwhile: the answer claims version 0, with an empty value. -/
theorem C80_removed_witness : valueOf (Server.search toyEnv 100 toyT3 ⟨none, [20], some 0⟩) = some ([9], [2]) ∧
    valueOf (Server.search toyEnv 100 (reading toyT3 toyT4.db) ⟨none, [20], some 0⟩) = some ([0], []) :=
  ⟨by decide +kernel, by decide +kernel⟩

end Katie.Props
