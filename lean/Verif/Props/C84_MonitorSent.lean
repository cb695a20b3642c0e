import Verif.Lemmas.SendOwner
import Verif.Props.C84_Sendable

/-
C84, monitoring: the answers that the server can send.

The number of timestamps and prefix proofs in an answer grows with the number of entries of the monitoring map in the request
(`C84_monitor_answer_false`, in C84_Monitor.lean).  With few entries, compared to the logarithm of the size of the log, every answer
can be encoded.  Owner initialization has no such map: its answers can always be encoded.
-/

namespace Katie.Props
open Katie Katie.Wire Katie.Alg Katie.Ladder Katie.Server Katie.ServerSpec Katie.AuditSpec Katie.SearchSpec

section
variable {env : Env} {t : Tree} {th : TreeHead} {now : Nat}

theorem live_head {bs : List PrefixSpec.Batch} {n : Nat} {E : Nat → LogEntry} (hl : Server.Live env bs n E t) (hth : t.head = some th) : th.treeSize = n := by
  obtain ⟨th', e1, e2⟩ := hl.head
  rw [hth] at e1
  cases e1
  exact e2

theorem live_log2 {bs : List PrefixSpec.Batch} {n : Nat} {E : Nat → LogEntry} (hl : Server.Live env bs n E t) : Nat.log2 n ≤ 62 := by
  have := SearchTree.log2_lt_of_lt_pow hl.honest.pos hl.honest.size
  omega

/-- **C84**, contact monitoring: how much an answer holds. -/
theorem C84_contact_answer_is_small (hcs : env.cs.Good) (hsm : Prefix.Small env.cs) (ht : Serves env t) (hth : t.head = some th)
    {req : ContactMonitorRequest} {res : MonitorResponse} (h : Server.contactMonitor env now t req = .ok res) :
    res.monitor.timestamps.length ≤ (req.entries.length + 3) * Nat.log2 th.treeSize + 3 ∧
    res.monitor.prefixProofs.length ≤ req.entries.length * Nat.log2 th.treeSize ∧
    (∀ p ∈ res.monitor.prefixProofs, p.results.length ≤ 62) := by
  obtain ⟨bs, n, E, hl⟩ := live_of_serves hcs hsm ht
  rw [live_head hl hth]
  obtain ⟨-, hh⟩ := contactMonitor_holds hl (fun _ hi => serves_index hcs hsm ht hi) h
  exact ⟨hh.timestamps, hh.proofs, fun p hp => (hh.each p hp).2.2.1⟩

/-- **C84**, owner monitoring: how much an answer holds.  The walk of the owner stops at 25 proofs, so that beyond those for the
monitoring map there are a constant number of proofs. -/
theorem C84_owner_answer_is_small (hcs : env.cs.Good) (hsm : Prefix.Small env.cs) (ht : Serves env t) (hth : t.head = some th)
    {req : OwnerMonitorRequest} {res : MonitorResponse} (h : Server.ownerMonitor env now t req = .ok res) :
    res.monitor.timestamps.length ≤ (req.entries.length + 5) * Nat.log2 th.treeSize + 30 ∧
    res.monitor.prefixProofs.length ≤ max (req.entries.length * Nat.log2 th.treeSize) 25 ∧
    (∀ p ∈ res.monitor.prefixProofs, p.results.length ≤ 62) := by
  obtain ⟨bs, n, E, hl⟩ := live_of_serves hcs hsm ht
  rw [live_head hl hth]
  obtain ⟨-, hh⟩ := ownerMonitor_holds hl (fun _ hi => serves_index hcs hsm ht hi) h
  exact ⟨hh.timestamps, hh.proofs, fun p hp => (hh.each p hp).2.2.1⟩

/-- **C84**, contact monitoring: the answer can be encoded.

Missing for the full statement: requests with more entries; it is false for them (`C84_monitor_answer_false`). -/
theorem C84_contact_answer_encodes_partial (hcs : env.cs.Good) (hsm : Prefix.Small env.cs) (ht : Serves env t) (hth : t.head = some th)
    (ha : ∀ a, t.auditor = some a → a.signature.length < 2 ^ 16) {req : ContactMonitorRequest}
    (hfew : (req.entries.length + 3) * Nat.log2 th.treeSize + 3 ≤ 255) {res : MonitorResponse}
    (h : Server.contactMonitor env now t req = .ok res) : ∃ b, res.marshal = .ok b := by
  obtain ⟨bs, n, E, hl⟩ := live_of_serves hcs hsm ht
  rw [live_head hl hth] at hfew
  have hlog := live_log2 hl
  have hht := ht_le_log2 hl.honest.pos
  obtain ⟨⟨hd, k1, e1⟩, hh⟩ := contactMonitor_holds hl (fun _ hi => serves_index hcs hsm ht hi) h
  unfold MonitorResponse.marshal
  rw [e1]
  rw [Nat.add_mul] at hfew
  exact Encodes.seq (fullTreeHead_encodes hcs hsm ht ha k1)
    (hh.encodes hsm (by rw [Nat.add_mul]; omega) (by omega) (by omega) (by omega))

/-- **C84**, owner monitoring: the answer can be encoded, however many versions the label has, and wherever the owner starts.

Missing for the full statement: requests with more entries. -/
theorem C84_owner_answer_encodes_partial (hcs : env.cs.Good) (hsm : Prefix.Small env.cs) (ht : Serves env t) (hth : t.head = some th)
    (ha : ∀ a, t.auditor = some a → a.signature.length < 2 ^ 16) {req : OwnerMonitorRequest}
    (hfew : (req.entries.length + 5) * Nat.log2 th.treeSize + 30 ≤ 255) {res : MonitorResponse}
    (h : Server.ownerMonitor env now t req = .ok res) : ∃ b, res.marshal = .ok b := by
  obtain ⟨bs, n, E, hl⟩ := live_of_serves hcs hsm ht
  rw [live_head hl hth] at hfew
  have hlog := live_log2 hl
  have hht := ht_le_log2 hl.honest.pos
  obtain ⟨⟨hd, k1, e1⟩, hh⟩ := ownerMonitor_holds hl (fun _ hi => serves_index hcs hsm ht hi) h
  unfold MonitorResponse.marshal
  rw [e1]
  rw [Nat.add_mul] at hfew
  exact Encodes.seq (fullTreeHead_encodes hcs hsm ht ha k1)
    (hh.encodes hsm (by rw [Nat.add_mul]; omega) (by omega) (by omega) (by omega))

/-- **C84**, monitoring: the client decodes the answer to the same answer.

Missing for the full statement: as for `C84_contact_answer_encodes_partial` and `C84_search_answer_decodes_partial`. -/
theorem C84_contact_answer_decodes_partial (hcs : env.cs.Good) (hsm : Prefix.Small env.cs) (ht : Serves env t) (hth : t.head = some th)
    (hsz : env.sz.hash = env.cs.hashSize) (ha : ∀ a, t.auditor = some a → a.timestamp < 2 ^ 64 ∧ a.signature.length < 2 ^ 16)
    (hm : t.auditor.isSome ↔ env.cfg.mode = thirdPartyAuditing) {req : ContactMonitorRequest}
    (hfew : (req.entries.length + 3) * Nat.log2 th.treeSize + 3 ≤ 255) {res : MonitorResponse}
    (h : Server.contactMonitor env now t req = .ok res) (hd : ∀ p ∈ res.monitor.prefixProofs, ∀ r ∈ p.results, r.depth ≤ 255) :
    ∃ b, res.marshal = .ok b ∧ ∀ rest, newMonitorResponse env.cfg env.sz (b ++ rest) = .ok (res, rest) := by
  obtain ⟨b, hb⟩ := C84_contact_answer_encodes_partial hcs hsm ht hth (fun a hq => (ha a hq).2) hfew h
  refine ⟨b, hb, fun rest => (codec_monitorResponse env.cfg env.sz).rt res b rest ?_ hb⟩
  obtain ⟨bs, n, E, hl⟩ := live_of_serves hcs hsm ht
  obtain ⟨⟨hd', k1, e1⟩, hh⟩ := contactMonitor_holds hl (fun _ hi => serves_index hcs hsm ht hi) h
  refine ⟨?_, hh.typed hsz hd⟩
  rw [e1]
  exact fullTreeHead_typed hcs hsm ht (fun a hq => (ha a hq).1) hm k1

theorem C84_owner_answer_decodes_partial (hcs : env.cs.Good) (hsm : Prefix.Small env.cs) (ht : Serves env t) (hth : t.head = some th)
    (hsz : env.sz.hash = env.cs.hashSize) (ha : ∀ a, t.auditor = some a → a.timestamp < 2 ^ 64 ∧ a.signature.length < 2 ^ 16)
    (hm : t.auditor.isSome ↔ env.cfg.mode = thirdPartyAuditing) {req : OwnerMonitorRequest}
    (hfew : (req.entries.length + 5) * Nat.log2 th.treeSize + 30 ≤ 255) {res : MonitorResponse}
    (h : Server.ownerMonitor env now t req = .ok res) (hd : ∀ p ∈ res.monitor.prefixProofs, ∀ r ∈ p.results, r.depth ≤ 255) :
    ∃ b, res.marshal = .ok b ∧ ∀ rest, newMonitorResponse env.cfg env.sz (b ++ rest) = .ok (res, rest) := by
  obtain ⟨b, hb⟩ := C84_owner_answer_encodes_partial hcs hsm ht hth (fun a hq => (ha a hq).2) hfew h
  refine ⟨b, hb, fun rest => (codec_monitorResponse env.cfg env.sz).rt res b rest ?_ hb⟩
  obtain ⟨bs, n, E, hl⟩ := live_of_serves hcs hsm ht
  obtain ⟨⟨hd', k1, e1⟩, hh⟩ := ownerMonitor_holds hl (fun _ hi => serves_index hcs hsm ht hi) h
  refine ⟨?_, hh.typed hsz hd⟩
  rw [e1]
  exact fullTreeHead_typed hcs hsm ht (fun a hq => (ha a hq).1) hm k1

/-- **C84**, owner initialization: every answer can be encoded, for every state that the server can reach, every request and every
time. -/
theorem C84_owner_init_answer_encodes (hcs : env.cs.Good) (hsm : Prefix.Small env.cs) (ht : Serves env t)
    (ha : ∀ a, t.auditor = some a → a.signature.length < 2 ^ 16) {req : OwnerInitRequest} {res : OwnerInitResponse}
    (h : Server.ownerInit env now t req = .ok res) : ∃ b, res.marshal = .ok b := by
  obtain ⟨bs, n, E, hl⟩ := live_of_serves hcs hsm ht
  have hlog := live_log2 hl
  have hht := ht_le_log2 hl.honest.pos
  obtain ⟨⟨hd, k1, e1⟩, h2, h3, hh⟩ := ownerInit_holds hl h
  unfold OwnerInitResponse.marshal
  rw [e1]
  refine Encodes.seq (fullTreeHead_encodes hcs hsm ht ha k1) (.seq (wSlice_encodes (by omega) (fun s _ => ⟨_, rfl⟩))
    (.seq (wSlice_encodes (by omega) (fun s _ => step_encodes s)) (hh.encodes hsm (by omega) (by omega) (by omega) (by omega))))

end

/-! ### Examples -/

theorem isOk_exists {α : Type} {r : G α} (h : r.isOk = true) : ∃ a, r = .ok a := by
  cases r with
  | ok a => exact ⟨a, rfl⟩
  | error e => cases h

/-- A contact that monitors version 1 of a label. -/
example : ∃ res, Server.contactMonitor toyEnv0 5 toyT1a ⟨none, [10], [⟨0, 1⟩]⟩ = .ok res ∧ (∃ b, res.marshal = .ok b) ∧
    ∃ b, res.marshal = .ok b ∧ ∀ rest, newMonitorResponse toyEnv0.cfg toyEnv0.sz (b ++ rest) = .ok (res, rest) := by
  obtain ⟨res, h⟩ := isOk_exists (r := Server.contactMonitor toyEnv0 5 toyT1a ⟨none, [10], [⟨0, 1⟩]⟩) (by decide +kernel)
  have hdep : ((Server.contactMonitor toyEnv0 5 toyT1a ⟨none, [10], [⟨0, 1⟩]⟩).map (fun r => r.monitor.prefixProofs.all (fun p =>
    p.results.all (fun r => decide (r.depth ≤ 255))))) = .ok true := by decide +kernel
  rw [h] at hdep
  have hs : toyEnv0.cs.Good := toySuite_good
  have hsm : Prefix.Small toyEnv0.cs := (by decide : toySuite.hashSize ≤ 32)
  obtain ⟨th, hth, hth1⟩ : ∃ th, toyT1a.head = some th ∧ th.treeSize = 1 := ⟨_, rfl, rfl⟩
  refine ⟨res, h, C84_contact_answer_encodes_partial hs hsm toyT1a_serves hth ?_ ?_ h,
    C84_contact_answer_decodes_partial hs hsm toyT1a_serves hth rfl ?_ ?_ ?_ h ?_⟩
  · rintro a ⟨⟩; decide
  · rw [hth1]; decide
  · rintro a ⟨⟩; decide
  · decide
  · rw [hth1]; decide
  · have := Except.ok.inj hdep
    simpa using this

/-- Its owner. -/
example : ∃ res, Server.ownerMonitor toyEnv0 5 toyT1a ⟨none, [10], [⟨0, 1⟩], 0, some 1⟩ = .ok res ∧ res.monitor.prefixProofs.length ≤ 25 ∧
    ∃ b, res.marshal = .ok b ∧ ∀ rest, newMonitorResponse toyEnv0.cfg toyEnv0.sz (b ++ rest) = .ok (res, rest) := by
  obtain ⟨res, h⟩ := isOk_exists (r := Server.ownerMonitor toyEnv0 5 toyT1a ⟨none, [10], [⟨0, 1⟩], 0, some 1⟩) (by decide +kernel)
  have hdep : ((Server.ownerMonitor toyEnv0 5 toyT1a ⟨none, [10], [⟨0, 1⟩], 0, some 1⟩).map (fun r => r.monitor.prefixProofs.all (fun p =>
    p.results.all (fun r => decide (r.depth ≤ 255))))) = .ok true := by decide +kernel
  rw [h] at hdep
  have hs : toyEnv0.cs.Good := toySuite_good
  have hsm : Prefix.Small toyEnv0.cs := (by decide : toySuite.hashSize ≤ 32)
  obtain ⟨th, hth, hth1⟩ : ∃ th, toyT1a.head = some th ∧ th.treeSize = 1 := ⟨_, rfl, rfl⟩
  have hsmall := (C84_owner_answer_is_small hs hsm toyT1a_serves hth h).2.1
  rw [hth1] at hsmall
  refine ⟨res, h, hsmall, C84_owner_answer_decodes_partial hs hsm toyT1a_serves hth rfl ?_ ?_ ?_ h ?_⟩
  · rintro a ⟨⟩; decide
  · decide
  · rw [hth1]; decide
  · have := Except.ok.inj hdep
    simpa using this

theorem toyT5_serves : Serves toyEnv toyT5 :=
  ⟨toyHistory, toyUs, toyT5, toyT5.tx.auditor, toyHistory_runs, by decide, rfl, rfl, by rintro a ⟨⟩⟩

/-- The owner of a label with three versions in a log of five entries, from the third log entry on; and its initialization. -/
example : ∃ res ini, Server.ownerMonitor toyEnv 300 toyT5 ⟨some 2, [10], [], 2, some 2⟩ = .ok res ∧ (∃ b, res.marshal = .ok b) ∧
    Server.ownerInit toyEnv 300 toyT5 ⟨some 2, [10], 2⟩ = .ok ini ∧ (∃ b, ini.marshal = .ok b) := by
  obtain ⟨res, h⟩ := isOk_exists (r := Server.ownerMonitor toyEnv 300 toyT5 ⟨some 2, [10], [], 2, some 2⟩) (by decide +kernel)
  obtain ⟨ini, h'⟩ := isOk_exists (r := Server.ownerInit toyEnv 300 toyT5 ⟨some 2, [10], 2⟩) (by decide +kernel)
  have hs : toyEnv.cs.Good := toySuite_good
  have hsm : Prefix.Small toyEnv.cs := (by decide : toySuite.hashSize ≤ 32)
  obtain ⟨th, hth, hth1⟩ : ∃ th, toyT5.head = some th ∧ th.treeSize = 5 := ⟨_, rfl, rfl⟩
  refine ⟨res, ini, h, C84_owner_answer_encodes_partial hs hsm toyT5_serves hth ?_ ?_ h, h',
    C84_owner_init_answer_encodes hs hsm toyT5_serves ?_ h'⟩
  · rintro a ⟨⟩
  · rw [hth1]; decide
  · rintro a ⟨⟩

end Katie.Props
