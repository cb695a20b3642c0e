import Verif.Lemmas.ServeCalm
import Verif.Props.C17_Requests

/-
C17: apart from the requests of C17_Requests.lean, every request ends with a response or an error.
-/

namespace Katie.Props
open Katie Katie.Wire Katie.Alg Katie.Ladder Katie.Server Katie.ServerSpec Katie.AuditSpec Katie.SearchSpec

/-- a response or an error; not a crash, and not an endless loop -/
def Ends {α : Type} (x : G α) : Prop := (∃ r, x = .ok r) ∨ ∃ m, x = goErr m

/-- A server whose log has at least one entry, in a state it can reach.  The auditor's tree head, which is put in
the database from outside, is any tree head of a size between 1 and that of the log. -/
def Serves (env : Env) (t : Tree) : Prop :=
  ∃ cs us t₀ aud, Runs env cs us t₀ ∧ cs ≠ [] ∧ t.tx = { t₀.tx with auditor := aud } ∧ t.head = t₀.head ∧
    ∀ a, t.auditor = some a → 0 < a.treeSize ∧ a.treeSize ≤ cs.length

/-- the label has fewer than 2^31 versions -/
def FewVersionsOf (t : Tree) (label : Bytes) : Prop := ∀ index, getIndex t.tx label = .ok index → index.length < 2 ^ 31

/-- what the sequencer does with the new values: it can be missing, refuse, or lead to another state of the server -/
def SequencerOk (env : Env) (label : Bytes) : Sequenced → Prop
  | .sequenced _ db => ∃ t, newTree env db = .ok t ∧ Serves env t ∧ FewVersionsOf t label
  | _ => True

theorem ends_of_calm {α : Type} {x : G α} (h : Calm x) : Ends x := by
  cases x with
  | ok r => exact .inl ⟨r, rfl⟩
  | error e =>
    obtain ⟨m, hm⟩ := h e rfl
    exact .inr ⟨m, by rw [hm]; rfl⟩

theorem live_of_runs {env : Env} (hcs : env.cs.Good) (hsm : Prefix.Small env.cs) {cs : List Change} {us : List AuditorUpdate} {t₀ t : Tree}
    {aud : Option Bytes} (hr : Runs env cs us t₀) (hne : cs ≠ []) (htx : t.tx = { t₀.tx with auditor := aud }) (hhd : t.head = t₀.head)
    (haud : ∀ a, t.auditor = some a → 0 < a.treeSize ∧ a.treeSize ≤ cs.length) :
    Live env (us.map batchOf) cs.length (ServedSpec.entryAt env.cs us) t := by
  obtain ⟨h1, hi⟩ := runs_inv hcs hsm hr
  rw [h1] at htx
  obtain ⟨th, -, k1, k2, -⟩ := head_of_inv hi hne
  refine ⟨?_, ?_, ?_, ?_, ⟨th, by rw [hhd, k1], k2⟩, haud⟩
  · have := honest_of_inv hcs hsm hi hne
    rw [htx]
    exact this
  · intro x hx
    rw [htx]
    exact ⟨_, hi.entry_none x (hi.len.le.trans hx)⟩
  · intro l
    rw [htx]
    exact ⟨_, hi.getIndex l, versionsOf_pos l cs⟩
  · intro l v
    rw [htx]
    exact ⟨_, hi.getVersion l v⟩

theorem live_of_serves {env : Env} (hcs : env.cs.Good) (hsm : Prefix.Small env.cs) {t : Tree} (h : Serves env t) :
    ∃ bs n E, Live env bs n E t := by
  obtain ⟨cs, us, t₀, aud, hr, hne, htx, hhd, haud⟩ := h
  exact ⟨_, _, _, live_of_runs hcs hsm hr hne htx hhd haud⟩

theorem seqLive_of_ok {env : Env} (hcs : env.cs.Good) (hsm : Prefix.Small env.cs) {label : Bytes} {seq : Sequenced}
    (h : SequencerOk env label seq) : SeqLive env label seq := by
  cases seq with
  | unsupported => trivial
  | refused => trivial
  | sequenced pos db =>
    obtain ⟨t, h1, h2, h3⟩ := h
    obtain ⟨bs, n, E, hl⟩ := live_of_serves hcs hsm h2
    exact ⟨t, bs, n, E, h1, hl, h3⟩

/-- A search that does not advertise a tree of size zero and does not ask for a version from 2^31 - 1 on. -/
theorem C17_search_ends_partial {env : Env} (hcs : env.cs.Good) (hsm : Prefix.Small env.cs) {t : Tree} (ht : Serves env t)
    (now : Nat) (req : SearchRequest) (h0 : req.last ≠ some 0) (hv : ∀ v, req.version = some v → v < 2 ^ 31 - 1)
    (hf : FewVersionsOf t req.label) : Ends (search env now t req) := by
  obtain ⟨bs, n, E, hl⟩ := live_of_serves hcs hsm ht
  refine ends_of_calm (search_calm hl h0 (fun index hi => ?_))
  have := hf index hi
  unfold searchTarget
  cases hq : req.version with
  | none => simp only; omega
  | some v => exact hv v hq

/-- Monitoring requests that do not advertise a tree of size zero, whatever the monitoring map and versions in them. -/
theorem C17_monitor_ends_partial {env : Env} (hcs : env.cs.Good) (hsm : Prefix.Small env.cs) {t : Tree} (ht : Serves env t)
    (now : Nat) :
    (∀ req : ContactMonitorRequest, req.last ≠ some 0 → FewVersionsOf t req.label → Ends (Server.contactMonitor env now t req)) ∧
    (∀ req : OwnerInitRequest, req.last ≠ some 0 → FewVersionsOf t req.label → Ends (Server.ownerInit env now t req)) ∧
    (∀ req : OwnerMonitorRequest, req.last ≠ some 0 → FewVersionsOf t req.label → Ends (Server.ownerMonitor env now t req)) := by
  obtain ⟨bs, n, E, hl⟩ := live_of_serves hcs hsm ht
  exact ⟨fun req h0 hf => ends_of_calm (contactMonitor_calm hl h0 hf), fun req h0 hf => ends_of_calm (ownerInit_calm hl h0 hf),
    fun req h0 hf => ends_of_calm (ownerMonitor_calm hl h0 hf)⟩

/-- Updates that do not advertise a tree of size zero: each message sent is a response or an error.  For an update by a
manager, the configuration has the keys its mode asks for, and the service operator's key. -/
theorem C17_update_ends_partial {env : Env} (hcs : env.cs.Good) (hsm : Prefix.Small env.cs) {t : Tree} (ht : Serves env t)
    (now : Nat) :
    (∀ (req : UpdateRequest) (seq : Sequenced), req.last ≠ some 0 → FewVersionsOf t req.label → SequencerOk env req.label seq →
      ∃ msgs, update env now seq t req = .ok msgs ∧ ∀ r ∈ msgs, Ends r) ∧
    (∀ (verify : Bytes → Bytes → Bool) (req : ManagerUpdateRequest) (seq : Sequenced), req.last ≠ some 0 → FewVersionsOf t req.label →
      SequencerOk env req.label seq → (Keyed env.cfg ∧ env.cfg.leafKey ≠ none ∨ req.values = []) →
      Ends (managerUpdate env now verify seq t req) ∧ ∀ msgs, managerUpdate env now verify seq t req = .ok msgs → ∀ r ∈ msgs, Ends r) := by
  obtain ⟨bs, n, E, hl⟩ := live_of_serves hcs hsm ht
  refine ⟨fun req seq h0 hf hs => ?_, fun verify req seq h0 hf hs hk => ?_⟩
  · obtain ⟨msgs, h1, h2⟩ := update_calm hl (now := now) h0 hf (seqLive_of_ok hcs hsm hs)
    exact ⟨msgs, h1, fun r hr => ends_of_calm (h2 r hr)⟩
  · obtain ⟨h1, h2⟩ := managerUpdate_calm hl (now := now) (verify := verify) h0 hf hk (seqLive_of_ok hcs hsm hs)
    exact ⟨ends_of_calm h1, fun msgs hm r hr => ends_of_calm (h2 msgs hm r hr)⟩

/-- On a server without a log entry, every search and monitoring request is refused. -/
theorem C17_empty_log_refuses {env : Env} {t : Tree} (h : t.head = none) (now : Nat) :
    (∀ req : SearchRequest, ∃ m, search env now t req = goErr m) ∧
    (∀ req : ContactMonitorRequest, ∃ m, Server.contactMonitor env now t req = goErr m) ∧
    (∀ req : OwnerInitRequest, ∃ m, Server.ownerInit env now t req = goErr m) ∧
    (∀ req : OwnerMonitorRequest, ∃ m, Server.ownerMonitor env now t req = goErr m) := by
  have hh : ∀ last, fullTreeHead t last = goErr "can not operate on an empty tree" := by
    intro last
    unfold fullTreeHead
    rw [h]
  refine ⟨fun req => ⟨"can not operate on an empty tree", ?_⟩, fun req => ⟨"can not operate on an empty tree", ?_⟩, fun req => ⟨"can not operate on an empty tree", ?_⟩, fun req => ⟨"can not operate on an empty tree", ?_⟩⟩
  · unfold search; rw [hh]; rfl
  · unfold Server.contactMonitor startMonitor; rw [hh]; rfl
  · unfold Server.ownerInit startMonitor; rw [hh]; rfl
  · unfold Server.ownerMonitor startMonitor; rw [hh]; rfl

/-- **C17 is false** also for updates by a manager: without the service operator's key in the configuration, every
such request with a value to set crashes the server, unless the label, the value or the configuration is too long to be
encoded. -/
theorem C17_manager_update_crashes {env : Env} (t : Tree) (now : Nat) (verify : Bytes → Bytes → Bool) (seq : Sequenced)
    (req : ManagerUpdateRequest) (hk : env.cfg.leafKey = none) {v : UpdateValue} {vs : List UpdateValue} (hv : req.values = v :: vs)
    {tbs : Bytes} (ht : updateTBS env.cfg req.label (req.signedVersion % 2 ^ 32) v.value = .ok tbs) :
    Panics (managerUpdate env now verify seq t req) := by
  unfold managerUpdate setManagerRequest verifyOperator
  rw [hv]
  simp only [Nat.add_zero, ht, hk, G.ok_bind]
  exact ⟨_, rfl⟩

/-! ### Examples -/

/-- The server of `toyHistory`, five log entries and an auditor that is at entry 2, meets the hypotheses; so do these
requests, of which the first is answered and the second, from the future, is refused. -/
example : toyEnv.cs.Good ∧ Prefix.Small toyEnv.cs ∧ Serves toyEnv { toyT5 with auditor := some ⟨20, 2, [7]⟩ } ∧
    FewVersionsOf toyT5 [10] ∧
    (search toyEnv 300 { toyT5 with auditor := some ⟨20, 2, [7]⟩ } ⟨some 2, [10], none⟩).isOk = true ∧
    (search toyEnv 300 { toyT5 with auditor := some ⟨20, 2, [7]⟩ } ⟨some 6, [10], none⟩) =
      goErr "tree size advertised by user is greater than current tree size" := by
  refine ⟨toySuite_good, (by decide : toySuite.hashSize ≤ 32),
    ⟨toyHistory, _, toyT5, toyT5.tx.auditor, toyHistory_runs, by decide, rfl, rfl, ?_⟩, ?_, by decide +kernel, by decide +kernel⟩
  · rintro a ⟨⟩
    decide
  · intro index hi
    have : getIndex toyT5.tx [10] = .ok [0, 0, 1] := by decide +kernel
    rw [this] at hi
    cases hi
    decide

end Katie.Props
