import Verif.Lemmas.Public
import Verif.Props.ServerExample

/-
C86: What the server answers to a request about a label depends, besides the versions of that label, only on what it
publishes to auditors: which VRF outputs and commitments were added and removed when.  Names, values and openings of
other labels have no influence on it.
-/

namespace Katie.Props
open Katie Katie.Wire Katie.Alg Katie.Server Katie.ServerSpec Katie.Log

section
variable {env : Env} {cs cs' : List Change} {us : List AuditorUpdate} {t t' : Tree}

/-- Two servers with the same keys have published the same updates, and label `req.label` has the same versions on both.
Then they return the same answer to a search, or refuse it with the same error.  `aud` is the tree head of the auditor. -/
theorem C86_search (hcs : env.cs.Good) (hsm : Prefix.Small env.cs) (h : ServerSpec.Runs env cs us t)
    (h' : ServerSpec.Runs env cs' us t') (aud : Option AuditorTreeHead) (now : Nat) (req : SearchRequest)
    (hv : versionsOf req.label cs' = versionsOf req.label cs) :
    Server.search env now { t' with auditor := aud } req = Server.search env now { t with auditor := aud } req :=
  (runs_sameFor hcs hsm h h' hv aud).search now

/-- The same for the monitoring requests of contacts. -/
theorem C86_contact_monitor (hcs : env.cs.Good) (hsm : Prefix.Small env.cs) (h : ServerSpec.Runs env cs us t)
    (h' : ServerSpec.Runs env cs' us t') (aud : Option AuditorTreeHead) (now : Nat) (req : ContactMonitorRequest)
    (hv : versionsOf req.label cs' = versionsOf req.label cs) :
    Server.contactMonitor env now { t' with auditor := aud } req = Server.contactMonitor env now { t with auditor := aud } req :=
  (runs_sameFor hcs hsm h h' hv aud).contactMonitor now

/-- The same for the initialization of an owner. -/
theorem C86_owner_init (hcs : env.cs.Good) (hsm : Prefix.Small env.cs) (h : ServerSpec.Runs env cs us t)
    (h' : ServerSpec.Runs env cs' us t') (aud : Option AuditorTreeHead) (now : Nat) (req : OwnerInitRequest)
    (hv : versionsOf req.label cs' = versionsOf req.label cs) :
    Server.ownerInit env now { t' with auditor := aud } req = Server.ownerInit env now { t with auditor := aud } req :=
  (runs_sameFor hcs hsm h h' hv aud).ownerInit now

/-- The same for the monitoring requests of owners. -/
theorem C86_owner_monitor (hcs : env.cs.Good) (hsm : Prefix.Small env.cs) (h : ServerSpec.Runs env cs us t)
    (h' : ServerSpec.Runs env cs' us t') (aud : Option AuditorTreeHead) (now : Nat) (req : OwnerMonitorRequest)
    (hv : versionsOf req.label cs' = versionsOf req.label cs) :
    Server.ownerMonitor env now { t' with auditor := aud } req = Server.ownerMonitor env now { t with auditor := aud } req :=
  (runs_sameFor hcs hsm h h' hv aud).ownerMonitor now

/-- What an owner who asks for an update is sent if the server makes no change for them. -/
theorem C86_update_refused (hcs : env.cs.Good) (hsm : Prefix.Small env.cs) (h : ServerSpec.Runs env cs us t)
    (h' : ServerSpec.Runs env cs' us t') (aud : Option AuditorTreeHead) (now : Nat) (req : UpdateRequest)
    (hv : versionsOf req.label cs' = versionsOf req.label cs) {seq : Sequenced} (hseq : seq = .unsupported ∨ seq = .refused) :
    Server.update env now seq { t' with auditor := aud } req = Server.update env now seq { t with auditor := aud } req :=
  (runs_sameFor hcs hsm h h' hv aud).update (by rcases hseq with rfl | rfl <;> constructor) now

/-- What an owner who asks for an update is sent if the server makes the change: afterwards, too, both servers have
published the same updates, and the label has the same versions on both. -/
theorem C86_update (hcs : env.cs.Good) (hsm : Prefix.Small env.cs) (h : ServerSpec.Runs env cs us t)
    (h' : ServerSpec.Runs env cs' us t') (aud : Option AuditorTreeHead) (now : Nat) (req : UpdateRequest)
    (hv : versionsOf req.label cs' = versionsOf req.label cs) {ds ds' : List Change} {ws : List AuditorUpdate} {r r' : Tree}
    (k : ServerSpec.Runs env ds ws r) (k' : ServerSpec.Runs env ds' ws r')
    (kv : versionsOf req.label ds' = versionsOf req.label ds) (pos : Nat) :
    Server.update env now (.sequenced pos r'.db) { t' with auditor := aud } req =
      Server.update env now (.sequenced pos r.db) { t with auditor := aud } req :=
  (runs_sameFor hcs hsm h h' hv aud).update (runs_sameSeq hcs hsm k k' kv pos) now

/-- The same for a service operator who submits the new versions. -/
theorem C86_manager_update (hcs : env.cs.Good) (hsm : Prefix.Small env.cs) (h : ServerSpec.Runs env cs us t)
    (h' : ServerSpec.Runs env cs' us t') (aud : Option AuditorTreeHead) (now : Nat) (verify : Bytes → Bytes → Bool)
    (req : ManagerUpdateRequest) (hv : versionsOf req.label cs' = versionsOf req.label cs) {ds ds' : List Change}
    {ws : List AuditorUpdate} {r r' : Tree} (k : ServerSpec.Runs env ds ws r) (k' : ServerSpec.Runs env ds' ws r')
    (kv : versionsOf req.label ds' = versionsOf req.label ds) (pos : Nat) :
    Server.managerUpdate env now verify (.sequenced pos r'.db) { t' with auditor := aud } req =
      Server.managerUpdate env now verify (.sequenced pos r.db) { t with auditor := aud } req :=
  (runs_sameFor hcs hsm h h' hv aud).managerUpdate verify (runs_sameSeq hcs hsm k k' kv pos) now

end

/-! ### A concrete case: the other label and its value have other names on the second server -/

/-- the two labels have the same VRF output, and the two values have the same commitment, for the toy functions -/
def secretChange (x : Bytes) : Change := toyChange [⟨[10], ⟨[1], none⟩⟩, ⟨x, ⟨x, none⟩⟩] [] 5

def secretUpdate : AuditorUpdate :=
  { timestamp := 5, added := [⟨[29], [167]⟩, ⟨[58], [20]⟩], removed := [],
    proof := ⟨[.nonInclusionParent 0, .nonInclusionParent 0], []⟩ }

theorem secretRuns {x : Bytes} {t : Tree} (hm : mutate toyEnv (secretChange x) {} = (.ok secretUpdate, t)) :
    ServerSpec.Runs toyEnv [secretChange x] [secretUpdate] t :=
  ServerSpec.Runs.change (cs := []) (us := []) (.start rfl) hm
    (toyChange_ok _ _ _ (by decide +kernel) (by simp [UpdateValue.Typed, SuffixTyped, toyEnv, thirdPartyAuditing, thirdPartyManagement]))
    (inRange_of_short (by simp) (by simp [secretChange, toyChange])) (.inl rfl)

/-- Both executions exist, they differ in the name and the value of the second label, and the first label has the same
version on both servers, which can be found. -/
example : ∃ t t', ServerSpec.Runs toyEnv [secretChange [1, 5]] [secretUpdate] t ∧
    ServerSpec.Runs toyEnv [secretChange [2, 2]] [secretUpdate] t' ∧
    versionsOf [10] [secretChange [2, 2]] = versionsOf [10] [secretChange [1, 5]] ∧
    versionsOf [1, 5] [secretChange [1, 5]] = [⟨0, ⟨[1, 5], none⟩, [9]⟩] ∧ versionsOf [1, 5] [secretChange [2, 2]] = [] ∧
    t.db ≠ t'.db ∧ (Server.search toyEnv 5 t { label := [10], version := none, last := none }).isOk :=
  ⟨_, _, secretRuns (x := [1, 5]) (t := (mutate toyEnv (secretChange [1, 5]) {}).2) (Prod.ext (by decide +kernel) rfl),
    secretRuns (x := [2, 2]) (t := (mutate toyEnv (secretChange [2, 2]) {}).2) (Prod.ext (by decide +kernel) rfl),
    by decide +kernel, by decide +kernel, by decide +kernel, by decide +kernel, by decide +kernel⟩

end Katie.Props
