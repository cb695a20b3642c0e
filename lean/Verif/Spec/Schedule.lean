import Verif.Model.Client

/-
When the client recommends that a label be monitored: what `GetStaleLabel` may return according to its documentation, and
the position up to which labels are due.
-/

namespace Katie.ScheduleSpec
open Katie Katie.Wire Katie.Client

/-- the label is stored with a terminal entry at or before the cutoff: db.go:75-77 -/
def Due (st : CStore) (cutoff : Nat) (label : Bytes) : Prop := ∃ raw t, (label, raw, t) ∈ st.labels ∧ t ≤ cutoff

/-- what `GetStaleLabel(cutoff)` may return, db.go:75-78: any label that is due, or nil if there are none -/
def MayReturn (st : CStore) (cutoff : Nat) : Option Bytes → Prop
  | some label => Due st cutoff label
  | none => ∀ label, ¬ Due st cutoff label

/-- the cutoff that `Monitor` passes to `GetStaleLabel`, client.go:330-337 -/
def cutoffOf (env : CEnv) (st : CStore) : G Nat := do
  let state ← getState env st
  getDistinguished env state

/-- a call of `Monitor` on a database that does what it is documented to do: client.go:325-365.  `none`: nothing needs to be
monitored. -/
def Recommends (env : CEnv) (st : CStore) (r : Option (MonitorReq × Option ClientState × ClientLabelState)) : Prop :=
  ∃ cutoff pick, cutoffOf env st = .ok cutoff ∧ MayReturn st cutoff pick ∧ monitorRequest env st pick = .ok r

end Katie.ScheduleSpec
