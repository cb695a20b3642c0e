import Verif.Model.Client

/-
The operations of a client on its store, for statements about all of its executions.
-/

namespace Katie.ClientSpec
open Katie Katie.Wire Katie.Alg Katie.Client

/-- The client makes a request and accepts a response to it, whatever that response is: the store before the request,
and the store after the verification. -/
inductive Accepts (env : CEnv) (st st' : CStore) : Prop
  | search (now : Nat) (order : PMap → List (Nat × Nat)) (state : Option ClientState) (label : Bytes)
      (version : Option Nat) (res : SearchResponse) :
      getState env st = .ok state →
      Client.search env now order state (searchRequest state label version) res st = .ok st' → Accepts env st st'
  | ownerInit (now : Nat) (state : Option ClientState) (ls : ClientLabelState) (label : Bytes) (req : OwnerInitRequest)
      (res : OwnerInitResponse) :
      ownerInitRequest env st label = .ok (req, state, ls) →
      Client.ownerInit env now state ls req res st = .ok st' → Accepts env st st'
  | contactMonitor (now : Nat) (pick : Option Bytes) (state : Option ClientState) (ls : ClientLabelState)
      (req : ContactMonitorRequest) (res : MonitorResponse) :
      monitorRequest env st pick = .ok (some (.contact req, state, ls)) →
      Client.contactMonitor env now state ls req res st = .ok st' → Accepts env st st'
  | ownerMonitor (now : Nat) (pick : Option Bytes) (state : Option ClientState) (ls : ClientLabelState)
      (o : LabelOwnerState) (req : OwnerMonitorRequest) (res : MonitorResponse) :
      monitorRequest env st pick = .ok (some (.owner req, state, ls)) → ls.owner = some o →
      Client.ownerMonitor env now state ls o req res st = .ok st' → Accepts env st st'
  | update (now : Nat) (label : Bytes) (values : List Bytes) (req : UpdateRequest) (sv sv' : Stream)
      (res : UpdateResponse) :
      updateRequest env st label values = .ok (req, sv) → sv.verify env now res st = .ok (sv', st') →
      Accepts env st st'

/-- any number of accepted responses, one after the other -/
inductive Reaches (env : CEnv) : CStore → CStore → Prop
  | refl (st : CStore) : Reaches env st st
  | step {st st' st'' : CStore} : Reaches env st st' → Accepts env st' st'' → Reaches env st st''

/-- the store holds an encoding of this state -/
def Holds (st : CStore) (s : ClientState) : Prop := ∃ raw, s.marshal = .ok raw ∧ st.state = some raw

end Katie.ClientSpec
