import Verif.Spec.Client
import Verif.Spec.Codec

/-
A client accepts a response that was decoded from bytes: as `Accepts` (Spec/Client.lean), with the fields of the
response in their ranges (Spec/Codec.lean).
-/

namespace Katie.ClientSpec
open Katie Katie.Wire Katie.Alg Katie.Ladder Katie.Server Katie.Client

/-- the client makes a request with the state in the store `st`, and accepts a decoded response: the store becomes `st'` -/
inductive Receives (env : CEnv) (st st' : CStore) : Prop
  | search (now : Nat) (order : PMap → List (Nat × Nat)) (state : Option ClientState) (label : Bytes)
      (version : Option Nat) (res : SearchResponse) :
      getState env st = .ok state → res.Typed env.cfg env.sz (searchRequest state label version) →
      Client.search env now order state (searchRequest state label version) res st = .ok st' → Receives env st st'
  | ownerInit (now : Nat) (state : Option ClientState) (ls : ClientLabelState) (label : Bytes) (req : OwnerInitRequest)
      (res : OwnerInitResponse) :
      ownerInitRequest env st label = .ok (req, state, ls) → res.Typed env.cfg env.sz →
      Client.ownerInit env now state ls req res st = .ok st' → Receives env st st'
  | contactMonitor (now : Nat) (pick : Option Bytes) (state : Option ClientState) (ls : ClientLabelState)
      (req : ContactMonitorRequest) (res : MonitorResponse) :
      monitorRequest env st pick = .ok (some (.contact req, state, ls)) → res.Typed env.cfg env.sz →
      Client.contactMonitor env now state ls req res st = .ok st' → Receives env st st'
  | ownerMonitor (now : Nat) (pick : Option Bytes) (state : Option ClientState) (ls : ClientLabelState)
      (o : LabelOwnerState) (req : OwnerMonitorRequest) (res : MonitorResponse) :
      monitorRequest env st pick = .ok (some (.owner req, state, ls)) → ls.owner = some o →
      res.Typed env.cfg env.sz →
      Client.ownerMonitor env now state ls o req res st = .ok st' → Receives env st st'
  | update (now : Nat) (label : Bytes) (values : List Bytes) (req : UpdateRequest) (sv sv' : Stream)
      (res : UpdateResponse) :
      updateRequest env st label values = .ok (req, sv) → res.Typed env.cfg env.sz →
      sv.verify env now res st = .ok (sv', st') → Receives env st st'

/-- any number of accepted responses, one after the other -/
inductive ReceivesAll (env : CEnv) : CStore → CStore → Prop
  | refl (st : CStore) : ReceivesAll env st st
  | step {st st' st'' : CStore} : ReceivesAll env st st' → Receives env st' st'' → ReceivesAll env st st''

end Katie.ClientSpec
