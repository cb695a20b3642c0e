import Verif.Model.Basic

/-
Model of how the server process takes new values: /repo/cmd/katie-server/handler.go `Handler.Account` (the branch for POST)
and inserter.go `inserter`.  The goroutines are a state machine: `step` performs one step of one of them.

Not modelled: routing, JSON and metrics; the search that follows a successful insertion.  `tree.Insert` is an arbitrary
function of the tree and the request that returns a root or an error together with the tree afterwards; that it panics is
left out (the process would end).  The files carry `//go:build ignore` and call functions that the packages no longer
have (`Tree.Insert`, `Tree.SetLatest`), so only what these two files do themselves is modelled.
-/

namespace Katie.CmdServer
open Katie

/-- handler.go:33-36 `HttpError` -/
structure HttpError where
  status : Nat
  msg : String
  deriving DecidableEq, Repr

/-! ### Reading the body -/

/-- the error of one call of `Read`: nil, `io.EOF`, or another one -/
inductive ReadErr where
  | none
  | eof
  | other (msg : String)
  deriving DecidableEq, Repr

/-- what one call of `req.Body.Read` returns -/
structure ReadResult where
  data : Bytes
  err : ReadErr
  deriving DecidableEq, Repr

/-- handler.go:178 `make([]byte, 16*1024)` -/
def bodyLimit : Nat := 16 * 1024

/-- handler.go:180-194, given what the calls of `Read` return one after the other; `none` while the loop is still
waiting for the next of them -/
def readBody : List ReadResult → Bytes → Option (Except HttpError Bytes)
  | [], _ => none
  | r :: rs, value =>
    let value := value ++ r.data
    match r.err with
    | .eof =>
      if value.length = 0 then some (.error ⟨400, "empty request body not allowed"⟩)
      else some (.ok value)
    | .other m => some (.error ⟨500, m⟩)
    | .none =>
      if value.length = bodyLimit then some (.error ⟨400, "request body is too large"⟩)
      else readBody rs value

/-! ### The handlers and the inserter -/

/-- what the client is told: handler.go:201, 211, 207, or the root of the tree with the new value (209) -/
inductive Outcome (R : Type) where
  | submitTimeout
  | resultTimeout
  | failed (msg : String)
  | root (r : R)
  deriving DecidableEq, Repr

/-- where a handler is: in the first `select` (handler.go:198), between the two, in the second (204), or finished -/
inductive At (R : Type) where
  | submitting
  | handedOver
  | waiting
  | finished (o : Outcome R)
  deriving DecidableEq, Repr

/-- inserter.go:13-17 `InsertRequest` without the channel -/
structure Job where
  key : Bytes
  value : Bytes
  deriving DecidableEq, Repr

/-- a goroutine that runs `Account`; `fired`: the timer of handler.go:197 has run out -/
structure Worker (R : Type) where
  job : Job
  pos : At R
  fired : Bool
  deriving DecidableEq, Repr

/-- where the inserter is: inserter.go:28, 31, 35; the number says for which handler it works -/
inductive Inserter (R : Type) where
  | idle
  | inserting (i : Nat) (job : Job)
  | replying (i : Nat) (res : Except String R)

/-- the process: the handlers in the order in which their timers were started, the inserter, the tree, and the calls of
`Insert` that have returned, with the handler's number -/
structure Sys (T R : Type) where
  workers : List (Worker R)
  inserter : Inserter R
  tree : T
  calls : List (Nat × Except String R)

/-- one step of the process -/
inductive Event where
  /-- a handler has read its body and starts its timer -/
  | arrive (job : Job)
  /-- a timer runs out -/
  | fire (i : Nat)
  /-- a handler sends its request and the inserter receives it: handler.go:199, inserter.go:28 (the channel is unbuffered) -/
  | handOver (i : Nat)
  /-- a handler reaches its second `select` -/
  | enterWait (i : Nat)
  /-- `Insert` returns: inserter.go:31 -/
  | insert
  /-- inserter.go:36 and handler.go:205 -/
  | deliver
  /-- inserter.go:37 -/
  | drop
  /-- handler.go:200 or 210 -/
  | giveUp (i : Nat)
  deriving DecidableEq, Repr

variable {T R : Type}

/-- The effect of one step, if it can be taken.  The channel for results is unbuffered too: the inserter can send on it
exactly if the handler is in its second `select`, and takes the `default` branch exactly if it cannot send.  A handler for which
two cases of a `select` are ready may take either. -/
def step (ins : T → Job → Except String R × T) (s : Sys T R) : Event → Option (Sys T R)
  | .arrive job => some { s with workers := s.workers ++ [⟨job, .submitting, false⟩] }
  | .fire i =>
    match s.workers[i]? with
    | some w => some { s with workers := s.workers.set i { w with fired := true } }
    | none => none
  | .handOver i =>
    match s.inserter, s.workers[i]? with
    | .idle, some ⟨job, .submitting, f⟩ =>
      some { s with workers := s.workers.set i ⟨job, .handedOver, f⟩, inserter := .inserting i job }
    | _, _ => none
  | .enterWait i =>
    match s.workers[i]? with
    | some ⟨job, .handedOver, f⟩ => some { s with workers := s.workers.set i ⟨job, .waiting, f⟩ }
    | _ => none
  | .insert =>
    match s.inserter with
    | .inserting i job =>
      let (res, t) := ins s.tree job
      some { s with tree := t, inserter := .replying i res, calls := s.calls ++ [(i, res)] }
    | _ => none
  | .deliver =>
    match s.inserter with
    | .replying i res =>
      match s.workers[i]? with
      | some ⟨job, .waiting, f⟩ =>
        let o := match res with
          | .error m => .failed m
          | .ok r => .root r
        some { s with workers := s.workers.set i ⟨job, .finished o, f⟩, inserter := .idle }
      | _ => none
    | _ => none
  | .drop =>
    match s.inserter with
    | .replying i _ =>
      match s.workers[i]? with
      | some ⟨_, .waiting, _⟩ => none
      | _ => some { s with inserter := .idle }
    | _ => none
  | .giveUp i =>
    match s.workers[i]? with
    | some ⟨job, .submitting, true⟩ => some { s with workers := s.workers.set i ⟨job, .finished .submitTimeout, true⟩ }
    | some ⟨job, .waiting, true⟩ => some { s with workers := s.workers.set i ⟨job, .finished .resultTimeout, true⟩ }
    | _ => none

/-- main.go:44-55: the process at its start, with the tree from the database -/
def start (t : T) : Sys T R := ⟨[], .idle, t, []⟩

/-- several steps -/
def steps (ins : T → Job → Except String R × T) : List Event → Sys T R → Option (Sys T R)
  | [], s => some s
  | e :: es, s =>
    match step ins s e with
    | some s => steps ins es s
    | none => none

end Katie.CmdServer
