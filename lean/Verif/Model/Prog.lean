import Verif.Model.Config

/-
The algorithms of /repo/tree/transparency/algorithms talk to a `DataProvider`.  They are modelled as
programs: finite trees of requests to the provider, with a continuation for each possible answer
(including an error).  How a provider answers is a separate matter (Model/Provider.lean), so the same
program is run by the server, which produces a proof, and by the client, which consumes it.
-/

namespace Katie.Alg
open Katie

/-- The calls the algorithms make on their provider (data_provider.go, `handle.Tracker().AddLadder` of
update.go:79 and :86). -/
inductive Req where
  | ts (x : Nat)
  | search (x ver : Nat) (om : Bool)
  | monitor (x ver : Nat)
  | incl (x : Nat) (vers : List Nat)
  | stop (x : Nat) (ver : Int)
  | addLadder (x : Nat) (om : Bool) (greatest : Int) (ladder : List Nat)
  deriving DecidableEq, Repr

/-- the type of a successful answer -/
def Req.Resp : Req → Type
  | .ts _ => Nat
  | .search _ _ _ => Int
  | .monitor _ _ => Unit
  | .incl _ _ => Unit
  | .stop _ _ => Bool
  | .addLadder _ _ _ _ => Unit

/-- A program: a result, or a request and what to do with the answer. -/
inductive Prog (α : Type) where
  | ret (r : G α)
  | op (q : Req) (k : G q.Resp → Prog α)

namespace Prog
variable {α β : Type}

/-- sequencing; an error ends the program -/
def bind : Prog α → (α → Prog β) → Prog β
  | .ret (.ok a), f => f a
  | .ret (.error e), _ => .ret (.error e)
  | .op q k, f => .op q (fun r => (k r).bind f)

instance : Monad Prog where
  pure a := .ret (.ok a)
  bind := Prog.bind

/-- one request; `return err` if it fails -/
def call (q : Req) : Prog q.Resp := .op q .ret

/-- `provider.GetTimestamp(x)` -/
def getTs (x : Nat) : Prog Nat := call (.ts x)
/-- `provider.GetSearchBinaryLadder(x, ver, omit)` -/
def getSearch (x ver : Nat) (om : Bool) : Prog Int := call (.search x ver om)
/-- `provider.GetMonitoringBinaryLadder(x, ver)` -/
def getMonitor (x ver : Nat) : Prog Unit := call (.monitor x ver)
/-- `provider.GetInclusionProof(x, vers)` -/
def getIncl (x : Nat) (vers : List Nat) : Prog Unit := call (.incl x vers)
/-- `provider.StopCondition(x, ver)` -/
def getStop (x : Nat) (ver : Int) : Prog Bool := call (.stop x ver)
/-- `provider.handle.Tracker().AddLadder(x, omit, greatest, ladder)` -/
def addLadder (x : Nat) (om : Bool) (greatest : Int) (ladder : List Nat) : Prog Unit :=
  call (.addLadder x om greatest ladder)

/-- a computation that makes no request -/
def lift (r : G α) : Prog α := .ret r
/-- `return …, errors.New(msg)` -/
def fail (msg : String) : Prog α := .ret (goErr msg)

/-- run a program and look at its error value instead of returning it (panics are not caught) -/
def attempt : Prog α → Prog (G α)
  | .ret (.ok a) => .ret (.ok (.ok a))
  | .ret (.error (.err m)) => .ret (.ok (.error (.err m)))
  | .ret (.error e) => .ret (.error e)
  | .op q k => .op q (fun r => (k r).attempt)

/-- run a program against a provider whose answers depend only on the request -/
def eval (A : (q : Req) → G q.Resp) : Prog α → G α
  | .ret r => r
  | .op q k => (k (A q)).eval A

end Prog
end Katie.Alg
