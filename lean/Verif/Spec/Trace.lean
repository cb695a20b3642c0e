import Verif.Model.Prog

/-
Runs of a program against an arbitrary provider, as traces: the list of requests made and the answers given.
Nothing is assumed about the answers, so a theorem about all traces covers every provider, with any internal
state and any behaviour of the other side.
-/

namespace Katie.Alg
open Katie

/-- a request and its answer -/
structure Ev where
  q : Req
  a : G q.Resp

/-- `Runs p tr r`: program `p` makes the requests of `tr`, gets the answers of `tr`, and ends with `r`. -/
inductive Runs {α : Type} : Prog α → List Ev → G α → Prop
  | ret (r : G α) : Runs (.ret r) [] r
  | op {q : Req} {k : G q.Resp → Prog α} (a : G q.Resp) {tr : List Ev} {r : G α} :
      Runs (k a) tr r → Runs (.op q k) (⟨q, a⟩ :: tr) r

/-- every timestamp learned in the trace is that of `ts` -/
def TsTrace (tr : List Ev) (ts : Nat → Nat) : Prop := ∀ x a, ⟨.ts x, .ok a⟩ ∈ tr → a = ts x

/-- every answer of the trace is that of `A` -/
def AgreesWith (tr : List Ev) (A : (q : Req) → G q.Resp) : Prop := ∀ e ∈ tr, e.a = A e.q

end Katie.Alg
