import Verif.Spec.Trace

/-
Which runs of an algorithm on the side of the server can be followed by a client that has only the proof: what has to
hold of the requests, given the greatest version `g x` of the label at each log entry `x` of a log of `n` entries.
-/

namespace Katie.Alg
open Katie

/-- whether a prefix proof is made for the request -/
def Req.proves : Req → Bool
  | .ts _ => false
  | .search _ _ _ => true
  | .monitor _ _ => true
  | .incl _ vers => decide (vers ≠ [])
  | .stop _ _ => false
  | .addLadder _ _ _ _ => false

/-- The requests of a trace can be answered by the server and by the client alike.  `done` are the entries searched
before with omission of lookups, `more` says whether proofs follow that are not for this trace.

* all positions are in the log, and versions are below `2^31 - 1` (see C19);
* a search with omission goes to the right of an entry only if the greatest version there is not above the target, and
  to the left only if it is above;
* monitoring and inclusion are asked only for versions that exist, inclusion only for one version at a time (see C56);
* the server says "stop" exactly if it then makes no more proofs. -/
def Fits (g : Nat → Int) (n : Nat) (more : Bool) : List Nat → List Ev → Prop
  | _, [] => True
  | done, ⟨.ts x, _⟩ :: tr => x < n ∧ Fits g n more done tr
  | done, ⟨.search x v om, _⟩ :: tr => x < n ∧ v < 2 ^ 31 - 1 ∧
      (om = true → ∀ a ∈ done, (a < x → g a ≤ v) ∧ (x < a → (v : Int) < g a)) ∧
      Fits g n more (if om then done ++ [x] else done) tr
  | done, ⟨.monitor x v, _⟩ :: tr => x < n ∧ v < 2 ^ 31 - 1 ∧ (v : Int) ≤ g x ∧ Fits g n more done tr
  | done, ⟨.incl x vers, _⟩ :: tr => (vers = [] ∨ x < n ∧ ∃ v, vers = [v] ∧ (v : Int) ≤ g x) ∧ Fits g n more done tr
  | done, ⟨.stop _ _, a⟩ :: tr => a = Except.ok (!(more || tr.any (fun e => e.q.proves))) ∧ Fits g n more done tr
  | _, ⟨.addLadder _ _ _ _, _⟩ :: _ => False

end Katie.Alg
