import Verif.Model.Prog

/-
What a provider answers about an honest log: entry `x` has timestamp `ts x`, and `g x` is the greatest
version of the label in the prefix tree of entry `x` (-1 if there is none).
-/

namespace Katie.Alg
open Katie

/-- The answers of a provider about an honest log. -/
def honest (ts : Nat → Nat) (g : Nat → Int) (stop : Nat → Int → Bool := fun _ _ => false) :
    (q : Req) → G q.Resp
  | .ts x => .ok (ts x)
  | .search x v _ => Except.ok (if g x < (v : Int) then -1 else if g x > (v : Int) then 1 else 0 : Int)
  | .monitor x v => if (v : Int) ≤ g x then .ok () else goErr "version not included"
  | .incl x vs => if vs.all (fun v => decide ((v : Int) ≤ g x)) then .ok () else goErr "version not included"
  | .stop x v => .ok (stop x v)
  | .addLadder _ _ _ _ => .ok ()

end Katie.Alg
