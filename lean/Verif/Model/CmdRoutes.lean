import Verif.Model.Basic

/-
/repo/cmd/katie-server/handler.go:39-54 `extractPath`, 164-171 (the parameter `last`), and the routes of
/repo/cmd/katie-server/main.go:58-62.  Strings are lists of characters; of the Go strings (bytes) only the characters `/` and
`0`…`9` are looked at, which are single bytes.
-/

namespace Katie.CmdServer
open Katie

/-- `strings.Split(s, "/")` -/
def split : List Char → List (List Char)
  | [] => [[]]
  | c :: s =>
    if c = '/' then [] :: split s
    else
      match split s with
      | [] => [[c]]
      | p :: ps => (c :: p) :: ps

/-- handler.go:39-54 `extractPath`: the label of the counter of requests -/
def extractPath (path method : List Char) : List Char :=
  let full := match path with
    | '/' :: rest => rest
    | _ => path
  match split full with
  | [] => ['/']
  | [p] => '/' :: p
  | p :: q :: _ =>
    let out := '/' :: p ++ '/' :: q
    if out = "/v1/account".toList ∧ method = "POST".toList then "POST:".toList ++ out else out

/-- the value of a string of digits -/
def digitsValue (s : List Char) : Nat := s.foldl (fun n c => 10 * n + (c.toNat - 48)) 0

/-- `strconv.Atoi` of a string of digits (without a sign), on a 64-bit machine -/
def atoi (s : List Char) : G Int :=
  if s = [] ∨ s.any (fun c => !c.isDigit) then goErr "invalid syntax"
  else if digitsValue s < 2 ^ 63 then pure (digitsValue s : Int)
  else goErr "value out of range"

/-- handler.go:164-171: the parameter `last`, -1 if it is not given -/
def parseLast : Option (List Char) → G Int
  | none => pure (-1)
  | some s =>
    match atoi s with
    | .ok n => pure n
    | .error _ => goErr "request path had unexpected format"

/-- handler.go:223-229: whether a consistency proof is added to the response, and from which size -/
def consistencyFrom (last : Int) : Option Int := if last ≠ -1 then some last else none

end Katie.CmdServer
