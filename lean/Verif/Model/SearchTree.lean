import Verif.Model.LogMath

/-
Model of /repo/tree/transparency/math/math.go (the implicit binary search tree over log entries).

The functions `IsLeaf`, `log2`, `level`, `Left`, `rightStep`, `parentStep` of that file
(lines 5-69) have, word for word, the bodies of the functions of the same name in
/repo/tree/log/math/math.go, so the model shares their definitions (`Katie.LogMath`).

Simplification: `uint64` values are `Nat`, except for the one subtraction `n-1` that can wrap
around (`Frontier`, `UpdateView` with `n = 0`), which is modelled modulo 2^64.
-/

namespace Katie.SearchTree
open Katie
open Katie.LogMath (isLeaf log2 level left rightStep parentStep)

/-- `n-1` on `uint64` -/
def pred64 (n : Nat) : Nat := (n + 2 ^ 64 - 1) % 2 ^ 64

/-- math.go:34-36 `Root` -/
def root (n : Nat) : Nat := (1 <<< log2 n) - 1

/-- math.go:58-60, the loop of `Right` -/
def rightLoop : Nat → Nat → Nat → G Nat
  | 0, _, _ => .error .diverge
  | fuel + 1, r, n => if r ≥ n then do let r' ← left r; rightLoop fuel r' n else pure r

/-- math.go:56-62 `Right` -/
def right (x n : Nat) : G Nat := do
  let r ← rightStep x
  rightLoop (r + 1) r n

/-- math.go:76-78, the loop of `Parent` -/
def parentLoop : Nat → Nat → Nat → G Nat
  | 0, _, _ => .error .diverge
  | fuel + 1, p, n => if p ≥ n then parentLoop fuel (parentStep p) n else pure p

/-- math.go:71-80 `Parent` (panics on the root) -/
def parent (x n : Nat) : G Nat :=
  if x = root n then goPanic "root node has no parent"
  else parentLoop (x + n + 64) (parentStep x) n

/-- math.go:85-87 and 139-141: walk right from `x` (already in the output) to `n-1`; returns the
nodes appended. -/
def walkRight : Nat → Nat → Nat → G (List Nat)
  | 0, _, _ => .error .diverge
  | fuel + 1, x, n =>
    if x ≠ pred64 n then do
      let r ← right x n
      let rest ← walkRight fuel r n
      pure (r :: rest)
    else pure []

/-- math.go:83-89 `Frontier` -/
def frontier (n : Nat) : G (List Nat) := do
  let rest ← walkRight (n + 1) (root n) n
  pure (root n :: rest)

/-- math.go:97-102, the loop of `LeftDirectPath` -/
def leftPathLoop : Nat → Nat → Nat → Nat → G (List Nat)
  | 0, _, _, _ => .error .diverge
  | fuel + 1, x, r, y =>
    if y ≠ r then do
      let y' := parentStep y
      let rest ← leftPathLoop fuel x r y'
      pure (if y' < x then y' :: rest else rest)
    else pure []

/-- math.go:93-104 `LeftDirectPath` -/
def leftDirectPath (x : Nat) : G (List Nat) := leftPathLoop (x + 64) x (root (x + 1)) x

/-- math.go:112-117, the loop of `RightDirectPath` -/
def rightPathLoop : Nat → Nat → Nat → Nat → Nat → G (List Nat)
  | 0, _, _, _, _ => .error .diverge
  | fuel + 1, x, n, r, y =>
    if y ≠ r then do
      let y' ← parent y n
      let rest ← rightPathLoop fuel x n r y'
      pure (if y' > x then y' :: rest else rest)
    else pure []

/-- math.go:108-119 `RightDirectPath` -/
def rightDirectPath (x n : Nat) : G (List Nat) := rightPathLoop (n + 64) x n (root n) x

/-- math.go:139-143: the final loop of `UpdateView`, on the non-empty or empty output so far. -/
def extendRight (out : List Nat) (n : Nat) : G (List Nat) :=
  match out.getLast? with
  | none => pure []
  | some x => do
    let rest ← walkRight (n + 1) x n
    pure (out ++ rest)

/-- math.go:126-144 `UpdateView` (`m = nil` is `none`) -/
def updateView (n : Nat) (m : Option Nat) : G (List Nat) :=
  match m with
  | none => extendRight [root n] n
  | some m =>
    if m = n then pure []
    else if m = 0 then extendRight [root n] n
    else do
      let d ← rightDirectPath (m - 1) n
      extendRight d n

end Katie.SearchTree
