import Verif.Model.Basic

/-
Model of /repo/tree/log/math/math.go (node numbering of the log tree).

Simplification: `uint64` values are `Nat`; the shifts, `^`, `|`, `&` of the code are the
corresponding `Nat` operations.  (`Verif/Props/LogMath64.lean` shows that for tree sizes up to
`MaxTreeSize` no intermediate value reaches 2^64.)  `panic` is `goPanic`, loops carry fuel.
-/

namespace Katie.LogMath
open Katie

/-- math.go:8 `MaxTreeSize` -/
def maxTreeSize : Nat := 1 <<< 63

/-- math.go:11-13 `IsLeaf` -/
def isLeaf (x : Nat) : Bool := (x &&& 1) == 0

/-- math.go:20-23, the loop of `log2`: counts `k` up while `x >> k > 0`. -/
def log2Loop : Nat → Nat → Nat → Nat
  | 0, _, k => k
  | fuel + 1, x, k => if x >>> k > 0 then log2Loop fuel x (k + 1) else k

/-- math.go:16-25 `log2` -/
def log2 (x : Nat) : Nat := if x = 0 then 0 else log2Loop (x + 1) x 0 - 1

/-- math.go:33-36, the loop of `Level`: counts trailing one bits. -/
def levelLoop : Nat → Nat → Nat → Nat
  | 0, _, k => k
  | fuel + 1, x, k => if (x >>> k) &&& 1 = 1 then levelLoop fuel x (k + 1) else k

/-- math.go:29-38 `Level` -/
def level (x : Nat) : Nat := if isLeaf x then 0 else levelLoop (x + 1) x 0

/-- math.go:41-46 `nodeWidth` -/
def nodeWidth (n : Nat) : Nat := if n = 0 then 0 else 2 * (n - 1) + 1

/-- math.go:49-52 `Root` -/
def root (n : Nat) : Nat := (1 <<< log2 (nodeWidth n)) - 1

/-- math.go:55-61 `Left` (panics on a leaf) -/
def left (x : Nat) : G Nat :=
  let k := level x
  if k = 0 then goPanic "leaf node has no children" else pure (x ^^^ (1 <<< (k - 1)))

/-- math.go:63-69 `RightStep` (panics on a leaf) -/
def rightStep (x : Nat) : G Nat :=
  let k := level x
  if k = 0 then goPanic "leaf node has no children" else pure (x ^^^ (3 <<< (k - 1)))

/-- math.go:75-77, the loop of `Right` -/
def rightLoop : Nat → Nat → Nat → G Nat
  | 0, _, _ => .error .diverge
  | fuel + 1, r, w => if r ≥ w then do let r' ← left r; rightLoop fuel r' w else pure r

/-- math.go:72-79 `Right`.  (Every iteration lowers the level, so `r + 1` iterations suffice.) -/
def right (x n : Nat) : G Nat := do
  let r ← rightStep x
  rightLoop (r + 1) r (nodeWidth n)

/-- math.go:81-85 `ParentStep` -/
def parentStep (x : Nat) : Nat :=
  let k := level x
  let b := (x >>> (k + 1)) &&& 1
  (x ||| (1 <<< k)) ^^^ (b <<< (k + 1))

/-- math.go:95-97, the loop of `Parent` -/
def parentLoop : Nat → Nat → Nat → G Nat
  | 0, _, _ => .error .diverge
  | fuel + 1, p, w => if p ≥ w then parentLoop fuel (parentStep p) w else pure p

/-- math.go:89-99 `Parent` (panics on the root).  Fuel: `x + n + 64` steps. -/
def parent (x n : Nat) : G Nat :=
  if x = root n then goPanic "root node has no parent"
  else parentLoop (x + n + 64) (parentStep x) (nodeWidth n)

/-- math.go:102-109 `Sibling` -/
def sibling (x n : Nat) : G Nat := do
  let p ← parent x n
  if x < p then right p n else left p

/-- math.go:115-118, the loop of `DirectPath` -/
def directPathLoop : Nat → Nat → Nat → Nat → G (List Nat)
  | 0, _, _, _ => .error .diverge
  | fuel + 1, x, n, r =>
    if x ≠ r then do
      let p ← parent x n
      let rest ← directPathLoop fuel p n r
      pure (p :: rest)
    else pure []

/-- math.go:112-120 `DirectPath` -/
def directPath (x n : Nat) : G (List Nat) := directPathLoop (n + 64) x n (root n)

/-- math.go:123-136 `Copath` -/
def copath (x n : Nat) : G (List Nat) :=
  if x = root n then pure []
  else do
    let d ← directPath x n
    ((x :: d).dropLast).mapM (fun y => sibling y n)

/-- math.go:139-144 `IsFullSubtree` -/
def isFullSubtree (x n : Nat) : Bool :=
  let rightmost := 2 * (n - 1)
  let expected := x + (1 <<< level x) - 1
  expected ≤ rightmost

/-- math.go:150-158, the loop of `FullSubtrees` -/
def fullSubtreesLoop : Nat → Nat → Nat → G (List Nat)
  | 0, _, _ => .error .diverge
  | fuel + 1, x, n =>
    if isFullSubtree x n then pure [x]
    else do
      let l ← left x
      let r ← right x n
      let rest ← fullSubtreesLoop fuel r n
      pure (l :: rest)

/-- math.go:147-159 `FullSubtrees` -/
def fullSubtrees (x n : Nat) : G (List Nat) := fullSubtreesLoop (n + 1) x n

/-- `slices.BinarySearch(nodes, x)` on a sorted slice without duplicates: the number of elements
smaller than `x`, and whether `x` occurs.  (Library function, modelled by its contract.) -/
def binarySearch (nodes : List Nat) (x : Nat) : Nat × Bool :=
  ((nodes.takeWhile (· < x)).length, nodes.contains x)

/-- math.go:192-208 `batchCopath`; `incl` is membership in the `include` map. -/
def batchCopathAux : Nat → Nat → Nat → List Nat → List Nat → G (List Nat)
  | 0, _, _, _, _ => .error .diverge
  | fuel + 1, x, n, nodes, incl =>
    if nodes = [] then fullSubtrees x n
    else if nodes = [x] then
      if incl.contains x then pure [x] else pure []
    else do
      let (i, found) := binarySearch nodes x
      let j := if found then i + 1 else i
      let l ← left x
      let a ← batchCopathAux fuel l n (nodes.take i) incl
      let r ← right x n
      let b ← batchCopathAux fuel r n (nodes.drop j) incl
      pure (a ++ b)

/-- Sorted list of the distinct elements: the effect of collecting ids in a Go map used as a set,
reading the keys back and `slices.Sort` (math.go:170-188, verify.go:91-97). -/
def sortDedup (xs : List Nat) : List Nat := xs.foldr insertUniq []
where
  /-- insert into a strictly increasing list unless already there -/
  insertUniq (a : Nat) : List Nat → List Nat
  | [] => [a]
  | b :: l => if a < b then a :: b :: l else if a = b then b :: l else b :: insertUniq a l

/-- math.go:165-190 `BatchCopath` -/
def batchCopath (leaves : List Nat) (n : Nat) (nP m : Option Nat) : G (List Nat) := do
  let fromNP ← match nP with
    | none => pure []
    | some k => fullSubtrees (root k) k
  let fromM ← match m with
    | none => pure []
    | some k => fullSubtrees (root k) k
  let nodes := sortDedup (leaves.map (2 * ·) ++ fromNP ++ fromM)
  batchCopathAux (2 * n + 2) (root n) n nodes fromNP

/-- math.go:218-220, the loop of `Chunk` -/
def chunkLoop : Nat → Nat → G Nat
  | 0, _ => .error .diverge
  | fuel + 1, c => if level c % 4 ≠ 3 then chunkLoop fuel (parentStep c) else pure c

/-- math.go:216-222 `Chunk`: at most three steps up. -/
def chunk (x : Nat) : G Nat := chunkLoop 4 x

end Katie.LogMath
