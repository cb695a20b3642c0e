import Verif.Model.LogMath

/-
Second model of /repo/tree/log/math/math.go, with the 64-bit arithmetic of the code: a `uint64` is a `BitVec 64`, sums,
products and shifts lose what does not fit.  `Verif/Props/LogMath64.lean` proves that for trees of at most `MaxTreeSize`
leaves it computes what `Model/LogMath.lean` computes with unbounded numbers.

The counter `k` of `log2` and `Level` is at most 64 and is a `Nat` (a Go shift by 64 gives 0, as here).  The fuel of the loops is
that of `Model/LogMath.lean`.
-/

namespace Katie.LogMath
open Katie

/-- math.go:11-13 `IsLeaf` -/
def isLeaf64 (x : BitVec 64) : Bool := (x &&& 1#64) == 0#64

/-- math.go:20-23, the loop of `log2` -/
def log2Loop64 : Nat → BitVec 64 → Nat → Nat
  | 0, _, k => k
  | fuel + 1, x, k => if x >>> k > 0#64 then log2Loop64 fuel x (k + 1) else k

/-- math.go:16-25 `log2` -/
def log264 (x : BitVec 64) : Nat := if x = 0#64 then 0 else log2Loop64 (x.toNat + 1) x 0 - 1

/-- math.go:33-36, the loop of `Level` -/
def levelLoop64 : Nat → BitVec 64 → Nat → Nat
  | 0, _, k => k
  | fuel + 1, x, k => if (x >>> k) &&& 1#64 = 1#64 then levelLoop64 fuel x (k + 1) else k

/-- math.go:29-38 `Level` -/
def level64 (x : BitVec 64) : Nat := if isLeaf64 x then 0 else levelLoop64 (x.toNat + 1) x 0

/-- math.go:41-46 `nodeWidth` -/
def nodeWidth64 (n : BitVec 64) : BitVec 64 := if n = 0#64 then 0#64 else 2#64 * (n - 1#64) + 1#64

/-- math.go:49-52 `Root` -/
def root64 (n : BitVec 64) : BitVec 64 := (1#64 <<< log264 (nodeWidth64 n)) - 1#64

/-- math.go:55-61 `Left` -/
def left64 (x : BitVec 64) : G (BitVec 64) :=
  let k := level64 x
  if k = 0 then goPanic "leaf node has no children" else pure (x ^^^ (1#64 <<< (k - 1)))

/-- math.go:63-69 `RightStep` -/
def rightStep64 (x : BitVec 64) : G (BitVec 64) :=
  let k := level64 x
  if k = 0 then goPanic "leaf node has no children" else pure (x ^^^ (3#64 <<< (k - 1)))

/-- math.go:75-77, the loop of `Right` -/
def rightLoop64 : Nat → BitVec 64 → BitVec 64 → G (BitVec 64)
  | 0, _, _ => .error .diverge
  | fuel + 1, r, w => if r ≥ w then do let r' ← left64 r; rightLoop64 fuel r' w else pure r

/-- math.go:72-79 `Right` -/
def right64 (x n : BitVec 64) : G (BitVec 64) := do
  let r ← rightStep64 x
  rightLoop64 (r.toNat + 1) r (nodeWidth64 n)

/-- math.go:81-85 `ParentStep` -/
def parentStep64 (x : BitVec 64) : BitVec 64 :=
  let k := level64 x
  let b := (x >>> (k + 1)) &&& 1#64
  (x ||| (1#64 <<< k)) ^^^ (b <<< (k + 1))

/-- math.go:95-97, the loop of `Parent` -/
def parentLoop64 : Nat → BitVec 64 → BitVec 64 → G (BitVec 64)
  | 0, _, _ => .error .diverge
  | fuel + 1, p, w => if p ≥ w then parentLoop64 fuel (parentStep64 p) w else pure p

/-- math.go:89-99 `Parent` -/
def parent64 (x n : BitVec 64) : G (BitVec 64) :=
  if x = root64 n then goPanic "root node has no parent"
  else parentLoop64 (x.toNat + n.toNat + 64) (parentStep64 x) (nodeWidth64 n)

/-- math.go:102-109 `Sibling` -/
def sibling64 (x n : BitVec 64) : G (BitVec 64) := do
  let p ← parent64 x n
  if x < p then right64 p n else left64 p

/-- math.go:115-118, the loop of `DirectPath` -/
def directPathLoop64 : Nat → BitVec 64 → BitVec 64 → BitVec 64 → G (List (BitVec 64))
  | 0, _, _, _ => .error .diverge
  | fuel + 1, x, n, r =>
    if x ≠ r then do
      let p ← parent64 x n
      let rest ← directPathLoop64 fuel p n r
      pure (p :: rest)
    else pure []

/-- math.go:112-120 `DirectPath` -/
def directPath64 (x n : BitVec 64) : G (List (BitVec 64)) := directPathLoop64 (n.toNat + 64) x n (root64 n)

/-- math.go:123-136 `Copath` -/
def copath64 (x n : BitVec 64) : G (List (BitVec 64)) :=
  if x = root64 n then pure []
  else do
    let d ← directPath64 x n
    ((x :: d).dropLast).mapM (fun y => sibling64 y n)

/-- math.go:139-144 `IsFullSubtree` -/
def isFullSubtree64 (x n : BitVec 64) : Bool :=
  let rightmost := 2#64 * (n - 1#64)
  let expected := x + (1#64 <<< level64 x) - 1#64
  expected ≤ rightmost

/-- math.go:150-158, the loop of `FullSubtrees` -/
def fullSubtreesLoop64 : Nat → BitVec 64 → BitVec 64 → G (List (BitVec 64))
  | 0, _, _ => .error .diverge
  | fuel + 1, x, n =>
    if isFullSubtree64 x n then pure [x]
    else do
      let l ← left64 x
      let r ← right64 x n
      let rest ← fullSubtreesLoop64 fuel r n
      pure (l :: rest)

/-- math.go:147-159 `FullSubtrees` -/
def fullSubtrees64 (x n : BitVec 64) : G (List (BitVec 64)) := fullSubtreesLoop64 (n.toNat + 1) x n

/-- math.go:192-208 `batchCopath`, with `slices.BinarySearch` as in `Model/LogMath.lean` -/
def batchCopathAux64 : Nat → BitVec 64 → BitVec 64 → List (BitVec 64) → List (BitVec 64) → G (List (BitVec 64))
  | 0, _, _, _, _ => .error .diverge
  | fuel + 1, x, n, nodes, incl =>
    if nodes = [] then fullSubtrees64 x n
    else if nodes = [x] then
      if incl.contains x then pure [x] else pure []
    else do
      let i := (nodes.takeWhile (· < x)).length
      let j := if nodes.contains x then i + 1 else i
      let l ← left64 x
      let a ← batchCopathAux64 fuel l n (nodes.take i) incl
      let r ← right64 x n
      let b ← batchCopathAux64 fuel r n (nodes.drop j) incl
      pure (a ++ b)

/-- sorted list of the distinct elements, as `sortDedup` -/
def sortDedup64 (xs : List (BitVec 64)) : List (BitVec 64) := xs.foldr insertUniq []
where
  /-- insert into a strictly increasing list unless already there -/
  insertUniq (a : BitVec 64) : List (BitVec 64) → List (BitVec 64)
  | [] => [a]
  | b :: l => if a < b then a :: b :: l else if a = b then b :: l else b :: insertUniq a l

/-- math.go:165-190 `BatchCopath` -/
def batchCopath64 (leaves : List (BitVec 64)) (n : BitVec 64) (nP m : Option (BitVec 64)) : G (List (BitVec 64)) := do
  let fromNP ← match nP with
    | none => pure []
    | some k => fullSubtrees64 (root64 k) k
  let fromM ← match m with
    | none => pure []
    | some k => fullSubtrees64 (root64 k) k
  let nodes := sortDedup64 (leaves.map (2#64 * ·) ++ fromNP ++ fromM)
  batchCopathAux64 (2 * n.toNat + 2) (root64 n) n nodes fromNP

/-- math.go:218-220, the loop of `Chunk` -/
def chunkLoop64 : Nat → BitVec 64 → G (BitVec 64)
  | 0, _ => .error .diverge
  | fuel + 1, c => if level64 c % 4 ≠ 3 then chunkLoop64 fuel (parentStep64 c) else pure c

/-- math.go:216-222 `Chunk` -/
def chunk64 (x : BitVec 64) : G (BitVec 64) := chunkLoop64 4 x

end Katie.LogMath
