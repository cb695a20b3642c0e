import Verif.Spec.SearchTree

/-
Specification of distinguished log entries (draft-ietf-keytrans-protocol, "Reasonable Monitoring
Window"): the root of the search tree gets the interval from 0 to the timestamp of the last entry.  An
entry whose interval is wide enough is distinguished and its children get the parts of the interval to the
left and to the right of its own timestamp.  Nothing below an entry that is not distinguished is
distinguished.
-/

namespace Katie.SearchSpec

/-- `DistIn D ts lo hi l r y`: in the subtree over `[lo, hi)` whose root has the interval `(l, r)`, entry `y`
is distinguished.  `D l r` says that an interval is wide enough. -/
inductive DistIn (D : Nat → Nat → Prop) (ts : Nat → Nat) : Nat → Nat → Nat → Nat → Nat → Prop
  | here {lo hi l r} : D l r → DistIn D ts lo hi l r (rt lo hi)
  | left {lo hi l r y} : D l r → lo < rt lo hi → DistIn D ts lo (rt lo hi) l (ts (rt lo hi)) y →
      DistIn D ts lo hi l r y
  | right {lo hi l r y} : D l r → rt lo hi + 1 < hi → DistIn D ts (rt lo hi + 1) hi (ts (rt lo hi)) r y →
      DistIn D ts lo hi l r y

/-- entry `y` of a log with `n` entries is distinguished -/
def Distinguished (D : Nat → Nat → Prop) (ts : Nat → Nat) (n y : Nat) : Prop :=
  0 < n ∧ DistIn D ts 0 n 0 (ts (n - 1)) y

/-- at least the monitoring window `W` lies between `l` and `r` -/
def Wide (W l r : Nat) : Prop := l + W ≤ r

/-- timestamps of a log with `n` entries: non-decreasing 64-bit numbers -/
def GoodTimes (ts : Nat → Nat) (n : Nat) : Prop :=
  (∀ i j, i ≤ j → j < n → ts i ≤ ts j) ∧ ∀ i, i < n → ts i < 2 ^ 64

/-- `m` is the greatest number with property `P`, if there is one -/
def IsGreatest' (P : Nat → Prop) : Option Nat → Prop
  | some m => P m ∧ ∀ y, P y → y ≤ m
  | none => ∀ y, ¬ P y

end Katie.SearchSpec
