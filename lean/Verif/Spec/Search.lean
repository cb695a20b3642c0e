import Verif.Spec.Distinguished
import Verif.Model.Config

/-
Vocabulary for the search theorems.  `g x` is the greatest version of the label in the prefix tree of log
entry `x`, -1 if there is none.
-/

namespace Katie.SearchSpec
open Katie

/-- versions are only ever added -/
def Grows (g : Nat → Int) (n : Nat) : Prop := ∀ i j, i ≤ j → j < n → g i ≤ g j

/-- entry `y` contains version `t` of the label -/
def Contains (g : Nat → Int) (t y : Nat) : Prop := (t : Int) ≤ g y

/-- entry `y` of the log with `n` entries has expired: the maximum lifetime has passed since -/
def Expired (cfg : Config) (ts : Nat → Nat) (n y : Nat) : Prop :=
  cfg.maxLifetime ≠ 0 ∧ ts y + cfg.maxLifetime ≤ ts (n - 1)

/-- `y` is on the right edge of the search tree -/
def OnFrontier (n y : Nat) : Prop := ∃ lo anc, IsNode n y lo n anc

/-- entry `y` is distinguished and has not expired -/
def Live (cfg : Config) (ts : Nat → Nat) (n y : Nat) : Prop :=
  Distinguished (Wide cfg.rmw) ts n y ∧ ¬ Expired cfg ts n y

/-- `p` is a terminal entry of a search for version `t`: it contains it, has not expired, and either `t` is its
greatest version or it is the first such entry. -/
def Terminal (cfg : Config) (ts : Nat → Nat) (g : Nat → Int) (n t p : Nat) : Prop :=
  p < n ∧ Contains g t p ∧ ¬ Expired cfg ts n p ∧
    (g p = t ∨ ∀ y, y < p → Contains g t y → Expired cfg ts n y)

end Katie.SearchSpec
