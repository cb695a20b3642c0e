import Verif.Model.Basic

/-
Model of /repo/tree/transparency/structs/config.go (the `Marshal` method is in Model/Structs.lean).

Public keys are modelled by their byte encodings.
-/

namespace Katie

/-- `a - b` on `uint64` -/
def sub64 (a b : Nat) : Nat := (a + 2 ^ 64 - b) % 2 ^ 64

/-- config.go:10-16 `DeploymentMode` (a byte; only 1, 2, 3 are named) -/
abbrev Mode := Nat
/-- config.go:13 -/
def contactMonitoring : Mode := 1
/-- config.go:14 -/
def thirdPartyManagement : Mode := 2
/-- config.go:15 -/
def thirdPartyAuditing : Mode := 3

/-- config.go:18-34 `Config` together with config.go:67-71 `PublicConfig` (`Suite` by its id) -/
structure Config where
  suite : Nat := 1
  mode : Mode := 1
  sigKey : Bytes := []
  vrfKey : Bytes := []
  leafKey : Option Bytes := none
  maxAuditorLag : Nat := 0
  auditorStartPos : Nat := 0
  auditorKey : Option Bytes := none
  maxAhead : Nat := 0
  maxBehind : Nat := 0
  rmw : Nat := 0
  maxLifetime : Nat := 0
  deriving DecidableEq, Repr

/-- config.go:36-41 `IsExpired` -/
def Config.isExpired (c : Config) (ts rightmost : Nat) : Bool :=
  if c.maxLifetime = 0 then false else decide (sub64 rightmost ts ≥ c.maxLifetime)

/-- config.go:43-45 `IsDistinguished` -/
def Config.isDistinguished (c : Config) (left right : Nat) : Bool := decide (sub64 right left ≥ c.rmw)

end Katie
