import Verif.Model.Structs

/-
Model of /repo/tree/transparency/managed/managed.go and of the database it uses, /repo/db/memory/memory.go:217-237
(the only implementation of `ManagedLogStore`).

The private key is a function; the manager's log is what the requests are submitted to, and is not modelled here.
-/

namespace Katie.Managed
open Katie Katie.Wire

/-- memory.go:217-219 `ManagedLogStore`: `Data` by label -/
abbrev Counters := List (Bytes × Int)

/-- memory.go:227-236 `IncrementGreatestVersion`: the result, and the store afterwards.  (The key of the map is the
hexadecimal form of the label.) -/
def increment (data : Counters) (label : Bytes) (count : Nat) : Int × Counters :=
  match data.lookup label with
  | none => (-1, (label, (count : Int)) :: data)
  | some ver => (ver, (label, ver + count) :: data.filter (fun e => e.1 ≠ label))

/-- `uint32(v)` of an `int` -/
def toU32 (v : Int) : Nat := (v % 2 ^ 32).toNat

/-- managed.go:84-104: sign the new values; `i` is the index of the first of them -/
def signAll (cfg : Config) (sign : Bytes → G Bytes) (label : Bytes) (prev : Int) : Nat → List Bytes → G (List UpdateValue)
  | _, [] => pure []
  | i, v :: vs => do
    let tbs ← updateTBS cfg label (toU32 (prev + 1 + i)) v
    let sig ← sign tbs
    let rest ← signAll cfg sign label prev (i + 1) vs
    pure (⟨v, some sig⟩ :: rest)

/-- managed.go:74-114 `Update`: the request submitted to the manager, and the store afterwards -/
def update (cfg : Config) (sign : Bytes → G Bytes) (data : Counters) (req : UpdateRequest) :
    G ManagerUpdateRequest × Counters :=
  let (prev, data) := increment data req.label req.values.length
  match signAll cfg sign req.label prev 0 req.values with
  | .error e => (.error e, data)
  | .ok values => (.ok ⟨req.last, req.label, req.greatestVersion, toU32 (prev + 1), values⟩, data)

/-- managed.go:30-45 `NewManagedLog`: whether it succeeds; `pub` is the public key of the private key -/
def newManagedLog (cfg : Config) (pub : Bytes) : G Unit :=
  if cfg.mode ≠ thirdPartyManagement then goErr "transparency log is not configured with third party manager"
  else match cfg.leafKey with
    | none => goErr "no leaf public key provided in configuration"
    | some k => if k ≠ pub then goErr "private key does not match leaf public key" else pure ()

end Katie.Managed
