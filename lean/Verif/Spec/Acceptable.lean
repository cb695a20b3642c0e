import Verif.Spec.Server
import Verif.Spec.Distinguished

/-
Which changes a server has to make: the acceptance conditions of a call of `Mutate`, in terms of the history alone.
-/

namespace Katie.ServerSpec
open Katie Katie.Wire Katie.Server Katie.PrefixSpec Katie.AuditSpec Katie.SearchSpec

/-- What the operator has to provide: VRF outputs as long as a hash, a configuration that can be encoded, and a
signature of less than 64 KiB for every message. -/
structure Able (env : Env) : Prop where
  vrf : ∀ m, (env.prove m).1.length = env.cs.hashSize
  config : ∃ b, marshalConfig env.cfg = .ok b
  sign : ∀ tbs, ∃ sig, env.sign tbs = .ok sig ∧ sig.length < 2 ^ 16

/-- no two versions that exist after the changes have the same VRF output -/
def Apart (env : Env) (cs : List Change) : Prop :=
  ∀ l v l' v' o p p', v < (versionsOf l cs).length → v' < (versionsOf l' cs).length →
    computeVrf env l v = .ok (o, p) → computeVrf env l' v' = .ok (o, p') → l = l' ∧ v = v'

/-- a value that can be encoded -/
def Short (x : UpdateValue) : Prop := x.value.length < 2 ^ 32 ∧ ∀ s, x.signature = some s → s.length < 2 ^ 16

/-- The change adds something, or removes a label that has versions; the first change may also be empty. -/
def ChangesSomething (cs : List Change) (c : Change) : Prop :=
  cs = [] ∨ c.add ≠ [] ∨ ∃ l ∈ c.remove, versionsOf l cs ≠ []

/-- The change `c` is acceptable after the changes `cs`, for which the updates `us` were returned: it is not earlier
than the change before it; labels and values can be encoded; all versions of a label to be removed were added no later
than in some distinguished log entry (in the log that the change results in); and the VRF outputs do not collide. -/
structure Acceptable (env : Env) (cs : List Change) (us : List AuditorUpdate) (c : Change) : Prop where
  time : ∀ u, us.getLast? = some u → u.timestamp ≤ c.now
  values : ∀ p ∈ c.add, p.label.length ≤ 255 ∧ Short p.value
  settled : ∀ l ∈ c.remove, ∀ x ∈ versionsOf l cs, ∃ y, x.pos ≤ y ∧ y < cs.length ∧
    Distinguished (Wide env.cfg.rmw) (timeOf (logOf env.cs us ++ [⟨c.now, []⟩])) (cs.length + 1) y
  apart : Apart env (cs ++ [c])

end Katie.ServerSpec
