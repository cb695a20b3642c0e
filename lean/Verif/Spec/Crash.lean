import Verif.Spec.Server

/-
Specification of a crash while a change is being committed, and of what the server does afterwards.

`Commit` makes two writes: a batch with everything but the tree head, and then the tree head (/repo/db/leveldb.go:50-76;
`Conn.crash` in Model/DB.lean).  By `C38_crash_states_partial` the database that is found after a crash is the old one,
the new one, or the new one with the old tree head.
-/

namespace Katie.ServerSpec
open Katie Katie.Wire Katie.Server

/-- the third state: everything was written but the tree head -/
def torn (before after : Store) : Store := { after with head := before.head }

/-- The server `t` has made the changes `cs`.  Its process ends between the two writes of the change `c`, which would have
made it `t₁`; it is started again as `t₂`. -/
structure Crashed (env : Env) (cs : List Change) (us : List AuditorUpdate) (t : Tree) (c : Change) (u : AuditorUpdate)
    (t₁ t₂ : Tree) : Prop where
  runs : Runs env cs us t
  change : mutate env c t = (.ok u, t₁)
  ok : ChangeOk env c
  range : InRange (cs ++ [c])
  something : cs = [] ∨ u.added ≠ [] ∨ u.removed ≠ []
  start : newTree env (torn t.db t₁.db) = .ok t₂

/-- `Continues env t₀ ds ws t`: starting as `t₀`, the server makes the changes `ds`, returning the updates `ws` for the
auditor, and is `t` afterwards.  It is restarted any number of times, always after a call of `Mutate` that failed. -/
inductive Continues (env : Env) (t₀ : Tree) : List Change → List AuditorUpdate → Tree → Prop
  | here : Continues env t₀ [] [] t₀
  | change {ds : List Change} {ws : List AuditorUpdate} {t t' : Tree} {d : Change} {w : AuditorUpdate} :
      Continues env t₀ ds ws t → mutate env d t = (.ok w, t') → ChangeOk env d → Continues env t₀ (ds ++ [d]) (ws ++ [w]) t'
  | restart {ds : List Change} {ws : List AuditorUpdate} {t t' : Tree} :
      Continues env t₀ ds ws t → newTree env t.db = .ok t' → Continues env t₀ ds ws t'
  | failed {ds : List Change} {ws : List AuditorUpdate} {t t₁ t' : Tree} {d : Change} {e : Fault} :
      Continues env t₀ ds ws t → mutate env d t = (.error e, t₁) → newTree env t₁.db = .ok t' → Continues env t₀ ds ws t'

end Katie.ServerSpec
