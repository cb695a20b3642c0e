import Verif.Model.Client

/-
C53: the configurations with which a client can be created.
-/

namespace Katie.Props
open Katie Katie.Wire Katie.Client

/-- the keys are exactly those that the mode needs: none for contact monitoring (1), the service operator's for
third-party management (2), the auditor's for third-party auditing (3) -/
def KeysFit (cfg : Config) : Prop :=
  (cfg.mode = 1 ∧ cfg.leafKey = none ∧ cfg.auditorKey = none) ∨
  (cfg.mode = 2 ∧ cfg.leafKey ≠ none ∧ cfg.auditorKey = none) ∨
  (cfg.mode = 3 ∧ cfg.leafKey = none ∧ cfg.auditorKey ≠ none)

/-- **C53.**  `NewClient` succeeds exactly for the configurations whose mode is known, whose keys are those that the
mode needs, and whose maximum lifetime, if any, is longer than the reasonable monitoring window; otherwise it returns
an error. -/
theorem C53_new_client (cfg : Config) :
    (newClient cfg = .ok () ↔ KeysFit cfg ∧ (cfg.maxLifetime = 0 ∨ cfg.rmw < cfg.maxLifetime)) ∧
    (newClient cfg ≠ .ok () → Errs (newClient cfg)) := by
  constructor
  · unfold newClient KeysFit contactMonitoring thirdPartyManagement thirdPartyAuditing
    cases cfg.leafKey <;> cases cfg.auditorKey <;>
      by_cases h1 : cfg.mode = 1 <;> by_cases h2 : cfg.mode = 2 <;> by_cases h3 : cfg.mode = 3 <;>
      by_cases hl : cfg.maxLifetime > 0 ∧ cfg.maxLifetime ≤ cfg.rmw <;>
      simp [h1, h2, h3, hl, goErr] <;> omega
  · have key : ∀ b : Bool, (if ¬ b then goErr "invalid configuration given" else pure () : G Unit) ≠ .ok () →
        Errs (if ¬ b then goErr "invalid configuration given" else pure () : G Unit) := by
      intro b
      cases b
      · intro _; exact ⟨_, rfl⟩
      · intro h; exact absurd rfl h
    exact key _

example : newClient { mode := 3, auditorKey := some [1], rmw := 10, maxLifetime := 20 } = .ok () := by decide
example : Errs (newClient { mode := 3, rmw := 10 }) := ⟨_, rfl⟩
example : Errs (newClient { mode := 1, rmw := 10, maxLifetime := 10 }) := ⟨_, rfl⟩

end Katie.Props
