import Batteries.Lean.Except
/-
Common vocabulary of the model: byte strings and the three ways a Go function can fail to
return a value (an `error` result, a panic, or a loop that never ends).
-/

namespace Katie

/-- Go `[]byte` contents. -/
abbrev Bytes := List UInt8

/-- The ways a modelled Go call can end without a value.
* `err`: the function returned a non-nil `error`;
* `panic`: the goroutine panicked (explicit `panic`, nil dereference, index out of range);
* `diverge`: the loop did not finish within the fuel given to the model. Fuel is always chosen
  at least as large as the number of iterations of a terminating run (this is proved), so this
  value means that the Go loop never terminates. -/
inductive Fault where
  | err (msg : String)
  | panic (msg : String)
  | diverge
  deriving DecidableEq, Repr

/-- Outcome of a modelled Go call. -/
abbrev G (α : Type) := Except Fault α

/-- `return …, errors.New(msg)` -/
def goErr {α : Type} (msg : String) : G α := .error (.err msg)
/-- `panic(msg)` -/
def goPanic {α : Type} (msg : String) : G α := .error (.panic msg)

/-- `panics r` : the call crashes. -/
def Panics {α : Type} (r : G α) : Prop := ∃ m, r = .error (.panic m)
/-- the call returned an `error`. -/
def Errs {α : Type} (r : G α) : Prop := ∃ m, r = .error (.err m)

section
variable {α β : Type}
@[simp] theorem G.pure_eq (a : α) : (pure a : G α) = .ok a := rfl
@[simp] theorem G.ok_bind (a : α) (f : α → G β) : ((.ok a : G α) >>= f) = f a := rfl
@[simp] theorem G.error_bind (e : Fault) (f : α → G β) : ((.error e : G α) >>= f) = .error e := rfl
@[simp] theorem G.err_bind (m : String) (f : α → G β) : ((goErr m : G α) >>= f) = goErr m := rfl
@[simp] theorem G.panic_bind (m : String) (f : α → G β) : ((goPanic m : G α) >>= f) = goPanic m := rfl
@[simp] theorem G.goErr_ne_ok (m : String) (a : α) : (goErr m : G α) ≠ .ok a := by simp [goErr]
@[simp] theorem G.goPanic_ne_ok (m : String) (a : α) : (goPanic m : G α) ≠ .ok a := by simp [goPanic]

theorem G.bind_eq_ok {x : G α} {f : α → G β} {b : β} :
    (x >>= f) = .ok b ↔ ∃ a, x = .ok a ∧ f a = .ok b := by
  cases x <;> simp [bind, Except.bind]
end

end Katie
