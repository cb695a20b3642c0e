import Verif.Model.Basic

/-
A Go function that changes something and may fail: what it returns together with the state it leaves behind.  The
state is there also after an error, because Go does not undo what was done before it.
-/

namespace Katie

/-- A call that may change a state of type `σ`. -/
def St (σ α : Type) := σ → G α × σ

namespace St
variable {σ α β : Type}

instance : Monad (St σ) where
  pure a := fun s => (.ok a, s)
  bind x f := fun s =>
    match x s with
    | (.ok a, s) => f a s
    | (.error e, s) => (.error e, s)

/-- a call that changes nothing -/
def lift (g : G α) : St σ α := fun s => (g, s)

/-- a call that changes nothing and reads the state -/
def read (f : σ → G α) : St σ α := fun s => (f s, s)

/-- a call that cannot fail -/
def modify (f : σ → σ) : St σ Unit := fun s => (.ok (), f s)

/-- a loop over a list that collects what the calls return -/
def forEach (f : α → St σ β) : List α → St σ (List β)
  | [] => pure []
  | a :: as => do
    let b ← f a
    let bs ← forEach f as
    pure (b :: bs)

@[simp] theorem pure_run (a : α) (s : σ) : (pure a : St σ α) s = (.ok a, s) := rfl
@[simp] theorem lift_run (g : G α) (s : σ) : (lift g : St σ α) s = (g, s) := rfl
@[simp] theorem read_run (f : σ → G α) (s : σ) : (read f) s = (f s, s) := rfl
@[simp] theorem modify_run (f : σ → σ) (s : σ) : (modify f) s = (.ok (), f s) := rfl

theorem bind_run (x : St σ α) (f : α → St σ β) (s : σ) :
    (x >>= f) s = match x s with
      | (.ok a, s) => f a s
      | (.error e, s) => (.error e, s) := rfl

theorem bind_ok {x : St σ α} {f : α → St σ β} {s s' : σ} {b : β} :
    (x >>= f) s = (.ok b, s') ↔ ∃ a s1, x s = (.ok a, s1) ∧ f a s1 = (.ok b, s') := by
  rw [bind_run]
  rcases h : x s with ⟨r, s1⟩
  cases r with
  | error e => simp
  | ok a =>
    constructor
    · intro h; exact ⟨a, s1, rfl, h⟩
    · rintro ⟨a', s1', h1, h2⟩
      obtain ⟨h3, rfl⟩ := Prod.mk.inj h1
      obtain rfl := Except.ok.inj h3
      exact h2

theorem bind_of_ok {x : St σ α} {f : α → St σ β} {s s1 : σ} {a : α} (h : x s = (.ok a, s1)) :
    (x >>= f) s = f a s1 := by rw [bind_run, h]

theorem bind_of_error {x : St σ α} {f : α → St σ β} {s s1 : σ} {e : Fault} (h : x s = (.error e, s1)) :
    (x >>= f) s = (.error e, s1) := by rw [bind_run, h]

theorem lift_bind_ok {g : G α} {f : α → St σ β} {s s' : σ} {b : β} :
    (lift g >>= f) s = (.ok b, s') ↔ ∃ a, g = .ok a ∧ f a s = (.ok b, s') := by
  rw [bind_run, lift_run]
  cases g with
  | error e => simp
  | ok a => simp

theorem read_bind_ok {g : σ → G α} {f : α → St σ β} {s s' : σ} {b : β} :
    (read g >>= f) s = (.ok b, s') ↔ ∃ a, g s = .ok a ∧ f a s = (.ok b, s') := by
  rw [bind_run, read_run]
  cases g s with
  | error e => simp
  | ok a => simp

theorem modify_bind {g : σ → σ} {f : Unit → St σ β} {s : σ} : (modify g >>= f) s = f () (g s) := rfl

theorem pure_ok {a b : α} {s s' : σ} : (pure a : St σ α) s = (.ok b, s') ↔ a = b ∧ s = s' := by
  rw [pure_run]
  constructor
  · intro h
    obtain ⟨h1, h2⟩ := Prod.mk.inj h
    exact ⟨Except.ok.inj h1, h2⟩
  · rintro ⟨rfl, rfl⟩; rfl

end St
end Katie
