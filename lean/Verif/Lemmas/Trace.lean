import Verif.Spec.Trace
import Verif.Lemmas.Distinguished

/- Lemmas about traces. -/

namespace Katie.Alg
open Katie Prog

variable {α β : Type}

theorem runs_ret {r r' : G α} {tr : List Ev} : Runs (.ret r) tr r' ↔ tr = [] ∧ r' = r := by
  constructor
  · intro h; cases h; exact ⟨rfl, rfl⟩
  · rintro ⟨rfl, rfl⟩; exact .ret _

theorem runs_pure {a : α} {r : G α} {tr : List Ev} : Runs (pure a) tr r ↔ tr = [] ∧ r = .ok a := runs_ret

theorem runs_lift {r r' : G α} {tr : List Ev} : Runs (lift r) tr r' ↔ tr = [] ∧ r' = r := runs_ret

theorem runs_fail {m : String} {r : G α} {tr : List Ev} : Runs (fail m) tr r ↔ tr = [] ∧ r = goErr m := runs_ret

theorem runs_fail_ok {m : String} {a : α} {tr : List Ev} : ¬ Runs (fail m) tr (.ok a) := by
  rw [runs_fail]; simp [goErr]

theorem runs_call {q : Req} {tr : List Ev} {r : G q.Resp} : Runs (call q) tr r ↔ tr = [⟨q, r⟩] := by
  constructor
  · intro h; cases h with | op a h => cases h; rfl
  · rintro rfl; exact .op _ (.ret _)

theorem runs_bind {p : Prog α} {f : α → Prog β} {tr : List Ev} {r : G β} : Runs (p >>= f) tr r ↔
    (∃ a tr1 tr2, tr = tr1 ++ tr2 ∧ Runs p tr1 (.ok a) ∧ Runs (f a) tr2 r) ∨
    (∃ e, Runs p tr (.error e) ∧ r = .error e) := by
  change Runs (p.bind f) tr r ↔ _
  constructor
  · intro h
    induction p generalizing tr with
    | ret x =>
      cases x with
      | ok a => exact Or.inl ⟨a, [], tr, rfl, .ret _, h⟩
      | error e =>
        unfold Prog.bind at h
        obtain ⟨rfl, rfl⟩ := runs_ret.1 h
        exact Or.inr ⟨e, .ret _, rfl⟩
    | op q k ih =>
      unfold Prog.bind at h
      cases h with
      | op a h =>
        rcases ih _ h with ⟨b, t1, t2, rfl, h1, h2⟩ | ⟨e, h1, h2⟩
        · exact Or.inl ⟨b, ⟨q, a⟩ :: t1, t2, rfl, .op a h1, h2⟩
        · exact Or.inr ⟨e, .op a h1, h2⟩
  · rintro (⟨a, t1, t2, rfl, h1, h2⟩ | ⟨e, h1, rfl⟩)
    · induction p generalizing t1 with
      | ret x => cases h1; exact h2
      | op q k ih => cases h1 with | op b h1 => exact .op b (ih _ _ h1)
    · induction p generalizing tr with
      | ret x => cases h1; exact .ret _
      | op q k ih => cases h1 with | op b h1 => exact .op b (ih _ h1)

theorem runs_bind_ok {p : Prog α} {f : α → Prog β} {tr : List Ev} {b : β} : Runs (p >>= f) tr (.ok b) ↔
    ∃ a tr1 tr2, tr = tr1 ++ tr2 ∧ Runs p tr1 (.ok a) ∧ Runs (f a) tr2 (.ok b) := by
  rw [runs_bind]
  simp

theorem runs_ite {c : Prop} [Decidable c] {p q : Prog α} {tr : List Ev} {r : G α} :
    Runs (if c then p else q) tr r ↔ (c ∧ Runs p tr r) ∨ (¬ c ∧ Runs q tr r) := by
  split <;> simp [*]

theorem runs_getTs {ts : Nat → Nat} {x a : Nat} {tr : List Ev} (ht : TsTrace tr ts) (h : Runs (getTs x) tr (.ok a)) :
    a = ts x := by
  have : tr = [⟨.ts x, .ok a⟩] := runs_call.1 h
  subst this
  exact ht x a (by simp)

theorem TsTrace.left {ts : Nat → Nat} {t1 t2 : List Ev} (h : TsTrace (t1 ++ t2) ts) : TsTrace t1 ts :=
  fun x a hx => h x a (List.mem_append_left _ hx)

theorem TsTrace.right {ts : Nat → Nat} {t1 t2 : List Ev} (h : TsTrace (t1 ++ t2) ts) : TsTrace t2 ts :=
  fun x a hx => h x a (List.mem_append_right _ hx)

/-- a run whose answers are those of `A` gives the result of `eval A` -/
theorem Runs.eval_eq {A : (q : Req) → G q.Resp} {p : Prog α} {tr : List Ev} {r : G α} (h : Runs p tr r)
    (ha : AgreesWith tr A) : eval A p = r := by
  induction h with
  | ret => rfl
  | @op q k a tr r h ih =>
    have h1 : a = A q := ha ⟨q, a⟩ (by simp)
    subst h1
    exact ih (fun e he => ha e (by simp [he]))

/-- and there is such a run -/
theorem runs_eval (A : (q : Req) → G q.Resp) (p : Prog α) : ∃ tr, Runs p tr (eval A p) ∧ AgreesWith tr A := by
  induction p with
  | ret r => exact ⟨[], .ret _, by simp [AgreesWith]⟩
  | op q k ih =>
    obtain ⟨tr, h1, h2⟩ := ih (A q)
    refine ⟨⟨q, A q⟩ :: tr, .op _ h1, ?_⟩
    intro e he
    rcases List.mem_cons.1 he with rfl | he
    · rfl
    · exact h2 e he

end Katie.Alg
