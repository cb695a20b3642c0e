import Verif.Lemmas.Trace

/- Programs that stop at the first error, i.e. in which every `if err != nil { return err }` is present. -/

namespace Katie.Alg
open Katie Prog

variable {α β : Type}

/-- the program ends with the error of the first request that fails -/
inductive NoCatch {α : Type} : Prog α → Prop
  | ret (r : G α) : NoCatch (.ret r)
  | op {q : Req} {k : G q.Resp → Prog α} : (∀ e, k (.error e) = .ret (.error e)) → (∀ a, NoCatch (k (.ok a))) →
      NoCatch (.op q k)

theorem NoCatch.pure' (a : α) : NoCatch (pure a : Prog α) := .ret _
theorem NoCatch.lift (r : G α) : NoCatch (Prog.lift r) := .ret _
theorem NoCatch.fail (m : String) : NoCatch (Prog.fail m : Prog α) := .ret _
theorem NoCatch.call (q : Req) : NoCatch (Prog.call q) := .op (fun _ => rfl) (fun _ => .ret _)

theorem NoCatch.bind {p : Prog α} {f : α → Prog β} (h : NoCatch p) (hf : ∀ a, NoCatch (f a)) : NoCatch (p >>= f) := by
  change NoCatch (p.bind f)
  induction h with
  | ret r =>
    cases r with
    | ok a => exact hf a
    | error e => exact .ret _
  | op h1 _ ih =>
    refine .op (fun e => ?_) (fun a => ih a)
    rw [h1]; rfl

theorem NoCatch.ite {c : Prop} [Decidable c] {p q : Prog α} (hp : NoCatch p) (hq : NoCatch q) :
    NoCatch (if c then p else q) := by split <;> assumption

/-- a run of such a program that succeeds has seen no error -/
theorem NoCatch.runs {p : Prog α} (h : NoCatch p) {tr : List Ev} {b : α} (hr : Runs p tr (.ok b)) :
    ∀ e ∈ tr, ∃ a, e.a = .ok a := by
  induction h generalizing tr with
  | ret r => cases hr; simp
  | op h1 _ ih =>
    cases hr with
    | @op _ _ a tr _ h =>
      cases a with
      | error e =>
        rw [h1] at h
        cases h
      | ok a =>
        intro e he
        rcases List.mem_cons.1 he with rfl | he
        · exact ⟨a, rfl⟩
        · exact ih a h e he

end Katie.Alg
