import Verif.Spec.MonitorHeap
import Verif.Spec.Trace

/-
Two programs that make the same requests, whatever the answers, and whose results are related.
-/

namespace Katie.Heap
open Katie Katie.Alg

variable {α β γ δ : Type}

/-- same requests, related results; the left program has no errors of its own (an `Imp` puts them into its result) -/
inductive Sim (R : γ → G β → Prop) : Prog γ → Prog β → Prop
  | ret {c : γ} {b : G β} : R c b → Sim R (.ret (.ok c)) (.ret b)
  | op {q : Req} {k : G q.Resp → Prog γ} {k' : G q.Resp → Prog β} :
      (∀ a, Sim R (k a) (k' a)) → Sim R (.op q k) (.op q k')

theorem Sim.runs {R : γ → G β → Prop} {p : Prog γ} {q : Prog β} (h : Sim R p q) :
    ∀ {tr : List Ev} {out : G γ}, Runs p tr out → ∃ c b, out = .ok c ∧ Runs q tr b ∧ R c b := by
  induction h with
  | ret hr =>
    intro tr out h
    cases h
    exact ⟨_, _, rfl, .ret _, hr⟩
  | op _ ih =>
    intro tr out h
    cases h with
    | op a h' =>
      obtain ⟨c, b, h1, h2, h3⟩ := ih a h'
      exact ⟨c, b, h1, .op a h2, h3⟩

theorem Sim.runs_back {R : γ → G β → Prop} {p : Prog γ} {q : Prog β} (h : Sim R p q) :
    ∀ {tr : List Ev} {b : G β}, Runs q tr b → ∃ c, Runs p tr (.ok c) ∧ R c b := by
  induction h with
  | ret hr =>
    intro tr b h
    cases h
    exact ⟨_, .ret _, hr⟩
  | op _ ih =>
    intro tr b h
    cases h with
    | op a h' =>
      obtain ⟨c, h1, h2⟩ := ih a h'
      exact ⟨c, .op a h1, h2⟩

theorem Sim.mono {R S : γ → G β → Prop} {p : Prog γ} {q : Prog β} (h : Sim R p q) (hi : ∀ c b, R c b → S c b) :
    Sim S p q := by
  induction h with
  | ret hr => exact .ret (hi _ _ hr)
  | op _ ih => exact .op ih

theorem Sim.bind {R : γ → G β → Prop} {S : δ → G α → Prop} {p : Prog γ} {q : Prog β} {f : γ → Prog δ} {g : β → Prog α}
    (h : Sim R p q) (hok : ∀ c b, R c (.ok b) → Sim S (f c) (g b))
    (herr : ∀ c e, R c (.error e) → Sim S (f c) (.ret (.error e))) : Sim S (p.bind f) (q.bind g) := by
  induction h with
  | @ret c b hr =>
    cases b with
    | ok b => exact hok c b hr
    | error e => exact herr c e hr
  | op _ ih => exact .op ih

theorem run_sim (p : Prog α) (mem : Mem) : Sim (fun c b => c = (b, mem)) (Imp.run p mem) p := by
  induction p with
  | ret r => exact .ret rfl
  | op q k ih => exact .op ih

/-- a part that only reads -/
theorem Sim.run_bind {S : G δ × Mem → G β → Prop} {p : Prog α} {f : α → Imp δ} {g : α → Prog β} {mem : Mem}
    (hok : ∀ a, Sim S (f a mem) (g a)) (herr : ∀ e, S (.error e, mem) (.error e)) :
    Sim S ((Imp.run p >>= f) mem) (p >>= g) :=
  Sim.bind (run_sim p mem) (fun c b h => by subst h; exact hok b) (fun c e h => by subst h; exact .ret (herr e))

theorem read_bind (f : Mem → α) (k : α → Imp β) (mem : Mem) : (Imp.read f >>= k) mem = k (f mem) mem := rfl
theorem modify_bind (f : Mem → Mem) (k : Unit → Imp β) (mem : Mem) : (Imp.modify f >>= k) mem = k () (f mem) := rfl
theorem pure_bind' (a : α) (k : α → Imp β) (mem : Mem) : ((pure a : Imp α) >>= k) mem = k a mem := rfl
theorem stop_bind (e : Fault) (k : α → Imp β) (mem : Mem) : ((Imp.stop e : Imp α) >>= k) mem = .ret (.ok (.error e, mem)) := rfl
theorem stop_apply (e : Fault) (mem : Mem) : (Imp.stop e : Imp α) mem = .ret (.ok (.error e, mem)) := rfl
theorem fail_apply (s : String) (mem : Mem) : (Imp.fail s : Imp α) mem = .ret (.ok (goErr s, mem)) := rfl
theorem pure_apply (a : α) (mem : Mem) : (pure a : Imp α) mem = .ret (.ok (.ok a, mem)) := rfl
theorem read_apply (f : Mem → α) (mem : Mem) : Imp.read f mem = .ret (.ok (.ok (f mem), mem)) := rfl
theorem modify_apply (f : Mem → Mem) (mem : Mem) : Imp.modify f mem = .ret (.ok (.ok (), f mem)) := rfl
theorem bind_assoc' (p : Imp α) (f : α → Imp β) (g : β → Imp γ) (mem : Mem) :
    ((p >>= f) >>= g) mem = (p >>= fun a => f a >>= g) mem := by
  show ((p mem).bind (Imp.next f)).bind (Imp.next g) = (p mem).bind (Imp.next fun a => f a >>= g)
  induction p mem with
  | ret r =>
    cases r with
    | error e => rfl
    | ok c =>
      obtain ⟨r, m⟩ := c
      cases r <;> rfl
  | op q k ih => exact congrArg (Prog.op q) (funext ih)

/-! ### reading -/

theorem Mem.slice_set_owners (mem : Mem) (l : List OwnerObj) (s : Option Slice) :
    Mem.slice { mem with owners := l } s = mem.slice s := by cases s <;> rfl

theorem derefOwner_eq {mem : Mem} {c : Nat} {ob : OwnerObj} (hc : mem.mOwner = some c) (ho : mem.owners[c]? = some ob) :
    derefOwner mem = .ret (.ok (.ok ob, mem)) := by
  unfold derefOwner
  rw [read_bind, hc]
  simp [ho, pure_apply]

theorem derefOwner_bind {mem : Mem} {c : Nat} {ob : OwnerObj} (hc : mem.mOwner = some c) (ho : mem.owners[c]? = some ob)
    (k : OwnerObj → Imp β) : (derefOwner >>= k) mem = k ob mem := by
  show (derefOwner mem).bind (Imp.next k) = _
  rw [derefOwner_eq hc ho]
  rfl

theorem readOwner_bind {mem : Mem} {c : Nat} {ob : OwnerObj} (hc : mem.mOwner = some c) (ho : mem.owners[c]? = some ob)
    (k : Owner → Imp β) : (readOwner >>= k) mem = k (mem.ownerOf ob) mem := by
  unfold readOwner
  rw [bind_assoc', derefOwner_bind hc ho]
  rfl

theorem setOwner_bind {mem : Mem} {c : Nat} (hc : mem.mOwner = some c) (ob : OwnerObj) (k : Unit → Imp β) :
    (setOwner ob >>= k) mem = k () { mem with owners := mem.owners.set c ob } := by
  unfold setOwner
  rw [modify_bind, hc]

/-- the slice of an owner state lies in its array -/
def ObjOk (arrays : List (List Nat)) (ob : OwnerObj) : Prop := ∀ s, ob.upcoming = some s → SliceOk arrays s

theorem searchIdx_le (l : List Nat) (t : Nat) : ∀ fuel i j, i ≤ j → searchIdx l t fuel i j ≤ j := by
  intro fuel
  induction fuel with
  | zero => intro i j h; exact h
  | succ fuel ih =>
    intro i j h
    unfold searchIdx
    split
    · simp only []
      split
      · exact ih _ _ (by omega)
      · exact Nat.le_trans (ih _ _ (by omega)) (by omega)
    · exact h

theorem bsearch_le_length (l : List Nat) (t : Nat) : bsearch l t ≤ l.length := searchIdx_le l t _ _ _ (Nat.zero_le _)

theorem Mem.slice_length {mem : Mem} {s : Slice} (h : SliceOk mem.arrays s) : (mem.slice (some s)).length = s.len := by
  obtain ⟨h1, a, h2, h3⟩ := h
  simp only [Mem.slice, List.getD_eq_getElem?_getD, h2, Option.getD_some, List.length_take, List.length_drop]
  omega

theorem Mem.slice_from {mem : Mem} {s : Slice} (idx : Nat) :
    mem.slice (some (s.from idx)) = (mem.slice (some s)).drop idx := by
  simp only [Mem.slice, Slice.from, List.drop_take, List.drop_drop]

theorem SliceOk.from {arrays : List (List Nat)} {s : Slice} (h : SliceOk arrays s) {idx : Nat} (hi : idx ≤ s.len) :
    SliceOk arrays (s.from idx) := by
  obtain ⟨h1, a, h2, h3⟩ := h
  refine ⟨by simp only [Slice.from]; omega, a, h2, ?_⟩
  simp only [Slice.from]
  omega

/-- `SetStarting` on the object -/
def OwnerObj.setStarting (mem : Mem) (ob : OwnerObj) (x : Nat) : OwnerObj :=
  ⟨x, bsearch (mem.ownerOf ob).upcoming (x + 1) + ob.verAtStarting,
    ob.upcoming.map (fun s => s.from (bsearch (mem.ownerOf ob).upcoming (x + 1)))⟩

theorem setStarting_bind {mem : Mem} {c : Nat} {ob : OwnerObj} (hc : mem.mOwner = some c) (ho : mem.owners[c]? = some ob)
    (x : Nat) (k : Unit → Imp β) :
    (setStarting x >>= k) mem = k () { mem with owners := mem.owners.set c (ob.setStarting mem x) } := by
  unfold setStarting
  rw [bind_assoc', readOwner_bind hc ho, bind_assoc', derefOwner_bind hc ho]
  simp only []
  rw [setOwner_bind hc]
  rfl

theorem setStarting_ownerOf (mem : Mem) (ob : OwnerObj) (x : Nat) :
    mem.ownerOf (ob.setStarting mem x) = (mem.ownerOf ob).setStarting x := by
  unfold Mem.ownerOf OwnerObj.setStarting Owner.setStarting
  simp only [Owner.mk.injEq, true_and]
  cases h : ob.upcoming with
  | none => simp [Mem.slice, Mem.ownerOf, h]
  | some s =>
    simp only [Option.map_some, Mem.slice_from, Mem.ownerOf, h, and_self]

theorem setStarting_ok {mem : Mem} {ob : OwnerObj} (h : ObjOk mem.arrays ob) (x : Nat) :
    ObjOk mem.arrays (ob.setStarting mem x) := by
  intro s hs
  unfold OwnerObj.setStarting at hs
  simp only [] at hs
  cases ho : ob.upcoming with
  | none => simp [ho] at hs
  | some s0 =>
    rw [ho] at hs
    simp only [Option.map_some, Option.some.injEq] at hs
    subst hs
    refine (h s0 ho).from ?_
    have := bsearch_le_length (mem.ownerOf ob).upcoming (x + 1)
    rw [show (mem.ownerOf ob).upcoming = mem.slice (some s0) by simp [Mem.ownerOf, ho]] at this ⊢
    rwa [Mem.slice_length (h s0 ho)] at this

end Katie.Heap
