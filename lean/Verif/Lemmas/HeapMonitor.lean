import Verif.Lemmas.HeapSim
import Verif.Lemmas.Owner

/-
The operations on memory do what the operations of Model/Algorithms.lean do.
-/

namespace Katie.Heap
open Katie Katie.Alg Katie.SearchTree

/-! ### owner monitoring -/

/-- the walk only changes the owner state at `c` -/
def WalkRel (mem : Mem) (c : Nat) (out : G Unit × Mem) (b : G Owner) : Prop :=
  ∃ ob', ObjOk mem.arrays ob' ∧ out = (b.map (fun _ => ()), { mem with owners := mem.owners.set c ob' }) ∧
    ∀ o', b = .ok o' → mem.ownerOf ob' = o'

theorem getElem?_set_self' {l : List OwnerObj} {c : Nat} {ob : OwnerObj} (h : l[c]? = some ob) (ob' : OwnerObj) :
    (l.set c ob')[c]? = some ob' := by
  rw [List.getElem?_set_self]
  exact (List.getElem?_eq_some_iff.1 h).1

theorem set_self' {l : List OwnerObj} {c : Nat} {ob : OwnerObj} (h : l[c]? = some ob) : l.set c ob = l := by
  apply List.ext_getElem?
  intro i
  rw [List.getElem?_set]
  split
  · next h1 =>
    subst h1
    split
    · exact h.symm
    · next h2 => rw [List.getElem?_eq_none (by omega)]
  · rfl

theorem WalkRel.here {mem : Mem} {c : Nat} {ob : OwnerObj} (ho : mem.owners[c]? = some ob) (hok : ObjOk mem.arrays ob) :
    WalkRel mem c (.ok (), mem) (.ok (mem.ownerOf ob)) :=
  ⟨ob, hok, by rw [set_self' ho]; rfl, fun o' h => Except.ok.inj h⟩

theorem WalkRel.err {mem : Mem} {c : Nat} {ob : OwnerObj} (ho : mem.owners[c]? = some ob) (hok : ObjOk mem.arrays ob)
    (e : Fault) : WalkRel mem c (.error e, mem) (.error e) :=
  ⟨ob, hok, by rw [set_self' ho]; rfl, nofun⟩

/-- what follows from a memory in which the walk already changed the owner state -/
theorem WalkRel.trans {mem : Mem} {c : Nat} {ob : OwnerObj} {out : G Unit × Mem} {b : G Owner}
    (h : WalkRel { mem with owners := mem.owners.set c ob } c out b) : WalkRel mem c out b := by
  obtain ⟨ob', h1, h2, h3⟩ := h
  refine ⟨ob', h1, ?_, h3⟩
  rw [h2]
  simp only [List.set_set]

theorem ownerWalk_sim (cfg : Config) (n : Nat) {c : Nat} : ∀ (fuel x l r : Nat) (mem : Mem) (ob : OwnerObj),
    mem.mOwner = some c → mem.owners[c]? = some ob → ObjOk mem.arrays ob →
    Sim (WalkRel mem c) (ownerWalk cfg n fuel x l r mem) (Alg.ownerWalk cfg n fuel x l r (mem.ownerOf ob)) := by
  intro fuel
  induction fuel with
  | zero =>
    intro x l r mem ob hc ho hok
    exact .ret (.err ho hok _)
  | succ fuel ih =>
    intro x l r mem ob hc ho hok
    unfold ownerWalk Alg.ownerWalk
    by_cases h1 : cfg.isDistinguished l r
    · simp only [h1, not_true_eq_false, if_false]
      rw [readOwner_bind hc ho]
      by_cases h2 : x ≤ (mem.ownerOf ob).starting
      · simp only [h2, if_true]
        by_cases h3 : noRightChild x n = true
        · simp only [h3, if_true]
          exact .ret (.here ho hok)
        · simp only [h3, if_false]
          refine Sim.run_bind (fun ts => Sim.run_bind (fun c => ?_) (.err ho hok)) (.err ho hok)
          exact ih _ _ _ _ _ hc ho hok
      · simp only [h2, if_false]
        refine Sim.bind (R := WalkRel mem c) ?_ ?_ ?_
        · by_cases h3 : noLeftChild x = true
          · simp only [h3, if_true]
            exact .ret (.here ho hok)
          · simp only [h3, if_false]
            refine Sim.run_bind (fun ts => Sim.run_bind (fun c => ?_) (.err ho hok)) (.err ho hok)
            exact ih _ _ _ _ _ hc ho hok
        · rintro out o ⟨ob1, hok1, rfl, hv⟩
          have hv := hv o rfl
          subst hv
          have hc1 : ({ mem with owners := mem.owners.set c ob1 } : Mem).mOwner = some c := hc
          have ho1 : ({ mem with owners := mem.owners.set c ob1 } : Mem).owners[c]? = some ob1 := getElem?_set_self' ho _
          have hk1 : ObjOk ({ mem with owners := mem.owners.set c ob1 } : Mem).arrays ob1 := hok1
          have hov : ({ mem with owners := mem.owners.set c ob1 } : Mem).ownerOf ob1 = mem.ownerOf ob1 := by
            simp only [Mem.ownerOf, Mem.slice_set_owners]
          refine Sim.mono (R := WalkRel { mem with owners := mem.owners.set c ob1 } c) ?_ (fun _ _ h => h.trans)
          rw [← hov]
          generalize ({ mem with owners := mem.owners.set c ob1 } : Mem) = mem1 at *
          simp only [Except.map, Imp.next]
          rw [readOwner_bind hc1 ho1]
          refine Sim.run_bind (fun st => ?_) (.err ho1 hk1)
          cases st with
          | true => exact .ret (.here ho1 hk1)
          | false =>
            simp only [Bool.false_eq_true, if_false]
            refine Sim.run_bind (fun _ => ?_) (.err ho1 hk1)
            rw [setStarting_bind hc1 ho1]
            refine Sim.mono (R := WalkRel { mem1 with owners := mem1.owners.set c (ob1.setStarting mem1 x) } c) ?_
              (fun _ _ h => h.trans)
            have ho2 := getElem?_set_self' ho1 (ob1.setStarting mem1 x)
            have hk2 := setStarting_ok hk1 x
            have hov2 : (Mem.ownerOf { mem1 with owners := mem1.owners.set c (ob1.setStarting mem1 x) } (ob1.setStarting mem1 x)) =
                (mem1.ownerOf ob1).setStarting x := by
              rw [← setStarting_ownerOf]
              simp only [Mem.ownerOf, Mem.slice_set_owners]
            rw [← hov2]
            by_cases h3 : noRightChild x n = true
            · simp only [h3, if_true]
              exact .ret (.here ho2 hk2)
            · simp only [h3, if_false]
              refine Sim.run_bind (fun ts => Sim.run_bind (fun c => ?_) (.err ho2 hk2)) (.err ho2 hk2)
              exact ih _ _ _ _ _ hc1 ho2 hk2
        · rintro out e ⟨ob1, hok1, rfl, hv⟩
          exact .ret ⟨ob1, hok1, rfl, nofun⟩
    · simp only [h1, not_false_eq_true, if_true]
      exact .ret (.here ho hok)

/-! ### the memory after an allocation -/

theorem prefix_get {α : Type} {l l' : List α} (hp : l <+: l') {i : Nat} {a : α} (h : l[i]? = some a) : l'[i]? = some a := by
  obtain ⟨t, rfl⟩ := hp
  rw [List.getElem?_append_left (List.getElem?_eq_some_iff.1 h).1]
  exact h

theorem SliceOk.prefix {arrays arrays' : List (List Nat)} {s : Slice} (h : SliceOk arrays s) (hp : arrays <+: arrays') :
    SliceOk arrays' s := by
  obtain ⟨h1, a, h2, h3⟩ := h
  exact ⟨h1, a, prefix_get hp h2, h3⟩

theorem Mem.slice_prefix {mem mem' : Mem} (hp : mem.arrays <+: mem'.arrays) {s : Option Slice}
    (h : ∀ t, s = some t → SliceOk mem.arrays t) : mem'.slice s = mem.slice s := by
  cases s with
  | none => rfl
  | some s =>
    obtain ⟨_, a, h2, _⟩ := h s rfl
    simp only [Mem.slice, List.getD_eq_getElem?_getD, h2, prefix_get hp h2]

theorem Mem.ownerOf_prefix {mem mem' : Mem} (hp : mem.arrays <+: mem'.arrays) {ob : OwnerObj} (h : ObjOk mem.arrays ob) :
    mem'.ownerOf ob = mem.ownerOf ob := by
  unfold Mem.ownerOf
  rw [Mem.slice_prefix hp h]

theorem ObjOk.prefix {arrays arrays' : List (List Nat)} {ob : OwnerObj} (h : ObjOk arrays ob) (hp : arrays <+: arrays') :
    ObjOk arrays' ob := fun s hs => (h s hs).prefix hp

theorem cloneOwner_spec (grow : Nat → Nat) {mem : Mem} {ob : OwnerObj} (h : ObjOk mem.arrays ob) :
    ∃ (more : List (List Nat)) (ob1 : OwnerObj),
      (∀ {β : Type} (k : Nat → Imp β), (cloneOwner grow ob >>= k) mem =
        k mem.owners.length { mem with arrays := mem.arrays ++ more, owners := mem.owners ++ [ob1] }) ∧
      ObjOk (mem.arrays ++ more) ob1 ∧
      Mem.ownerOf { mem with arrays := mem.arrays ++ more, owners := mem.owners ++ [ob1] } ob1 = mem.ownerOf ob := by
  cases ho : ob.upcoming with
  | none =>
    refine ⟨[], ⟨ob.starting, ob.verAtStarting, none⟩, ?_, ?_, ?_⟩
    · intro β k
      unfold cloneOwner cloneSlice
      rw [bind_assoc', ho, bind_assoc', read_bind, bind_assoc', read_bind]
      simp only [List.append_nil]
      rfl
    · intro s hs
      cases hs
    · simp only [Mem.ownerOf, ho, Mem.slice]
  | some s =>
    have hs := h s ho
    by_cases hl : s.len = 0
    · refine ⟨[], ⟨ob.starting, ob.verAtStarting, some { s with len := 0, cap := 0 }⟩, ?_, ?_, ?_⟩
      · intro β k
        unfold cloneOwner cloneSlice
        rw [bind_assoc', ho, bind_assoc', read_bind, bind_assoc', read_bind]
        simp only [hl, if_true, List.append_nil]
        rfl
      · intro t ht
        cases ht
        obtain ⟨h1, a, h2, h3⟩ := hs
        exact ⟨Nat.le_refl _, a, by rw [List.append_nil]; exact h2, by simp only []; omega⟩
      · simp only [Mem.ownerOf, ho, Mem.slice, hl, List.take_zero]
    · refine ⟨[mem.slice (some s) ++ List.replicate (grow (mem.slice (some s)).length) 0],
        ⟨ob.starting, ob.verAtStarting, some ⟨mem.arrays.length, 0, (mem.slice (some s)).length,
          (mem.slice (some s)).length + grow (mem.slice (some s)).length⟩⟩, ?_, ?_, ?_⟩
      · intro β k
        unfold cloneOwner cloneSlice
        rw [bind_assoc', ho, bind_assoc', read_bind, bind_assoc', read_bind]
        simp only [hl, if_false]
        rfl
      · intro t ht
        cases ht
        exact ⟨Nat.le_add_right _ _, _, List.getElem?_concat_length, by simp⟩
      · simp only [Mem.ownerOf, ho]
        simp only [Mem.slice, List.getD_eq_getElem?_getD, List.getElem?_concat_length, Option.getD_some, List.drop_zero]
        rw [List.take_left]

theorem prog_bind_assoc {α β γ : Type} (p : Prog α) (f : α → Prog β) (g : β → Prog γ) :
    (p.bind f).bind g = p.bind (fun a => (f a).bind g) := by
  induction p with
  | ret r => cases r <;> rfl
  | op q k ih => exact congrArg (Prog.op q) (funext ih)

/-- how an operation on memory relates to the operation on states: the same result, the same new state; a failure leaves
everything in memory as it was, and (for the failures in `E`) also what the monitor points to -/
structure OpRel {α β : Type} (E : Fault → Prop) (F : Fixed) (mem : Mem) (f : β → α) (m : β → Monitor) (out : G α × Mem) (b : G β) : Prop where
  result : out.1 = b.map f
  wf : out.2.Wf
  state : ∀ a, b = .ok a → view F out.2 = m a
  failed : ∀ e, b = .error e → Kept mem { out.2 with mOwner := mem.mOwner }
  pointer : ∀ e, b = .error e → E e → out.2.mOwner = mem.mOwner

theorem Kept.refl (mem : Mem) : Kept mem mem :=
  ⟨List.prefix_refl _, List.prefix_refl _, List.prefix_refl _, List.prefix_refl _, rfl, rfl⟩

theorem OpRel.err {α β : Type} {E : Fault → Prop} {F : Fixed} {mem : Mem} {f : β → α} {m : β → Monitor} (h : mem.Wf) (e : Fault) :
    OpRel E F mem f m (.error e, mem) (.error e) :=
  ⟨rfl, h, nofun, fun _ _ => .refl mem, fun _ _ _ => rfl⟩

theorem view_owner {F : Fixed} {mem : Mem} {a : Nat} {ob : OwnerObj} (hc : mem.mOwner = some a) (ho : mem.owners[a]? = some ob) :
    view F mem = F.monitor (mem.mContact.bind mem.contactAt) (some (mem.ownerOf ob)) := by
  unfold view
  rw [hc]
  simp [Mem.ownerAt, ho]

theorem Mem.contactAt_congr {mem mem' : Mem} (h1 : mem'.contacts = mem.contacts) (h2 : mem'.maps = mem.maps) (a : Nat) :
    mem'.contactAt a = mem.contactAt a := by
  unfold Mem.contactAt
  rw [h1, h2]

theorem ownerMonitor_sim (grow : Nat → Nat) (F : Fixed) {mem : Mem} (h : mem.Wf) :
    Sim (fun out b => OpRel IsErr F mem (fun _ => ()) id out b ∧ (∀ m, b = .ok m → ∀ a, mem.mOwner = some a → KeptBut a mem out.2))
      (ownerMonitor grow F mem) (Alg.ownerMonitor (view F mem)) := by
  unfold ownerMonitor
  rw [read_bind]
  cases hc : mem.mOwner with
  | none =>
    have hv : (view F mem).owner = none := by unfold view; rw [hc]; rfl
    unfold Alg.ownerMonitor
    rw [hv]
    exact .ret ⟨.err h _, nofun⟩
  | some a =>
    have ha := h.owner a hc
    obtain ⟨ob, hob⟩ : ∃ ob, mem.owners[a]? = some ob := ⟨_, List.getElem?_eq_getElem ha⟩
    have hok : ObjOk mem.arrays ob := h.slices ob (List.mem_of_getElem? hob)
    obtain ⟨more, ob1, hcl, hok1, hv1⟩ := cloneOwner_spec grow hok
    unfold Alg.ownerMonitor
    rw [view_owner hc hob]
    simp only [Fixed.monitor]
    rw [derefOwner_bind hc hob, hcl, modify_bind]
    -- the memory when the walk starts
    obtain ⟨mem1, hmem1⟩ : ∃ mem1 : Mem, mem1 = { mem with arrays := mem.arrays ++ more, owners := mem.owners ++ [ob1], mOwner := some mem.owners.length } := ⟨_, rfl⟩
    rw [← hmem1]
    have hc1 : mem1.mOwner = some mem.owners.length := by rw [hmem1]
    have ho1 : mem1.owners[mem.owners.length]? = some ob1 := by rw [hmem1]; exact List.getElem?_concat_length
    have hk1 : ObjOk mem1.arrays ob1 := by rw [hmem1]; exact hok1
    have hv1' : mem1.ownerOf ob1 = mem.ownerOf ob := by rw [← hv1, hmem1]; cases h' : ob1.upcoming <;> simp [Mem.ownerOf, Mem.slice, h']
    rw [← hv1']
    have harr : mem.arrays <+: mem1.arrays := by rw [hmem1]; exact List.prefix_append _ _
    have hset : ∀ ob', (mem1.owners.set mem.owners.length ob') = mem.owners ++ [ob'] := by
      intro ob'; rw [hmem1]; simp
    show Sim _ (((ownerWalk F.cfg F.treeSize (F.treeSize + 1) (root F.treeSize) 0 F.rightmost mem1).bind _).bind _) _
    rw [prog_bind_assoc]
    have hslices : ∀ ob', ObjOk mem1.arrays ob' → ∀ o ∈ mem.owners ++ [ob'], ∀ s, o.upcoming = some s → SliceOk mem1.arrays s := by
      intro ob' hk' o ho s hs
      rcases List.mem_append.1 ho with ho | ho
      · exact (h.slices o ho s hs).prefix harr
      · rw [List.mem_singleton.1 ho] at hs; exact hk' s hs
    refine Sim.bind (ownerWalk_sim F.cfg F.treeSize _ _ _ _ mem1 ob1 hc1 ho1 hk1) ?_ ?_
    · rintro out o ⟨ob', hk', rfl, hv⟩
      have hv := hv o rfl
      simp only [Except.map, Prog.bind, Imp.next]
      rw [derefOwner_bind (mem := { mem1 with owners := mem1.owners.set mem.owners.length ob' }) hc1 (getElem?_set_self' ho1 _),
        modify_bind, modify_apply]
      refine .ret ⟨⟨rfl, ?_, ?_, nofun, nofun⟩, ?_⟩
      · refine ⟨?_, ?_, ?_, ?_⟩
        · intro a' ha'
          simp only [Option.some.injEq] at ha'
          subst ha'
          simp only [hset, List.length_set, List.length_append]; omega
        · rw [hmem1]; exact h.contact
        · rw [hmem1]; exact h.maps
        · intro o' ho' s hs
          simp only [hset] at ho'
          rcases List.mem_or_eq_of_mem_set ho' with ho' | rfl
          · exact hslices ob' hk' o' ho' s hs
          · exact hk' s hs
      · intro m hm
        cases hm
        rw [view_owner (a := a) (ob := ob') rfl]
        · rw [← hv]
          simp only [id, Fixed.monitor, hmem1]
          simp only [Monitor.mk.injEq, true_and, Option.some.injEq]
          refine ⟨rfl, ?_⟩
          cases h' : ob'.upcoming <;> simp [Mem.ownerOf, Mem.slice, h']
        · simp only [hset]
          rw [List.getElem?_set_self]
          simp only [List.length_append]; omega
      · intro m hm a' ha'
        simp only [Option.some.injEq] at ha'
        subst ha'
        refine ⟨harr, ?_, ?_, ?_, ?_, ?_⟩
        · intro i o' hi ho'
          simp only [hset]
          rw [List.getElem?_set_ne (fun h => hi h.symm), List.getElem?_append_left (List.getElem?_eq_some_iff.1 ho').1]
          exact ho'
        · rw [hmem1]; exact List.prefix_refl _
        · rw [hmem1]; exact List.prefix_refl _
        · rw [hmem1]
        · exact hc.symm
    · rintro out e ⟨ob', hk', rfl, hv⟩
      cases e with
      | err s =>
        refine .ret ⟨⟨rfl, ?_, nofun, ?_, fun _ _ _ => hc.symm⟩, nofun⟩
        · refine ⟨?_, ?_, ?_, ?_⟩
          · intro a' ha'
            simp only [Option.some.injEq] at ha'
            subst ha'
            simp only [hset, List.length_append]; omega
          · rw [hmem1]; exact h.contact
          · rw [hmem1]; exact h.maps
          · intro o' ho' s hs
            simp only [hset] at ho'
            exact hslices ob' hk' o' ho' s hs
        · intro e he
          refine ⟨harr, ?_, ?_, ?_, ?_, rfl⟩
          · simp only [hset]; exact List.prefix_append _ _
          · rw [hmem1]; exact List.prefix_refl _
          · rw [hmem1]; exact List.prefix_refl _
          · rw [hmem1]
      | _ =>
        refine .ret ⟨⟨rfl, ?_, nofun, ?_, fun e he hE => by cases he; obtain ⟨s, hs⟩ := hE; cases hs⟩, nofun⟩
        · refine ⟨?_, ?_, ?_, ?_⟩
          · intro a' ha'
            simp only [hc1, Option.some.injEq] at ha'
            subst ha'
            simp only [hset, List.length_append, List.length_singleton]; omega
          · rw [hmem1]; exact h.contact
          · rw [hmem1]; exact h.maps
          · intro o' ho' s hs
            simp only [hset] at ho'
            exact hslices ob' hk' o' ho' s hs
        · intro e he
          refine ⟨harr, ?_, ?_, ?_, ?_, rfl⟩
          · simp only [hset]; exact List.prefix_append _ _
          · rw [hmem1]; exact List.prefix_refl _
          · rw [hmem1]; exact List.prefix_refl _
          · rw [hmem1]

/-! ### initialization of an owner -/

theorem initWalk_fixed (F : Fixed) (c : Option PMap) (o : Option Owner) (starting : Nat) : ∀ (fuel x l r : Nat),
    initWalk (F.monitor c o) starting fuel x l r = initWalk (F.monitor none none) starting fuel x l r := by
  intro fuel
  induction fuel with
  | zero => intro x l r; rfl
  | succ fuel ih =>
    intro x l r
    unfold initWalk
    simp only [ih]
    rfl

theorem initEntries_fixed (F : Fixed) (c : Option PMap) (o : Option Owner) (starting : Nat) :
    initEntries (F.monitor c o) starting = initEntries (F.monitor none none) starting := initWalk_fixed F c o starting _ _ _ _

theorem ownerInit_sim (F : Fixed) {mem : Mem} (h : mem.Wf) (starting : Nat) (vers : List Nat) :
    Sim (fun out b => OpRel (fun _ => True) F mem (fun p => p.2) (fun p => p.1) out b ∧
        ∀ p, b = .ok p → Kept mem { out.2 with mOwner := mem.mOwner })
      (ownerInit F starting vers mem) (Alg.ownerInit (view F mem) starting vers) := by
  unfold ownerInit Alg.ownerInit
  rw [read_bind]
  cases hc : mem.mOwner with
  | some a =>
    have ha := h.owner a hc
    have hv : (view F mem).owner ≠ none := by
      rw [view_owner hc (List.getElem?_eq_getElem ha)]
      exact nofun
    simp only [hv, ne_eq, not_false_eq_true, if_true, reduceCtorEq]
    exact .ret ⟨.err h _, nofun⟩
  | none =>
    have hv : (view F mem).owner = none := by unfold view; rw [hc]; rfl
    simp only [hv, ne_eq, not_true_eq_false, if_false]
    unfold view
    rw [initEntries_fixed F (mem.mContact.bind mem.contactAt) (mem.mOwner.bind mem.ownerAt)]
    refine Sim.run_bind (fun xs => ?_) (fun e => ⟨.err h e, nofun⟩)
    by_cases h1 : vers.length > xs.length
    · simp only [h1, if_true]
      exact .ret ⟨.err h _, nofun⟩
    · simp only [h1, if_false]
      cases h2 : nonIncreasing vers with
      | false => exact .ret ⟨.err h _, nofun⟩
      | true =>
        simp only [not_true_eq_false, if_false]
        refine Sim.run_bind (fun _ => ?_) (fun e => ⟨.err h e, nofun⟩)
        rw [read_bind, modify_bind, modify_bind, pure_apply]
        have hk : ∀ ob : OwnerObj, Kept mem { mem with owners := mem.owners ++ [ob], mOwner := none } := fun ob =>
          ⟨List.prefix_refl _, List.prefix_append _ _, List.prefix_refl _, List.prefix_refl _, rfl, hc.symm⟩
        refine .ret ⟨⟨rfl, ⟨?_, h.contact, h.maps, ?_⟩, ?_, nofun, nofun⟩, fun p hp => ?_⟩
        · intro a ha
          cases ha
          simp
        · intro o ho s hs
          rcases List.mem_append.1 ho with ho | ho
          · exact h.slices o ho s hs
          · rw [List.mem_singleton.1 ho] at hs; cases hs
        · intro p hp
          cases hp
          rw [view_owner rfl List.getElem?_concat_length]
          cases vers <;> rfl
        · rw [hc]
          exact hk _

/-! ### contact monitoring -/

theorem distAncLoop_fixed (F : Fixed) (c : Option PMap) (o : Option Owner) (target : Nat) : ∀ (fuel x l r : Nat) (acc : Option Nat),
    distAncLoop (F.monitor c o) target fuel x l r acc = distAncLoop (F.monitor none none) target fuel x l r acc := by
  intro fuel
  induction fuel with
  | zero => intro x l r acc; rfl
  | succ fuel ih =>
    intro x l r acc
    unfold distAncLoop
    simp only [ih]
    rfl

theorem distinguishedAncestor_fixed (F : Fixed) (c : Option PMap) (o : Option Owner) (target : Nat) :
    distinguishedAncestor (F.monitor c o) target = distinguishedAncestor (F.monitor none none) target :=
  distAncLoop_fixed F c o target _ _ _ _ _

/-- the memory with the two local maps of `ContactMonitor` -/
def locals (mem : Mem) (prev ptrs : PMap) : Mem := { mem with maps := mem.maps ++ [prev, ptrs] }

theorem locals_prev_bind {β : Type} (mem : Mem) (prev ptrs : PMap) (k : PMap → Imp β) :
    (readMap mem.maps.length >>= k) (locals mem prev ptrs) = k prev (locals mem prev ptrs) := by
  unfold readMap
  rw [read_bind]
  simp [locals]

theorem locals_ptrs_bind {β : Type} (mem : Mem) (prev ptrs : PMap) (k : PMap → Imp β) :
    (readMap (mem.maps.length + 1) >>= k) (locals mem prev ptrs) = k ptrs (locals mem prev ptrs) := by
  unfold readMap
  rw [read_bind]
  simp [locals]

theorem modify_append_right {α : Type} (l r : List α) (i : Nat) (f : α → α) :
    (l ++ r).modify (l.length + i) f = l ++ r.modify i f := by
  induction l with
  | nil => simp
  | cons a l ih =>
    rw [List.cons_append, List.length_cons, show l.length + 1 + i = (l.length + i) + 1 by omega, List.modify_succ_cons, ih]
    rfl

theorem locals_write_prev {β : Type} (mem : Mem) (prev ptrs : PMap) (y v : Nat) (k : Unit → Imp β) :
    (writeMap mem.maps.length y v >>= k) (locals mem prev ptrs) = k () (locals mem (prev.set y v) ptrs) := by
  unfold writeMap
  rw [modify_bind]
  have := modify_append_right mem.maps [prev, ptrs] 0 (fun m => m.set y v)
  simp only [Nat.add_zero] at this
  simp only [locals, this]
  rfl

theorem locals_write_ptrs {β : Type} (mem : Mem) (prev ptrs : PMap) (y v : Nat) (k : Unit → Imp β) :
    (writeMap (mem.maps.length + 1) y v >>= k) (locals mem prev ptrs) = k () (locals mem prev (ptrs.set y v)) := by
  unfold writeMap
  rw [modify_bind]
  have := modify_append_right mem.maps [prev, ptrs] 1 (fun m => m.set y v)
  simp only [locals, this]
  rfl

theorem inspectAll_sim (mem : Mem) (ptrs : PMap) (ver : Nat) : ∀ (ys : List Nat) (prev : PMap),
    Sim (fun out b => ∃ prev', out = (b.map (fun p => p.1), locals mem prev' ptrs) ∧ ∀ p, b = .ok p → prev' = p.2)
      (inspectAll ver mem.maps.length ys (locals mem prev ptrs)) (Alg.inspectAll ver ys prev) := by
  intro ys
  induction ys with
  | nil => intro prev; exact .ret ⟨prev, rfl, fun p hp => by cases hp; rfl⟩
  | cons y ys ih =>
    intro prev
    unfold inspectAll Alg.inspectAll
    rw [locals_prev_bind]
    cases hl : prev.lookup y with
    | some pv =>
      simp only []
      by_cases h1 : pv ≤ ver
      · simp only [h1, if_true]
        exact .ret ⟨prev, rfl, nofun⟩
      · simp only [h1, if_false]
        exact .ret ⟨prev, rfl, fun p hp => by cases hp; rfl⟩
    | none =>
      simp only []
      refine Sim.run_bind (fun _ => ?_) (fun e => ⟨prev, rfl, nofun⟩)
      rw [locals_write_prev]
      exact ih _

theorem locals_owner (mem : Mem) (prev ptrs : PMap) :
    (locals mem prev ptrs).mOwner.bind (locals mem prev ptrs).ownerAt = mem.mOwner.bind mem.ownerAt := by
  cases h : mem.mOwner with
  | none => simp [locals, h]
  | some a =>
    simp only [locals, h, Option.bind_some, Mem.ownerAt]
    cases mem.owners[a]? with
    | none => rfl
    | some ob =>
      simp only [Option.map_some, Option.some.injEq, Mem.ownerOf]
      cases ob.upcoming <;> rfl

theorem contactMonitor1_sim (F : Fixed) (mem : Mem) (c : Option PMap) (ptrs : PMap) (x ver : Nat) (prev : PMap) :
    Sim (fun out b => ∃ prev', out = (b.map (fun p => p.1), locals mem prev' ptrs) ∧ ∀ p, b = .ok p → prev' = p.2)
      (contactMonitor1 F x ver mem.maps.length (locals mem prev ptrs))
      (Alg.contactMonitor1 (F.monitor c (mem.mOwner.bind mem.ownerAt)) x ver prev) := by
  unfold contactMonitor1 Alg.contactMonitor1
  rw [distinguishedAncestor_fixed F c (mem.mOwner.bind mem.ownerAt)]
  refine Sim.run_bind (fun stop => ?_) (fun e => ⟨prev, rfl, nofun⟩)
  by_cases h1 : stop = some x
  · simp only [h1, if_true]
    exact .ret ⟨prev, rfl, fun p hp => by cases hp; rfl⟩
  · simp only [h1, if_false]
    refine Sim.run_bind (fun path => ?_) (fun e => ⟨prev, rfl, nofun⟩)
    rw [read_bind, locals_owner]
    refine Sim.bind (inspectAll_sim mem ptrs ver _ prev) ?_ ?_
    · rintro out ⟨done, prev1⟩ ⟨prev', rfl, h2⟩
      have h2 := h2 _ rfl
      simp only at h2
      subst h2
      simp only [Except.map, Imp.next]
      cases done with
      | true => exact .ret ⟨prev', rfl, fun p hp => by cases hp; rfl⟩
      | false =>
        simp only [Bool.false_eq_true, if_false]
        by_cases h3 : stop = none
        · simp only [h3, ne_eq, not_true_eq_false, if_false]
          exact .ret ⟨prev', rfl, fun p hp => by cases hp; rfl⟩
        · simp only [h3, ne_eq, not_false_eq_true, if_true]
          exact .ret ⟨prev', rfl, fun p hp => by cases hp; rfl⟩
    · rintro out e ⟨prev', rfl, -⟩
      exact .ret ⟨prev', rfl, nofun⟩

theorem contactLoop_sim (F : Fixed) (mem : Mem) (c : Option PMap) : ∀ (l : PMap) (prev ptrs : PMap),
    Sim (fun out b => ∃ prev' ptrs', out = (b.map (fun _ => ()), locals mem prev' ptrs') ∧ ∀ p, b = .ok p → ptrs' = p)
      (contactLoop F mem.maps.length (mem.maps.length + 1) l (locals mem prev ptrs))
      (Alg.contactLoop (F.monitor c (mem.mOwner.bind mem.ownerAt)) l prev ptrs) := by
  intro l
  induction l with
  | nil => intro prev ptrs; exact .ret ⟨prev, ptrs, rfl, fun p hp => by cases hp; rfl⟩
  | cons e l ih =>
    intro prev ptrs
    obtain ⟨x, ver⟩ := e
    unfold contactLoop Alg.contactLoop
    refine Sim.bind (contactMonitor1_sim F mem c ptrs x ver prev) ?_ ?_
    · rintro out ⟨u, prev1⟩ ⟨prev', rfl, h2⟩
      have h2 := h2 _ rfl
      simp only at h2
      subst h2
      simp only [Except.map, Imp.next]
      cases u with
      | none => exact ih _ _
      | some y =>
        simp only []
        rw [locals_write_ptrs]
        exact ih _ _
    · rintro out e ⟨prev', rfl, -⟩
      exact .ret ⟨prev', ptrs, rfl, nofun⟩

theorem contactMonitor_sim (F : Fixed) {mem : Mem} (h : mem.Wf) :
    Sim (fun out b => OpRel (fun _ => True) F mem (fun _ => ()) id out b ∧
        ∀ m, b = .ok m → Kept mem { out.2 with mContact := mem.mContact })
      (contactMonitor F mem) (Alg.contactMonitor (view F mem)) := by
  unfold contactMonitor
  rw [read_bind]
  cases hc : mem.mContact with
  | none =>
    have hv : (view F mem).contact = none := by unfold view; rw [hc]; rfl
    unfold Alg.contactMonitor
    rw [hv]
    refine .ret ⟨⟨rfl, h, fun m hm => by cases hm; rfl, nofun, nofun⟩, fun m hm => ?_⟩
    exact ⟨List.prefix_refl _, List.prefix_refl _, List.prefix_refl _, List.prefix_refl _, hc.symm, rfl⟩
  | some a =>
    have ha := h.contact a hc
    have h1 : mem.contacts[a]? = some mem.contacts[a] := List.getElem?_eq_getElem ha
    have hp := h.maps _ (List.getElem_mem ha)
    obtain ⟨c, hcm⟩ : ∃ c, mem.contactAt a = some c := by
      refine ⟨mem.maps[mem.contacts[a]], ?_⟩
      unfold Mem.contactAt
      rw [h1]
      exact List.getElem?_eq_getElem hp
    have hv : (view F mem).contact = some c := by unfold view; rw [hc]; exact hcm
    unfold Alg.contactMonitor
    rw [hv]
    simp only []
    rw [read_bind, hcm]
    simp only []
    unfold newMap
    rw [bind_assoc', read_bind, bind_assoc', modify_bind, pure_bind', bind_assoc', read_bind, bind_assoc', modify_bind, pure_bind']
    have e1 : ({ mem with maps := mem.maps ++ [[]] ++ [[]] } : Mem) = locals mem [] [] := by simp [locals]
    have e2 : (mem.maps ++ [([] : PMap)]).length = mem.maps.length + 1 := by simp
    simp only [e2]
    rw [e1]
    have hwf : ∀ prev ptrs, (locals mem prev ptrs).Wf := fun prev ptrs =>
      ⟨h.owner, h.contact, fun p hp => by
        have := h.maps p hp
        simp only [locals, List.length_append]; omega, h.slices⟩
    unfold view
    refine Sim.bind (contactLoop_sim F mem _ (sortDesc c) [] []) ?_ ?_
    · rintro out p ⟨prev', ptrs', rfl, h2⟩
      have h2 := h2 _ rfl
      subst h2
      simp only [Except.map, Imp.next]
      rw [locals_ptrs_bind]
      by_cases h3 : ptrs' = []
      · simp only [h3, if_true]
        rw [modify_apply]
        refine .ret ⟨⟨rfl, ⟨(hwf prev' []).owner, nofun, (hwf prev' []).maps, (hwf prev' []).slices⟩, ?_, nofun, nofun⟩, fun m hm => ?_⟩
        · intro m hm
          cases hm
          have := locals_owner mem prev' []
          simp only [view, id, Fixed.monitor, Monitor.mk.injEq, true_and]
          exact ⟨rfl, this⟩
        · exact ⟨List.prefix_refl _, List.prefix_refl _, List.prefix_append _ _, List.prefix_refl _, hc.symm, rfl⟩
      · simp only [h3, if_false]
        rw [modify_apply]
        refine .ret ⟨⟨rfl, ⟨(hwf prev' ptrs').owner, ?_, ?_, (hwf prev' ptrs').slices⟩, ?_, nofun, nofun⟩, fun m hm => ?_⟩
        · intro a' ha'
          cases ha'
          simp [locals]
        · intro p hp
          rcases List.mem_append.1 hp with hp | hp
          · exact (hwf prev' ptrs').maps p hp
          · rw [List.mem_singleton.1 hp]; simp [locals]
        · intro m hm
          cases hm
          have := locals_owner mem prev' ptrs'
          simp only [view, id, Fixed.monitor, Monitor.mk.injEq, true_and]
          refine ⟨?_, this⟩
          simp [Mem.contactAt, locals]
        · exact ⟨List.prefix_refl _, List.prefix_refl _, List.prefix_append _ _, List.prefix_append _ _, hc.symm, rfl⟩
    · rintro out e ⟨prev', ptrs', rfl, -⟩
      exact .ret ⟨⟨rfl, hwf _ _, nofun, fun _ _ => ⟨List.prefix_refl _, List.prefix_refl _, List.prefix_append _ _,
        List.prefix_refl _, rfl, rfl⟩, fun _ _ _ => rfl⟩, nofun⟩

end Katie.Heap
