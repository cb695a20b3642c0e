import Verif.Lemmas.HeapMonitor

/-
`Update` on memory does what `monitorUpdate` of Model/Algorithms.lean does.
-/

namespace Katie.Heap
open Katie Katie.Alg Katie.SearchTree

theorem SameBut.refl (s : Option Slice) (l : List (List Nat)) : SameBut s l l :=
  fun _ arr h => ⟨arr, h, rfl, fun _ _ => rfl⟩

theorem SameBut.ok {s : Option Slice} {l l' : List (List Nat)} (h : SameBut s l l') {t : Slice} (ht : SliceOk l t) : SliceOk l' t := by
  obtain ⟨h1, a, h2, h3⟩ := ht
  obtain ⟨a', h4, h5, _⟩ := h _ _ h2
  exact ⟨h1, a', h4, by omega⟩

/-- a slice without cells in the spare capacity of `s` reads the same -/
theorem SameBut.slice {s : Option Slice} {mem mem' : Mem} (h : SameBut s mem.arrays mem'.arrays) {t : Slice} (ht : SliceOk mem.arrays t)
    (hd : ∀ j, t.off ≤ j → j < t.off + t.len → ¬ Spare s t.arr j) : mem'.slice (some t) = mem.slice (some t) := by
  obtain ⟨h1, a, h2, h3⟩ := ht
  obtain ⟨a', h4, h5, h6⟩ := h _ _ h2
  simp only [Mem.slice, List.getD_eq_getElem?_getD, h2, h4, Option.getD_some]
  apply List.ext_getElem?
  intro i
  rw [List.getElem?_take, List.getElem?_take]
  split
  · next hi =>
    rw [List.getElem?_drop, List.getElem?_drop]
    exact h6 _ (hd _ (by omega) (by omega))
  · rfl

theorem SameBut.trans {s s' : Option Slice} {l l1 l2 : List (List Nat)} (h : SameBut s l l1) (h' : SameBut s' l1 l2)
    (hs : ∀ i j, i < l.length → Spare s' i j → Spare s i j) : SameBut s l l2 := by
  intro i arr hi
  obtain ⟨a1, h1, h2, h3⟩ := h i arr hi
  obtain ⟨a2, h4, h5, h6⟩ := h' i a1 h1
  refine ⟨a2, h4, by omega, fun j hj => ?_⟩
  rw [h6 j (fun hsp => hj (hs i j (List.getElem?_eq_some_iff.1 hi).1 hsp)), h3 j hj]

theorem SameBut.length_le {s : Option Slice} {l l' : List (List Nat)} (h : SameBut s l l') : l.length ≤ l'.length := by
  rcases Nat.lt_or_ge l'.length l.length with hlt | hge
  · obtain ⟨a, h1, _⟩ := h l'.length _ (List.getElem?_eq_getElem hlt)
    rw [List.getElem?_eq_none (Nat.le_refl _)] at h1
    cases h1
  · exact hge

theorem SameBut.append (s : Option Slice) (l : List (List Nat)) (x : List Nat) : SameBut s l (l ++ [x]) := by
  intro i arr hi
  exact ⟨arr, prefix_get (List.prefix_append _ _) hi, rfl, fun _ _ => rfl⟩

theorem append_spec (grow : Nat → Nat) (mem : Mem) (s : Option Slice) (hs : ∀ t, s = some t → SliceOk mem.arrays t) (x : Nat) :
    ∃ (arrays' : List (List Nat)) (t : Slice),
      (∀ {β : Type} (k : Slice → Imp β), (append grow s x >>= k) mem = k t { mem with arrays := arrays' }) ∧
      SliceOk arrays' t ∧ Mem.slice { mem with arrays := arrays' } (some t) = mem.slice s ++ [x] ∧
      SameBut s mem.arrays arrays' ∧ ∀ i j, i < mem.arrays.length → Spare (some t) i j → Spare s i j := by
  cases s with
  | none =>
    refine ⟨mem.arrays ++ [[x] ++ List.replicate (grow 1) 0], ⟨mem.arrays.length, 0, 1, 1 + grow 1⟩, ?_, ?_, ?_, ?_, ?_⟩
    · intro β k
      unfold append
      rw [bind_assoc', read_bind, bind_assoc', read_bind]
      rfl
    · exact ⟨by simp only []; omega, _, List.getElem?_concat_length, by simp; omega⟩
    · simp [Mem.slice]
    · exact .append _ _ _
    · rintro i j hi ⟨t, ht, h1, -⟩
      cases ht
      simp only at h1
      omega
  | some s =>
    have hok := hs s rfl
    by_cases hl : s.len < s.cap
    · refine ⟨mem.arrays.modify s.arr (fun a => a.set (s.off + s.len) x), { s with len := s.len + 1 }, ?_, ?_, ?_, ?_, ?_⟩
      · intro β k
        unfold append
        rw [bind_assoc', read_bind, bind_assoc', read_bind]
        simp only [hl, if_true]
        rfl
      · obtain ⟨h1, a, h2, h3⟩ := hok
        refine ⟨by simp only []; omega, a.set (s.off + s.len) x, ?_, ?_⟩
        · simp only [List.getElem?_modify, h2]; simp
        · rw [List.length_set]; exact h3
      · obtain ⟨h1, a, h2, h3⟩ := hok
        simp only [Mem.slice, List.getD_eq_getElem?_getD, List.getElem?_modify, h2, Option.getD_some, if_true, Option.map_eq_map, Option.map_some]
        apply List.ext_getElem?
        intro i
        rw [List.getElem?_take]
        rcases Nat.lt_trichotomy i s.len with hi | hi | hi
        · rw [if_pos (by omega), List.getElem?_append_left (by simp only [List.length_take, List.length_drop]; omega),
            List.getElem?_take, if_pos hi, List.getElem?_drop, List.getElem?_drop, List.getElem?_set_ne (by omega)]
        · subst hi
          rw [if_pos (by omega), List.getElem?_append_right (by simp only [List.length_take, List.length_drop]; omega),
            List.getElem?_drop, List.getElem?_set_self (by omega)]
          simp only [List.length_take, List.length_drop]
          rw [show s.len - min s.len (a.length - s.off) = 0 by omega]
          rfl
        · rw [if_neg (by omega), List.getElem?_append_right (by simp only [List.length_take, List.length_drop]; omega)]
          simp only [List.length_take, List.length_drop]
          rw [List.getElem?_eq_none]
          simp only [List.length_singleton]; omega
      · intro i arr hi
        by_cases h1 : s.arr = i
        · subst h1
          refine ⟨arr.set (s.off + s.len) x, by simp only [List.getElem?_modify, hi]; simp, List.length_set, fun j hj => ?_⟩
          rw [List.getElem?_set_ne]
          intro hj'
          exact hj ⟨s, rfl, rfl, by omega, by omega⟩
        · exact ⟨arr, by simp only [List.getElem?_modify, hi]; simp [h1], rfl, fun _ _ => rfl⟩
      · rintro i j - ⟨t, ht, h1, h2, h3⟩
        cases ht
        simp only at h1 h2 h3
        exact ⟨s, rfl, h1, by omega, h3⟩
    · have hlen := Mem.slice_length hok
      refine ⟨mem.arrays ++ [mem.slice (some s) ++ [x] ++ List.replicate (grow ((mem.slice (some s)).length + 1)) 0],
        ⟨mem.arrays.length, 0, (mem.slice (some s)).length + 1, (mem.slice (some s)).length + 1 + grow ((mem.slice (some s)).length + 1)⟩,
        ?_, ?_, ?_, ?_, ?_⟩
      · intro β k
        unfold append
        rw [bind_assoc', read_bind, bind_assoc', read_bind]
        simp only [hl, if_false]
        rfl
      · exact ⟨by simp only []; omega, _, List.getElem?_concat_length, by simp; omega⟩
      · generalize mem.slice (some s) = l
        simp only [Mem.slice, List.getD_eq_getElem?_getD, List.getElem?_concat_length, Option.getD_some, List.drop_zero]
        rw [List.take_append_of_le_length (by simp), List.take_of_length_le (by simp)]
      · exact .append _ _ _
      · rintro i j hi ⟨t, ht, h1, -⟩
        cases ht
        simp only at h1
        omega

theorem appendVersions_spec (grow : Nat → Nat) (pos : Nat) : ∀ (n : Nat) (mem : Mem) (a : Nat) (ob : OwnerObj),
    mem.mOwner = some a → mem.owners[a]? = some ob → ObjOk mem.arrays ob →
    ∃ (arrays' : List (List Nat)) (s' : Option Slice),
      appendVersions grow pos n mem = .ret (.ok (.ok (), { mem with arrays := arrays', owners := mem.owners.set a { ob with upcoming := s' } })) ∧
      ObjOk arrays' { ob with upcoming := s' } ∧
      Mem.slice { mem with arrays := arrays' } s' = mem.slice ob.upcoming ++ List.replicate n pos ∧
      SameBut ob.upcoming mem.arrays arrays' := by
  intro n
  induction n with
  | zero =>
    intro mem a ob hc ho hok
    refine ⟨mem.arrays, ob.upcoming, ?_, hok, ?_, .refl _ _⟩
    · rw [show ({ ob with upcoming := ob.upcoming } : OwnerObj) = ob from rfl, set_self' ho]
      rfl
    · simp
  | succ n ih =>
    intro mem a ob hc ho hok
    obtain ⟨arr1, t, h1, h2, h3, h4, h5⟩ := append_spec grow mem ob.upcoming hok pos
    unfold appendVersions
    rw [derefOwner_bind hc ho, h1, setOwner_bind (mem := { mem with arrays := arr1 }) hc]
    have hok1 : ObjOk arr1 { ob with upcoming := some t } := fun s hs => by cases hs; exact h2
    obtain ⟨arr2, s', g1, g2, g3, g4⟩ := ih { mem with arrays := arr1, owners := mem.owners.set a { ob with upcoming := some t } } a
      { ob with upcoming := some t } hc (getElem?_set_self' ho _) hok1
    refine ⟨arr2, s', ?_, g2, ?_, h4.trans g4 h5⟩
    · rw [g1]
      simp only [List.set_set]
    · have e1 : Mem.slice { mem with arrays := arr2 } s' =
          Mem.slice { mem with arrays := arr2, owners := mem.owners.set a { ob with upcoming := some t } } s' := by
        cases s' <;> rfl
      have e2 : Mem.slice { mem with arrays := arr1, owners := mem.owners.set a { ob with upcoming := some t } } (some t) =
          Mem.slice { mem with arrays := arr1 } (some t) := rfl
      rw [e1, g3]
      simp only []
      rw [e2, h3, List.replicate_succ, List.append_assoc]
      rfl

/-- the memory after the contact state was written -/
theorem putContact_spec {mem : Mem} (h : mem.Wf) (pos ver : Nat) :
    ∃ (maps' : List PMap) (contacts' : List Nat) (c' : Nat),
      (∀ {β : Type} (k : Unit → Imp β), (putContact pos ver >>= k) mem =
        k () { mem with maps := maps', contacts := contacts', mContact := some c' }) ∧
      (Mem.contactAt { mem with maps := maps', contacts := contacts', mContact := some c' } c' =
        some (PMap.set ((mem.mContact.bind mem.contactAt).getD []) pos ver)) ∧
      c' < contacts'.length ∧ (∀ p ∈ contacts', p < maps'.length) ∧ mem.contacts <+: contacts' ∧
      (∀ c, mem.mContact = some c → c' = c) ∧
      ∀ p m, mem.mContact.bind (fun c => mem.contacts[c]?) ≠ some p → mem.maps[p]? = some m → maps'[p]? = some m := by
  cases hc : mem.mContact with
  | none =>
    refine ⟨mem.maps ++ [PMap.set [] pos ver], mem.contacts ++ [mem.maps.length], mem.contacts.length, ?_, ?_, ?_, ?_, ?_, ?_, ?_⟩
    · intro β k
      unfold putContact newMap
      rw [bind_assoc', read_bind, hc]
      simp only []
      rw [bind_assoc', bind_assoc', bind_assoc', read_bind, bind_assoc', modify_bind, pure_bind', modify_bind, bind_assoc', read_bind]
      simp only [Option.bind_some, List.getElem?_concat_length]
      unfold writeMap
      rw [modify_bind]
      have := modify_append_right mem.maps [([] : PMap)] 0 (fun m => m.set pos ver)
      simp only [Nat.add_zero] at this
      simp only [this]
      rfl
    · simp [Mem.contactAt]
    · simp
    · intro p hp
      rcases List.mem_append.1 hp with hp | hp
      · have := h.maps p hp
        simp only [List.length_append]; omega
      · rw [List.mem_singleton.1 hp]; simp
    · exact List.prefix_append _ _
    · exact nofun
    · intro p m _ hm
      exact prefix_get (List.prefix_append _ _) hm
  | some a =>
    have ha := h.contact a hc
    have h1 : mem.contacts[a]? = some mem.contacts[a] := List.getElem?_eq_getElem ha
    have hp := h.maps _ (List.getElem_mem ha)
    have h2 : mem.maps[mem.contacts[a]]? = some mem.maps[mem.contacts[a]] := List.getElem?_eq_getElem hp
    refine ⟨mem.maps.modify mem.contacts[a] (fun m => m.set pos ver), mem.contacts, a, ?_, ?_, ha, ?_, List.prefix_refl _, ?_, ?_⟩
    · intro β k
      unfold putContact
      rw [bind_assoc', read_bind, hc]
      simp only []
      rw [bind_assoc', pure_bind', bind_assoc', read_bind, hc]
      simp only [Option.bind_some, h1]
      unfold writeMap
      rw [modify_bind, ← hc]
    · simp [Mem.contactAt, h1, h2]
    · intro p hp
      rw [List.length_modify]
      exact h.maps p hp
    · intro c hc'
      exact Option.some.inj hc'
    · intro p m hne hm
      simp only [Option.bind_some, h1, ne_eq, Option.some.injEq] at hne
      simp only [List.getElem?_modify, hm]
      simp [hne]

theorem Mem.slice_congr {mem mem' : Mem} (h : mem'.arrays = mem.arrays) (s : Option Slice) : mem'.slice s = mem.slice s := by
  cases s <;> simp only [Mem.slice, h]

theorem update_sim (grow : Nat → Nat) (F : Fixed) {mem : Mem} (h : mem.Wf) (pos : Nat) (versions : Int) :
    Sim (fun out b => OpRel (fun _ => True) F mem (fun _ => ()) id out b ∧ (∀ m, b = .ok m → ∀ a, mem.mOwner = some a → Updated a mem out.2))
      (update grow F pos versions mem) (Alg.monitorUpdate (view F mem) pos versions) := by
  unfold update
  rw [read_bind]
  cases hc : mem.mOwner with
  | none =>
    have hv : (view F mem).owner = none := by unfold view; rw [hc]; rfl
    unfold Alg.monitorUpdate
    rw [hv]
    exact .ret ⟨.err h _, nofun⟩
  | some a =>
    have ha := h.owner a hc
    obtain ⟨ob, hob⟩ : ∃ ob, mem.owners[a]? = some ob := ⟨_, List.getElem?_eq_getElem ha⟩
    have hok : ObjOk mem.arrays ob := h.slices ob (List.mem_of_getElem? hob)
    unfold Alg.monitorUpdate
    rw [view_owner hc hob]
    simp only [Fixed.monitor, reduceCtorEq, if_false]
    rw [readOwner_bind hc hob]
    have hE : ∀ e, OpRel (fun _ => True) F mem (fun (_ : Monitor) => ()) id (.error e, mem) (.error e) := fun e => .err h e
    by_cases c1 : pos ≥ F.treeSize
    · simp only [c1, if_true]; exact .ret ⟨hE _, nofun⟩
    simp only [c1, if_false]
    by_cases c2 : pos ≤ (mem.ownerOf ob).lastUpdate
    · simp only [c2, if_true]; exact .ret ⟨hE _, nofun⟩
    simp only [c2, if_false]
    by_cases c3 : versions < 1
    · simp only [c3, if_true]; exact .ret ⟨hE _, nofun⟩
    simp only [c3, if_false]
    by_cases c4 : (mem.ownerOf ob).greatest + versions < 0 ∨ (mem.ownerOf ob).greatest + versions ≥ 2 ^ 32 - 1
    · simp only [c4, if_true]; exact .ret ⟨hE _, nofun⟩
    simp only [c4, if_false]
    refine Sim.run_bind (fun ladder => ?_) (fun e => ⟨hE e, nofun⟩)
    refine Sim.run_bind (p := verifyPreviousTree (F.monitor none none) (mem.ownerOf ob) pos) (fun _ => ?_) (fun e => ⟨hE e, nofun⟩)
    refine Sim.run_bind (p := nonDistinguishedAncestor (F.monitor none none) pos) (fun res => ?_) (fun e => ⟨hE e, nofun⟩)
    by_cases c5 : res = none
    · simp only [c5, if_true]
      refine Sim.run_bind (fun _ => ?_) (fun e => ⟨hE e, nofun⟩)
      obtain ⟨arr', s', g1, g2, g3, g4⟩ := appendVersions_spec grow pos versions.toNat mem a ob hc hob hok
      rw [g1]
      refine .ret ⟨⟨rfl, ⟨?_, h.contact, h.maps, ?_⟩, ?_, nofun, nofun⟩, ?_⟩
      · intro a' ha'
        simp only [List.length_set]
        exact h.owner a' ha'
      · intro o ho s hs
        rcases List.mem_or_eq_of_mem_set ho with ho | rfl
        · exact g4.ok (h.slices o ho s hs)
        · exact g2 s hs
      · intro m hm
        cases hm
        refine (view_owner (a := a) (ob := { ob with upcoming := s' }) ?_ ?_).trans ?_
        · exact hc
        · exact getElem?_set_self' hob _
        simp only [id, Fixed.monitor, Monitor.mk.injEq, true_and, Option.some.injEq]
        refine ⟨rfl, ?_⟩
        simp only [Mem.ownerOf, Owner.mk.injEq, true_and]
        rw [← g3]
        exact Mem.slice_congr rfl _
      · intro m hm a' ha'
        simp only [Option.some.injEq] at ha'
        subst ha'
        refine ⟨?_, ?_, fun p m _ hm => hm, List.prefix_refl _, fun c hc => hc, rfl⟩
        · intro o ho
          rw [hob] at ho
          cases ho
          exact g4
        · intro i o hi ho
          simp only []
          rw [List.getElem?_set_ne (fun h => hi h.symm)]
          exact ho
    · simp only [c5, if_false]
      refine Sim.run_bind (fun r => ?_) (fun e => ⟨hE e, nofun⟩)
      by_cases c6 : r = 0
      · simp only [c6, ne_eq, not_true_eq_false, if_false]
        refine Sim.run_bind (fun _ => ?_) (fun e => ⟨hE e, nofun⟩)
        obtain ⟨maps', contacts', c', p1, p2, p3, p4, p5, p6, p7⟩ := putContact_spec h pos ((mem.ownerOf ob).greatest + versions).toNat
        rw [p1]
        obtain ⟨arr', s', g1, g2, g3, g4⟩ := appendVersions_spec grow pos versions.toNat
          { mem with maps := maps', contacts := contacts', mContact := some c' } a ob hc hob hok
        rw [g1]
        refine .ret ⟨⟨rfl, ⟨?_, ?_, p4, ?_⟩, ?_, nofun, nofun⟩, ?_⟩
        · intro a' ha'
          simp only [List.length_set]
          exact h.owner a' ha'
        · intro c hc
          cases hc
          exact p3
        · intro o ho s hs
          rcases List.mem_or_eq_of_mem_set ho with ho | rfl
          · exact g4.ok (h.slices o ho s hs)
          · exact g2 s hs
        · intro m hm
          cases hm
          refine (view_owner (a := a) (ob := { ob with upcoming := s' }) ?_ ?_).trans ?_
          · exact hc
          · exact getElem?_set_self' hob _
          simp only [id, Fixed.monitor, Monitor.mk.injEq, true_and, Option.some.injEq]
          refine ⟨?_, ?_⟩
          · rw [Option.bind_some, ← p2]
            exact Mem.contactAt_congr rfl rfl _
          simp only [Mem.ownerOf, Owner.mk.injEq, true_and]
          rw [show mem.slice ob.upcoming = Mem.slice { mem with maps := maps', contacts := contacts', mContact := some c' } ob.upcoming
            from (Mem.slice_congr rfl _).symm, ← g3]
          exact Mem.slice_congr rfl _
        · intro m hm a' ha'
          simp only [Option.some.injEq] at ha'
          subst ha'
          refine ⟨?_, ?_, p7, p5, fun c hc => by rw [p6 c hc], rfl⟩
          · intro o ho
            rw [hob] at ho
            cases ho
            exact g4
          · intro i o hi ho
            simp only []
            rw [List.getElem?_set_ne (fun h => hi h.symm)]
            exact ho
      · simp only [c6, ne_eq, not_false_eq_true, if_true]
        exact .ret ⟨hE _, nofun⟩

end Katie.Heap
