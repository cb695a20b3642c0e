import Verif.Lemmas.HeapUpdate
import Verif.Spec.HonestLog
import Verif.Props.C30_OwnerMonitor

/-
C83, and the clauses of C29 and C30 about failed runs: what the operations of a monitor do to memory.
-/

namespace Katie.Props
open Katie Katie.Alg Katie.Heap

/-- Memory that is kept reads the same: the monitor, every owner state and every contact state. -/
theorem C83_kept_reads {mem mem' : Mem} (h : mem.Wf) (hk : Kept mem mem') (F : Fixed) :
    view F mem' = view F mem ∧ (∀ a < mem.owners.length, mem'.ownerAt a = mem.ownerAt a) ∧
    ∀ a < mem.contacts.length, mem'.contactAt a = mem.contactAt a := by
  have ho : ∀ a < mem.owners.length, mem'.ownerAt a = mem.ownerAt a := by
    intro a ha
    have h1 : mem.owners[a]? = some mem.owners[a] := List.getElem?_eq_getElem ha
    unfold Mem.ownerAt
    rw [h1, prefix_get hk.owners h1]
    simp only [Option.map_some, Option.some.injEq]
    exact Mem.ownerOf_prefix hk.arrays (h.slices _ (List.getElem_mem ha))
  have hc : ∀ a < mem.contacts.length, mem'.contactAt a = mem.contactAt a := by
    intro a ha
    have h1 : mem.contacts[a]? = some mem.contacts[a] := List.getElem?_eq_getElem ha
    have h2 := List.getElem?_eq_getElem (h.maps _ (List.getElem_mem ha))
    unfold Mem.contactAt
    rw [h1, prefix_get hk.contacts h1]
    simp only [Option.bind_some]
    rw [h2, prefix_get hk.maps h2]
  refine ⟨?_, ho, hc⟩
  unfold view
  rw [hk.mContact, hk.mOwner]
  congr 1
  · cases h1 : mem.mContact with
    | none => rfl
    | some a => exact hc a (h.contact a h1)
  · cases h1 : mem.mOwner with
    | none => rfl
    | some a => exact ho a (h.owner a h1)

/-! ### failed runs -/

theorem result_error {α β : Type} {E : Fault → Prop} {F : Fixed} {mem mem' : Mem} {f : β → α} {m : β → Monitor} {e : Fault} {b : G β}
    (h : OpRel E F mem f m (.error e, mem') b) : b = .error e := by
  cases b with
  | ok b => exact absurd h.result nofun
  | error e' => cases h.result; rfl

theorem kept_of_failed {α β : Type} {E : Fault → Prop} {F : Fixed} {mem mem' : Mem} {f : β → α} {m : β → Monitor} {e : Fault} {b : G β}
    (h : OpRel E F mem f m (.error e, mem') b) (he : E e) : Kept mem mem' := by
  have hb := result_error h
  have hk := h.failed e hb
  have hm : mem'.mOwner = mem.mOwner := h.pointer e hb he
  rw [← hm] at hk
  exact hk

/-- A failed contact-monitoring run leaves everything in memory as it was, and the monitor with the states it had. -/
theorem C29_failed_run_unchanged {F : Fixed} {mem mem' : Mem} (h : mem.Wf) {tr : List Ev} {e : Fault}
    (hr : Alg.Runs (Heap.contactMonitor F mem) tr (.ok (.error e, mem'))) : Kept mem mem' ∧ view F mem' = view F mem := by
  obtain ⟨c, b, h1, -, h2, -⟩ := (contactMonitor_sim F h).runs hr
  cases h1
  have hk := kept_of_failed h2 trivial
  exact ⟨hk, (C83_kept_reads h hk F).1⟩

/-- A failed owner-monitoring run leaves everything in memory as it was, and the monitor with the states it had. -/
theorem C30_failed_run_unchanged {grow : Nat → Nat} {F : Fixed} {mem mem' : Mem} (h : mem.Wf) {tr : List Ev} {msg : String}
    (hr : Alg.Runs (Heap.ownerMonitor grow F mem) tr (.ok (goErr msg, mem'))) : Kept mem mem' ∧ view F mem' = view F mem := by
  obtain ⟨c, b, h1, -, h2, -⟩ := (ownerMonitor_sim grow F h).runs hr
  cases h1
  have hk := kept_of_failed h2 ⟨msg, rfl⟩
  exact ⟨hk, (C83_kept_reads h hk F).1⟩

/-- A failed initialization of the owner leaves everything in memory as it was. -/
theorem C83_failed_init {F : Fixed} {mem mem' : Mem} (h : mem.Wf) {starting : Nat} {vers : List Nat} {tr : List Ev} {e : Fault}
    (hr : Alg.Runs (Heap.ownerInit F starting vers mem) tr (.ok (.error e, mem'))) : Kept mem mem' ∧ view F mem' = view F mem := by
  obtain ⟨c, b, h1, -, h2, -⟩ := (ownerInit_sim F h starting vers).runs hr
  cases h1
  have hk := kept_of_failed h2 trivial
  exact ⟨hk, (C83_kept_reads h hk F).1⟩

/-- A failed update leaves everything in memory as it was. -/
theorem C83_failed_update {grow : Nat → Nat} {F : Fixed} {mem mem' : Mem} (h : mem.Wf) {pos : Nat} {versions : Int} {tr : List Ev} {e : Fault}
    (hr : Alg.Runs (Heap.update grow F pos versions mem) tr (.ok (.error e, mem'))) : Kept mem mem' ∧ view F mem' = view F mem := by
  obtain ⟨c, b, h1, -, h2, -⟩ := (update_sim grow F h pos versions).runs hr
  cases h1
  have hk := kept_of_failed h2 trivial
  exact ⟨hk, (C83_kept_reads h hk F).1⟩

/-! ### successful runs -/

theorem result_ok {α β : Type} {E : Fault → Prop} {F : Fixed} {mem mem' : Mem} {f : β → α} {m : β → Monitor} {a : α} {b : G β}
    (h : OpRel E F mem f m (.ok a, mem') b) : ∃ b', b = .ok b' ∧ a = f b' ∧ view F mem' = m b' := by
  cases b with
  | ok b => exact ⟨b, rfl, Except.ok.inj h.result, h.state b rfl⟩
  | error e => exact absurd h.result nofun

/-- Contact monitoring on memory computes the states that C29 is about, from the same requests.  Apart from what the monitor
points to, memory is only allocated: the old contact state is still what it was. -/
theorem C83_contact_monitor {F : Fixed} {mem mem' : Mem} (h : mem.Wf) {tr : List Ev}
    (hr : Alg.Runs (Heap.contactMonitor F mem) tr (.ok (.ok (), mem'))) :
    mem'.Wf ∧ Alg.Runs (Alg.contactMonitor (view F mem)) tr (.ok (view F mem')) ∧ Kept mem { mem' with mContact := mem.mContact } := by
  obtain ⟨c, b, h1, h2, h3, h4⟩ := (contactMonitor_sim F h).runs hr
  cases h1
  obtain ⟨m, rfl, -, hm⟩ := result_ok h3
  rw [hm]
  exact ⟨h3.wf, h2, h4 m rfl⟩

/-- Owner monitoring on memory computes the state that C30 is about, from the same requests.  It changes the owner state that
the monitor points to, and nothing else. -/
theorem C83_owner_monitor {grow : Nat → Nat} {F : Fixed} {mem mem' : Mem} (h : mem.Wf) {tr : List Ev}
    (hr : Alg.Runs (Heap.ownerMonitor grow F mem) tr (.ok (.ok (), mem'))) :
    mem'.Wf ∧ Alg.Runs (Alg.ownerMonitor (view F mem)) tr (.ok (view F mem')) ∧ ∃ a, mem.mOwner = some a ∧ KeptBut a mem mem' := by
  obtain ⟨c, b, h1, h2, h3, h4⟩ := (ownerMonitor_sim grow F h).runs hr
  cases h1
  obtain ⟨m, rfl, -, hm⟩ := result_ok h3
  rw [hm]
  refine ⟨h3.wf, h2, ?_⟩
  cases ha : mem.mOwner with
  | some a => exact ⟨a, rfl, h4 m rfl a ha⟩
  | none =>
    exfalso
    have hv : (view F mem).owner = none := by unfold view; rw [ha]; rfl
    unfold Alg.ownerMonitor at h2
    rw [hv] at h2
    cases h2

/-- The initialization of an owner on memory computes the state that C30 is about; memory is only allocated. -/
theorem C83_owner_init {F : Fixed} {mem mem' : Mem} (h : mem.Wf) {starting : Nat} {vers xs : List Nat} {tr : List Ev}
    (hr : Alg.Runs (Heap.ownerInit F starting vers mem) tr (.ok (.ok xs, mem'))) :
    mem'.Wf ∧ Alg.Runs (Alg.ownerInit (view F mem) starting vers) tr (.ok (view F mem', xs)) ∧
    Kept mem { mem' with mOwner := mem.mOwner } := by
  obtain ⟨c, b, h1, h2, h3, h4⟩ := (ownerInit_sim F h starting vers).runs hr
  cases h1
  obtain ⟨⟨m, ys⟩, rfl, hx, hm⟩ := result_ok h3
  simp only at hx hm
  rw [hm, hx]
  exact ⟨h3.wf, h2, h4 _ rfl⟩

/-- An update on memory computes the state that C56 is about.  It changes the owner state that the monitor points to, the cells
behind that state's upcoming versions, and the map of the monitor's contact state, and nothing else. -/
theorem C83_update {grow : Nat → Nat} {F : Fixed} {mem mem' : Mem} (h : mem.Wf) {pos : Nat} {versions : Int} {tr : List Ev}
    (hr : Alg.Runs (Heap.update grow F pos versions mem) tr (.ok (.ok (), mem'))) :
    mem'.Wf ∧ Alg.Runs (Alg.monitorUpdate (view F mem) pos versions) tr (.ok (view F mem')) ∧
    ∃ a, mem.mOwner = some a ∧ Updated a mem mem' := by
  obtain ⟨c, b, h1, h2, h3, h4⟩ := (update_sim grow F h pos versions).runs hr
  cases h1
  obtain ⟨m, rfl, -, hm⟩ := result_ok h3
  rw [hm]
  refine ⟨h3.wf, h2, ?_⟩
  cases ha : mem.mOwner with
  | some a => exact ⟨a, rfl, h4 m rfl a ha⟩
  | none =>
    exfalso
    have hv : (view F mem).owner = none := by unfold view; rw [ha]; rfl
    unfold Alg.monitorUpdate at h2
    rw [hv] at h2
    cases h2

/-- Conversely, whatever the state-to-state operations do for some answers, the operations on memory do for the same answers. -/
theorem C83_same_runs {grow : Nat → Nat} {F : Fixed} {mem : Mem} (h : mem.Wf) (tr : List Ev) :
    (∀ b, Alg.Runs (Alg.contactMonitor (view F mem)) tr b →
      ∃ mem', Alg.Runs (Heap.contactMonitor F mem) tr (.ok (b.map (fun _ => ()), mem'))) ∧
    (∀ b, Alg.Runs (Alg.ownerMonitor (view F mem)) tr b →
      ∃ mem', Alg.Runs (Heap.ownerMonitor grow F mem) tr (.ok (b.map (fun _ => ()), mem'))) ∧
    (∀ starting vers b, Alg.Runs (Alg.ownerInit (view F mem) starting vers) tr b →
      ∃ mem', Alg.Runs (Heap.ownerInit F starting vers mem) tr (.ok (b.map (fun p => p.2), mem'))) ∧
    (∀ pos versions b, Alg.Runs (Alg.monitorUpdate (view F mem) pos versions) tr b →
      ∃ mem', Alg.Runs (Heap.update grow F pos versions mem) tr (.ok (b.map (fun _ => ()), mem'))) := by
  refine ⟨fun b hb => ?_, fun b hb => ?_, fun starting vers b hb => ?_, fun pos versions b hb => ?_⟩
  · obtain ⟨⟨r, m'⟩, h1, h2, -⟩ := (contactMonitor_sim F h).runs_back hb
    exact ⟨m', by rw [← h2.result]; exact h1⟩
  · obtain ⟨⟨r, m'⟩, h1, h2, -⟩ := (ownerMonitor_sim grow F h).runs_back hb
    exact ⟨m', by rw [← h2.result]; exact h1⟩
  · obtain ⟨⟨r, m'⟩, h1, h2, -⟩ := (ownerInit_sim F h starting vers).runs_back hb
    exact ⟨m', by rw [← h2.result]; exact h1⟩
  · obtain ⟨⟨r, m'⟩, h1, h2, -⟩ := (update_sim grow F h pos versions).runs_back hb
    exact ⟨m', by rw [← h2.result]; exact h1⟩

/-! ### other states -/

/-- Owner monitoring does not change what any other owner state says, whatever they share. -/
theorem C83_others_after_monitor {a i : Nat} {mem mem' : Mem} (h : mem.Wf) (hk : KeptBut a mem mem') (hi : i < mem.owners.length)
    (hne : i ≠ a) : mem'.ownerAt i = mem.ownerAt i := by
  have h1 : mem.owners[i]? = some mem.owners[i] := List.getElem?_eq_getElem hi
  unfold Mem.ownerAt
  rw [h1, hk.owners i _ hne h1]
  simp only [Option.map_some, Option.some.injEq]
  exact Mem.ownerOf_prefix hk.arrays (h.slices _ (List.getElem_mem hi))

/-- An update does not change what another owner state says if that state's upcoming versions do not use cells behind those
of the updated state. -/
theorem C83_others_after_update_partial {a i : Nat} {ob oi : OwnerObj} {mem mem' : Mem} (h : mem.Wf) (hu : Updated a mem mem')
    (ha : mem.owners[a]? = some ob) (hi : mem.owners[i]? = some oi) (hne : i ≠ a)
    (hd : ∀ s j, oi.upcoming = some s → s.off ≤ j → j < s.off + s.len → ¬ Spare ob.upcoming s.arr j) :
    mem'.ownerAt i = mem.ownerAt i := by
  unfold Mem.ownerAt
  rw [hi, hu.owners i _ hne hi]
  simp only [Option.map_some, Option.some.injEq, Mem.ownerOf, Owner.mk.injEq, true_and]
  cases hs : oi.upcoming with
  | none => rfl
  | some s => exact (hu.arrays ob ha).slice (h.slices oi (List.mem_of_getElem? hi) s hs) (fun j h1 h2 => hd s j hs h1 h2)

/-- In particular, a state that a monitor's state was made from (`NewOwnerState`), or that was made from it (`Struct`), and
therefore has the same slice, is not changed by an update through the monitor. -/
theorem C83_handed_out {a i : Nat} {ob oi : OwnerObj} {mem mem' : Mem} (h : mem.Wf) (hu : Updated a mem mem')
    (ha : mem.owners[a]? = some ob) (hi : mem.owners[i]? = some oi) (hne : i ≠ a) (hs : oi.upcoming = ob.upcoming) :
    mem'.ownerAt i = mem.ownerAt i := by
  refine C83_others_after_update_partial h hu ha hi hne ?_
  rintro s j h1 h2 h3 ⟨t, h4, h5, h6, h7⟩
  rw [hs, h4] at h1
  cases h1
  omega

/-- Contact states that do not share their map with the monitor's contact state are not changed by an update. -/
theorem C83_contacts_after_update {a i : Nat} {mem mem' : Mem} (h : mem.Wf) (hu : Updated a mem mem') (hi : i < mem.contacts.length)
    (hne : mem.mContact.bind (fun c => mem.contacts[c]?) ≠ mem.contacts[i]?) : mem'.contactAt i = mem.contactAt i := by
  have h1 : mem.contacts[i]? = some mem.contacts[i] := List.getElem?_eq_getElem hi
  have h2 := List.getElem?_eq_getElem (h.maps _ (List.getElem_mem hi))
  unfold Mem.contactAt
  rw [h1] at hne
  rw [h1, prefix_get hu.contacts h1]
  simp only [Option.bind_some]
  rw [h2, hu.maps _ _ hne h2]

/-! ### concrete cases -/

/-- one owner state at address 0, with room for two more upcoming versions, and a contact state -/
def toyMem : Mem := ⟨[[3, 5, 0, 0]], [⟨1, 0, some ⟨0, 0, 2, 4⟩⟩], [[(2, 0)]], [0], some 0, some 0⟩
def toyFixed : Fixed := ⟨{ rmw := 50 }, 180, 7⟩
def toyTs (x : Nat) : Nat := [10, 20, 40, 90, 110, 160, 180].getD x 0

theorem toyMem_wf : toyMem.Wf := by
  refine ⟨?_, ?_, ?_, ?_⟩
  · intro a ha; cases ha; decide
  · intro a ha; cases ha; decide
  · intro p hp; simp [toyMem] at hp ⊢; omega
  · intro ob hob s hs
    simp only [toyMem, List.mem_singleton] at hob
    subst hob
    cases hs
    exact ⟨by decide, [3, 5, 0, 0], rfl, by decide⟩

/-- a run that succeeds: the owner state at address 0 is now that of the clone at address 1 -/
example : (Heap.ownerMonitor (fun _ => 1) toyFixed toyMem).eval (honest toyTs (fun x => [0, 0, 0, 1, 1, 2, 2].getD x 0)) =
    .ok (.ok (), ⟨[[3, 5, 0, 0], [3, 5, 0]], [⟨5, 2, some ⟨1, 2, 0, 1⟩⟩, ⟨5, 2, some ⟨1, 2, 0, 1⟩⟩], [[(2, 0)]], [0], some 0, some 0⟩) := by
  decide
/-- a run that fails at a later ladder: the clone at address 1 has moved to position 4, the state at address 0 has not -/
example : (Heap.ownerMonitor (fun _ => 1) toyFixed toyMem).eval (honest toyTs (fun x => [0, 0, 0, 1, 1, 3, 3].getD x 0)) =
    .ok (goErr "binary ladder inconsistent with expected greatest version of label",
      ⟨[[3, 5, 0, 0], [3, 5, 0]], [⟨1, 0, some ⟨0, 0, 2, 4⟩⟩, ⟨4, 1, some ⟨1, 1, 1, 2⟩⟩], [[(2, 0)]], [0], some 0, some 0⟩) := by
  decide
example : (Heap.contactMonitor toyFixed toyMem).eval (honest toyTs (fun x => [0, 0, 0, 1, 1, 2, 2].getD x 0)) =
    .ok (.ok (), ⟨[[3, 5, 0, 0]], [⟨1, 0, some ⟨0, 0, 2, 4⟩⟩], [[(2, 0)], [], []], [0], none, some 0⟩) := by
  decide

/-- Independence of monitors made from the same state is false.  Two monitors are made from the state at address 0, at
addresses 1 and 2.  An update through the first one, at position 6, goes into the spare capacity of the common array;
so does an update through the second one, at position 7 of a larger tree, and the first monitor now believes that its update
was at position 7. -/
theorem C83_independent_false :
    let mem : Mem := ⟨[[3, 5, 0, 0]], [⟨1, 0, some ⟨0, 0, 2, 4⟩⟩, ⟨1, 0, some ⟨0, 0, 2, 4⟩⟩, ⟨1, 0, some ⟨0, 0, 2, 4⟩⟩], [], [], none, some 1⟩
    ∃ mem1 mem2 : Mem,
      (Heap.update (fun _ => 0) ⟨{ rmw := 50 }, 180, 7⟩ 6 1 mem).eval
        (honest toyTs (fun x => [0, 0, 0, 1, 1, 2, 3].getD x 0)) = .ok (.ok (), mem1) ∧
      mem1.ownerAt 1 = some ⟨1, 0, [3, 5, 6]⟩ ∧
      (Heap.update (fun _ => 0) ⟨{ rmw := 50 }, 190, 8⟩ 7 1 { mem1 with mOwner := some 2, mContact := none }).eval
        (honest (fun x => [10, 20, 40, 90, 110, 160, 180, 190].getD x 0) (fun x => [0, 0, 0, 1, 1, 2, 2, 3].getD x 0)) = .ok (.ok (), mem2) ∧
      mem2.ownerAt 1 = some ⟨1, 0, [3, 5, 7]⟩ := by
  refine ⟨⟨[[3, 5, 6, 0]], [⟨1, 0, some ⟨0, 0, 2, 4⟩⟩, ⟨1, 0, some ⟨0, 0, 3, 4⟩⟩, ⟨1, 0, some ⟨0, 0, 2, 4⟩⟩], [[(6, 3)]], [0], some 0, some 1⟩,
    ⟨[[3, 5, 7, 0]], [⟨1, 0, some ⟨0, 0, 2, 4⟩⟩, ⟨1, 0, some ⟨0, 0, 3, 4⟩⟩, ⟨1, 0, some ⟨0, 0, 3, 4⟩⟩], [[(6, 3)]], [0], none, some 2⟩,
    by decide +kernel, by decide +kernel, by decide +kernel, by decide +kernel⟩

/-- a log that panics when asked for a ladder at entry 5 -/
def crashing : (q : Req) → G q.Resp
  | .search 5 _ _ => .error (.panic "crash")
  | q => honest toyTs (fun x => [0, 0, 0, 1, 1, 2, 2].getD x 0) (q := q)

/-- The restriction of C30_failed_run_unchanged to errors is needed: after a crash inside the provider the monitor is left
with the clone.  (By C30_monitor_failures there are no other crashes.) -/
theorem C30_crash_keeps_clone :
    (Heap.ownerMonitor (fun _ => 1) toyFixed toyMem).eval crashing =
      .ok (.error (.panic "crash"),
        ⟨[[3, 5, 0, 0], [3, 5, 0]], [⟨1, 0, some ⟨0, 0, 2, 4⟩⟩, ⟨4, 1, some ⟨1, 1, 1, 2⟩⟩], [[(2, 0)]], [0], some 0, some 1⟩) := by
  decide +kernel

end Katie.Props
