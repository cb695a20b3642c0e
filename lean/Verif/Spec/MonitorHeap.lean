import Verif.Model.MonitorHeap

/-
What is meant by a memory without dangling pointers, and by an operation that leaves the memory alone.
-/

namespace Katie.Heap
open Katie Katie.Alg

/-- a slice lies inside its array -/
def SliceOk (arrays : List (List Nat)) (s : Slice) : Prop :=
  s.len ≤ s.cap ∧ ∃ a, arrays[s.arr]? = some a ∧ s.off + s.cap ≤ a.length

/-- no pointer is dangling (Go guarantees this) -/
structure Mem.Wf (mem : Mem) : Prop where
  owner : ∀ a, mem.mOwner = some a → a < mem.owners.length
  contact : ∀ a, mem.mContact = some a → a < mem.contacts.length
  maps : ∀ p ∈ mem.contacts, p < mem.maps.length
  slices : ∀ ob ∈ mem.owners, ∀ s, ob.upcoming = some s → SliceOk mem.arrays s

/-- everything that was in memory is there as before, and the monitor points to the same states: memory was at most
allocated -/
structure Kept (mem mem' : Mem) : Prop where
  arrays : mem.arrays <+: mem'.arrays
  owners : mem.owners <+: mem'.owners
  maps : mem.maps <+: mem'.maps
  contacts : mem.contacts <+: mem'.contacts
  mContact : mem'.mContact = mem.mContact
  mOwner : mem'.mOwner = mem.mOwner

/-- everything that was in memory is there as before, except for the owner state at address `a`; the monitor points to
the same owner state -/
structure KeptBut (a : Nat) (mem mem' : Mem) : Prop where
  arrays : mem.arrays <+: mem'.arrays
  owners : ∀ i ob, i ≠ a → mem.owners[i]? = some ob → mem'.owners[i]? = some ob
  maps : mem.maps <+: mem'.maps
  contacts : mem.contacts <+: mem'.contacts
  mContact : mem'.mContact = mem.mContact
  mOwner : mem'.mOwner = mem.mOwner

end Katie.Heap

namespace Katie.Heap
open Katie Katie.Alg

/-- cell `j` of array `i` is in the spare capacity of a slice, behind its elements -/
def Spare (s : Option Slice) (i j : Nat) : Prop :=
  ∃ t, s = some t ∧ i = t.arr ∧ t.off + t.len ≤ j ∧ j < t.off + t.cap

/-- every array is there with its length, and only cells in the spare capacity of `s` may have changed -/
def SameBut (s : Option Slice) (arrays arrays' : List (List Nat)) : Prop :=
  ∀ (i : Nat) (arr : List Nat), arrays[i]? = some arr →
    ∃ arr' : List Nat, arrays'[i]? = some arr' ∧ arr'.length = arr.length ∧ ∀ j, ¬ Spare s i j → arr'[j]? = arr[j]?

/-- everything that was in memory is there as before, except for the owner state at address `a`, the spare capacity behind
its upcoming versions, and the map of the monitor's contact state; the monitor points to the same owner state, and to the
same contact state if it had one -/
structure Updated (a : Nat) (mem mem' : Mem) : Prop where
  arrays : ∀ ob, mem.owners[a]? = some ob → SameBut ob.upcoming mem.arrays mem'.arrays
  owners : ∀ i ob, i ≠ a → mem.owners[i]? = some ob → mem'.owners[i]? = some ob
  maps : ∀ p m, mem.mContact.bind (fun c => mem.contacts[c]?) ≠ some p → mem.maps[p]? = some m → mem'.maps[p]? = some m
  contacts : mem.contacts <+: mem'.contacts
  mContact : ∀ c, mem.mContact = some c → mem'.mContact = some c
  mOwner : mem'.mOwner = mem.mOwner

end Katie.Heap
