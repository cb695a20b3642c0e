import Verif.Lemmas.ServerVersions
import Verif.Props.C02_LogAppend

/-
A concrete execution of the server, for the examples and refutations about it.
-/

namespace Katie.Props
open Katie Katie.Wire Katie.Server Katie.ServerSpec Katie.PrefixSpec Katie.AuditSpec

/-- a VRF whose outputs are single bytes -/
def toyEnv : Env where
  cs := toySuite
  sz := ⟨1, 1, 1⟩
  cfg := { mode := thirdPartyAuditing, auditorKey := some [1], rmw := 10, sigKey := [1], vrfKey := [1] }
  prove := fun input => ([input.foldl (fun a x => 3 * a + x) 0], [])
  sign := fun tbs => .ok [tbs.foldl (fun a x => 5 * a + x) 0]

def toyChange (add : List LabelValue) (remove : List Bytes) (now : Nat) : Change :=
  ⟨add, remove, now, fun _ _ => [9], fun l => l⟩

/-- a history of five batches: label 10 gets two versions in the first and one in the second, label 20 is removed in
the fourth and added again in the fifth -/
def toyHistory : List Change :=
  [toyChange [⟨[10], ⟨[1], none⟩⟩, ⟨[20], ⟨[2], none⟩⟩, ⟨[10], ⟨[3], none⟩⟩] [] 5,
   toyChange [⟨[10], ⟨[4], none⟩⟩] [] 6,
   toyChange [⟨[30], ⟨[4], none⟩⟩] [] 100,
   toyChange [⟨[40], ⟨[5], none⟩⟩] [[20]] 200,
   toyChange [⟨[20], ⟨[6], none⟩⟩] [] 300]

/-- the update returned by change 1 of `toyHistory` -/
def toyU1 : AuditorUpdate :=
  { timestamp := 5,
    added := [{ vrf := [29], com := [167] }, { vrf := [30], com := [156] }, { vrf := [71], com := [134] }],
    removed := [],
    proof := { results := [.nonInclusionParent 0,
                           .nonInclusionParent 0,
                           .nonInclusionParent 0],
               elements := [] } }

/-- the database after change 1 -/
def toyDb1 : Store :=
  { entries := [(0, [0, 0, 0, 0, 0, 0, 0, 5, 2])],
    index := [([20], [0]), ([10], [0, 0])],
    versions := [(([20], 0), [9, 0, 0, 0, 1, 2]),
                 (([10], 1), [9, 0, 0, 0, 1, 3]),
                 (([10], 0), [9, 0, 0, 0, 1, 1])],
    log := [(7, [183])],
    tiles := [({ ver := 1, ctr := 0 },
               [0, 2, 2, 2, 2, 244, 0, 2, 0, 2, 0, 2, 1, 29, 167, 1, 30, 156, 0, 1, 71, 134, 0])],
    head := some [0, 0, 0, 0, 0, 0, 0, 1, 0, 1, 120],
    auditor := none }

/-- the server after change 1 -/
def toyT1 : Tree := ⟨toyDb1, toyDb1, some { treeSize := 1, signature := [120] }, none⟩

/-- the update returned by change 2 of `toyHistory` -/
def toyU2 : AuditorUpdate :=
  { timestamp := 6,
    added := [{ vrf := [31], com := [144] }],
    removed := [],
    proof := { results := [.nonInclusionLeaf [30] [156] 7],
               elements := [[0], [0], [0], [218], [0], [55], [0]] } }

/-- the database after change 2 -/
def toyDb2 : Store :=
  { entries := [(1, [0, 0, 0, 0, 0, 0, 0, 6, 168]), (0, [0, 0, 0, 0, 0, 0, 0, 5, 2])],
    index := [([10], [0, 0, 1]), ([20], [0]), ([10], [0, 0])],
    versions := [(([10], 2), [9, 0, 0, 0, 1, 4]),
                 (([20], 0), [9, 0, 0, 0, 1, 2]),
                 (([10], 1), [9, 0, 0, 0, 1, 3]),
                 (([10], 0), [9, 0, 0, 0, 1, 1])],
    log := [(7, [183, 96]), (7, [183])],
    tiles := [({ ver := 2, ctr := 0 },
               [0, 2, 2, 2, 2, 70, 0, 2, 0, 2, 0, 2, 1, 29, 167, 2, 36, 1, 30, 156, 1, 31, 144, 0, 1, 71, 134,
                0]),
              ({ ver := 1, ctr := 0 },
               [0, 2, 2, 2, 2, 244, 0, 2, 0, 2, 0, 2, 1, 29, 167, 1, 30, 156, 0, 1, 71, 134, 0])],
    head := some [0, 0, 0, 0, 0, 0, 0, 2, 0, 1, 244],
    auditor := none }

/-- the server after change 2 -/
def toyT2 : Tree := ⟨toyDb2, toyDb2, some { treeSize := 2, signature := [244] }, none⟩

/-- the update returned by change 3 of `toyHistory` -/
def toyU3 : AuditorUpdate :=
  { timestamp := 100,
    added := [{ vrf := [113], com := [102] }],
    removed := [],
    proof := { results := [.nonInclusionLeaf [71] [134] 2], elements := [[183], [0]] } }

/-- the database after change 3 -/
def toyDb3 : Store :=
  { entries := [(2, [0, 0, 0, 0, 0, 0, 0, 100, 96]),
                (1, [0, 0, 0, 0, 0, 0, 0, 6, 168]),
                (0, [0, 0, 0, 0, 0, 0, 0, 5, 2])],
    index := [([30], [2]), ([10], [0, 0, 1]), ([20], [0]), ([10], [0, 0])],
    versions := [(([30], 0), [9, 0, 0, 0, 1, 4]),
                 (([10], 2), [9, 0, 0, 0, 1, 4]),
                 (([20], 0), [9, 0, 0, 0, 1, 2]),
                 (([10], 1), [9, 0, 0, 0, 1, 3]),
                 (([10], 0), [9, 0, 0, 0, 1, 1])],
    log := [(7, [183, 96, 50]), (7, [183, 96]), (7, [183])],
    tiles := [({ ver := 3, ctr := 0 }, [0, 2, 2, 3, 183, 2, 0, 2, 1, 71, 134, 1, 113, 102, 0]),
              ({ ver := 2, ctr := 0 },
               [0, 2, 2, 2, 2, 70, 0, 2, 0, 2, 0, 2, 1, 29, 167, 2, 36, 1, 30, 156, 1, 31, 144, 0, 1, 71, 134,
                0]),
              ({ ver := 1, ctr := 0 },
               [0, 2, 2, 2, 2, 244, 0, 2, 0, 2, 0, 2, 1, 29, 167, 1, 30, 156, 0, 1, 71, 134, 0])],
    head := some [0, 0, 0, 0, 0, 0, 0, 3, 0, 1, 21],
    auditor := none }

/-- the server after change 3 -/
def toyT3 : Tree := ⟨toyDb3, toyDb3, some { treeSize := 3, signature := [21] }, none⟩

/-- the update returned by change 4 of `toyHistory` -/
def toyU4 : AuditorUpdate :=
  { timestamp := 200,
    added := [{ vrf := [155], com := [69] }],
    removed := [{ vrf := [71], com := [134] }],
    proof := { results := [.nonInclusionParent 1, .inclusion 3],
               elements := [[183], [149]] } }

/-- the database after change 4 -/
def toyDb4 : Store :=
  { entries := [(3, [0, 0, 0, 0, 0, 0, 0, 200, 180]),
                (2, [0, 0, 0, 0, 0, 0, 0, 100, 96]),
                (1, [0, 0, 0, 0, 0, 0, 0, 6, 168]),
                (0, [0, 0, 0, 0, 0, 0, 0, 5, 2])],
    index := [([40], [3]), ([30], [2]), ([10], [0, 0, 1]), ([10], [0, 0])],
    versions := [(([40], 0), [9, 0, 0, 0, 1, 5]),
                 (([30], 0), [9, 0, 0, 0, 1, 4]),
                 (([10], 2), [9, 0, 0, 0, 1, 4]),
                 (([10], 1), [9, 0, 0, 0, 1, 3]),
                 (([10], 0), [9, 0, 0, 0, 1, 1])],
    log := [(7, [183, 96, 50, 178]), (7, [183, 96, 50]), (7, [183, 96]), (7, [183])],
    tiles := [({ ver := 4, ctr := 0 }, [0, 2, 2, 3, 183, 2, 0, 1, 113, 102, 1, 155, 69]),
              ({ ver := 3, ctr := 0 }, [0, 2, 2, 3, 183, 2, 0, 2, 1, 71, 134, 1, 113, 102, 0]),
              ({ ver := 2, ctr := 0 },
               [0, 2, 2, 2, 2, 70, 0, 2, 0, 2, 0, 2, 1, 29, 167, 2, 36, 1, 30, 156, 1, 31, 144, 0, 1, 71, 134,
                0]),
              ({ ver := 1, ctr := 0 },
               [0, 2, 2, 2, 2, 244, 0, 2, 0, 2, 0, 2, 1, 29, 167, 1, 30, 156, 0, 1, 71, 134, 0])],
    head := some [0, 0, 0, 0, 0, 0, 0, 4, 0, 1, 190],
    auditor := none }

/-- the server after change 4 -/
def toyT4 : Tree := ⟨toyDb4, toyDb4, some { treeSize := 4, signature := [190] }, none⟩

/-- the update returned by change 5 of `toyHistory` -/
def toyU5 : AuditorUpdate :=
  { timestamp := 300,
    added := [{ vrf := [71], com := [138] }],
    removed := [],
    proof := { results := [.nonInclusionLeaf [113] [102] 2], elements := [[183], [242]] } }

/-- the database after change 5 -/
def toyDb5 : Store :=
  { entries := [(4, [0, 0, 0, 0, 0, 0, 1, 44, 118]),
                (3, [0, 0, 0, 0, 0, 0, 0, 200, 180]),
                (2, [0, 0, 0, 0, 0, 0, 0, 100, 96]),
                (1, [0, 0, 0, 0, 0, 0, 0, 6, 168]),
                (0, [0, 0, 0, 0, 0, 0, 0, 5, 2])],
    index := [([20], [4]), ([40], [3]), ([30], [2]), ([10], [0, 0, 1]), ([10], [0, 0])],
    versions := [(([20], 0), [9, 0, 0, 0, 1, 6]),
                 (([40], 0), [9, 0, 0, 0, 1, 5]),
                 (([30], 0), [9, 0, 0, 0, 1, 4]),
                 (([10], 2), [9, 0, 0, 0, 1, 4]),
                 (([10], 1), [9, 0, 0, 0, 1, 3]),
                 (([10], 0), [9, 0, 0, 0, 1, 1])],
    log := [(7, [183, 96, 50, 178, 169]),
            (7, [183, 96, 50, 178]),
            (7, [183, 96, 50]),
            (7, [183, 96]),
            (7, [183])],
    tiles := [({ ver := 5, ctr := 0 }, [0, 2, 2, 3, 183, 2, 0, 2, 1, 71, 138, 1, 113, 102, 1, 155, 69]),
              ({ ver := 4, ctr := 0 }, [0, 2, 2, 3, 183, 2, 0, 1, 113, 102, 1, 155, 69]),
              ({ ver := 3, ctr := 0 }, [0, 2, 2, 3, 183, 2, 0, 2, 1, 71, 134, 1, 113, 102, 0]),
              ({ ver := 2, ctr := 0 },
               [0, 2, 2, 2, 2, 70, 0, 2, 0, 2, 0, 2, 1, 29, 167, 2, 36, 1, 30, 156, 1, 31, 144, 0, 1, 71, 134,
                0]),
              ({ ver := 1, ctr := 0 },
               [0, 2, 2, 2, 2, 244, 0, 2, 0, 2, 0, 2, 1, 29, 167, 1, 30, 156, 0, 1, 71, 134, 0])],
    head := some [0, 0, 0, 0, 0, 0, 0, 5, 0, 1, 86],
    auditor := none }

/-- the server after change 5 -/
def toyT5 : Tree := ⟨toyDb5, toyDb5, some { treeSize := 5, signature := [86] }, none⟩

theorem toyHistory_steps :
    mutate toyEnv (toyChange [⟨[10], ⟨[1], none⟩⟩, ⟨[20], ⟨[2], none⟩⟩, ⟨[10], ⟨[3], none⟩⟩] [] 5) {} = (.ok toyU1, toyT1) ∧
    mutate toyEnv (toyChange [⟨[10], ⟨[4], none⟩⟩] [] 6) toyT1 = (.ok toyU2, toyT2) ∧
    mutate toyEnv (toyChange [⟨[30], ⟨[4], none⟩⟩] [] 100) toyT2 = (.ok toyU3, toyT3) ∧
    mutate toyEnv (toyChange [⟨[40], ⟨[5], none⟩⟩] [[20]] 200) toyT3 = (.ok toyU4, toyT4) ∧
    mutate toyEnv (toyChange [⟨[20], ⟨[6], none⟩⟩] [] 300) toyT4 = (.ok toyU5, toyT5) :=
  ⟨by decide +kernel, by decide +kernel, by decide +kernel, by decide +kernel, by decide +kernel⟩

theorem toyChange_ok (add : List LabelValue) (remove : List Bytes) (now : Nat) (hnow : now < 2 ^ 64)
    (hadd : ∀ p ∈ add, p.value.Typed toyEnv.cfg) : ChangeOk toyEnv (toyChange add remove now) :=
  ⟨fun _ => .refl _, hnow, fun _ _ => rfl, hadd⟩

theorem toyHistory_runs :
    ServerSpec.Runs toyEnv toyHistory [toyU1, toyU2, toyU3, toyU4, toyU5] toyT5 := by
  obtain ⟨h1, h2, h3, h4, h5⟩ := toyHistory_steps
  have r0 : ServerSpec.Runs toyEnv [] [] {} := .start rfl
  have r1 := ServerSpec.Runs.change r0 h1 (toyChange_ok _ _ _ (by decide +kernel) (by simp [UpdateValue.Typed, SuffixTyped, toyEnv, thirdPartyAuditing, thirdPartyManagement]))
    (inRange_of_short (by decide +kernel) (by decide +kernel)) (.inl rfl)
  have r2 := ServerSpec.Runs.change r1 h2 (toyChange_ok _ _ _ (by decide +kernel) (by simp [UpdateValue.Typed, SuffixTyped, toyEnv, thirdPartyAuditing, thirdPartyManagement]))
    (inRange_of_short (by decide +kernel) (by decide +kernel)) (.inr (.inl (by decide)))
  have r3 := ServerSpec.Runs.change r2 h3 (toyChange_ok _ _ _ (by decide +kernel) (by simp [UpdateValue.Typed, SuffixTyped, toyEnv, thirdPartyAuditing, thirdPartyManagement]))
    (inRange_of_short (by decide +kernel) (by decide +kernel)) (.inr (.inl (by decide)))
  have r4 := ServerSpec.Runs.change r3 h4 (toyChange_ok _ _ _ (by decide +kernel) (by simp [UpdateValue.Typed, SuffixTyped, toyEnv, thirdPartyAuditing, thirdPartyManagement]))
    (inRange_of_short (by decide +kernel) (by decide +kernel)) (.inr (.inl (by decide)))
  exact ServerSpec.Runs.change r4 h5 (toyChange_ok _ _ _ (by decide +kernel) (by simp [UpdateValue.Typed, SuffixTyped, toyEnv, thirdPartyAuditing, thirdPartyManagement]))
    (inRange_of_short (by decide +kernel) (by decide +kernel)) (.inr (.inl (by decide)))

/-! ### A call of `Mutate` that fails -/

/-- a database with one label -/
def toyFail1 : Store :=
  { entries := [(0, [0, 0, 0, 0, 0, 0, 0, 5, 218])],
    index := [([10], [0])],
    versions := [(([10], 0), [9, 0, 0, 0, 1, 1])],
    log := [(7, [143])],
    tiles := [({ ver := 1, ctr := 0 }, [0, 1, 29, 167])],
    head := some [0, 0, 0, 0, 0, 0, 0, 1, 0, 1, 80],
    auditor := none }

/-- what is pending after a call of `Mutate` that failed -/
def toyFail2 : Store :=
  { entries := [(0, [0, 0, 0, 0, 0, 0, 0, 5, 218])],
    index := [([20], [1]), ([10], [0])],
    versions := [(([20], 0), [9, 0, 0, 0, 1, 2]), (([10], 0), [9, 0, 0, 0, 1, 1])],
    log := [(7, [143])],
    tiles := [({ ver := 1, ctr := 0 }, [0, 1, 29, 167])],
    head := some [0, 0, 0, 0, 0, 0, 0, 1, 0, 1, 80],
    auditor := none }

/-- the database after the next call -/
def toyFail3 : Store :=
  { entries := [(1, [0, 0, 0, 0, 0, 0, 0, 7, 250]), (0, [0, 0, 0, 0, 0, 0, 0, 5, 218])],
    index := [([30], [1]), ([20], [1]), ([10], [0])],
    versions := [(([30], 0), [9, 0, 0, 0, 1, 3]),
                 (([20], 0), [9, 0, 0, 0, 1, 2]),
                 (([10], 0), [9, 0, 0, 0, 1, 1])],
    log := [(7, [143, 181]), (7, [143])],
    tiles := [({ ver := 2, ctr := 0 }, [0, 2, 2, 1, 29, 167, 1, 113, 101, 0]),
              ({ ver := 1, ctr := 0 }, [0, 1, 29, 167])],
    head := some [0, 0, 0, 0, 0, 0, 0, 2, 0, 1, 225],
    auditor := none }

end Katie.Props
