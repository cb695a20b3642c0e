import Verif.Props.ServerExample

/-
Two more concrete executions of the server: a removal that an auditor can follow, and a replacement in one call.
-/

namespace Katie.Props
open Katie Katie.Wire Katie.Server Katie.ServerSpec Katie.PrefixSpec Katie.AuditSpec

/-- a history with a removal: label 20 has two neighbours, in its part of the prefix tree, that stay -/
def toyRemovalHistory : List Change :=
  [toyChange [⟨[10], ⟨[1], none⟩⟩, ⟨[20], ⟨[2], none⟩⟩, ⟨[30], ⟨[3], none⟩⟩, ⟨[33], ⟨[4], none⟩⟩] [] 5,
   toyChange [⟨[40], ⟨[5], none⟩⟩] [] 100,
   toyChange [] [[20]] 200,
   toyChange [⟨[20], ⟨[6], none⟩⟩] [] 300]

/-- the update returned by change 1 -/
def toyRU1 : AuditorUpdate :=
  { timestamp := 5,
    added := [{ vrf := [29], com := [167] },
              { vrf := [71], com := [134] },
              { vrf := [100], com := [15] },
              { vrf := [113], com := [101] }],
    removed := [],
    proof := { results := [.nonInclusionParent 0,
                           .nonInclusionParent 0,
                           .nonInclusionParent 0,
                           .nonInclusionParent 0],
               elements := [] } }

/-- the database after change 1 -/
def toyRDb1 : Store :=
  { entries := [(0, [0, 0, 0, 0, 0, 0, 0, 5, 22])],
    index := [([33], [0]), ([30], [0]), ([20], [0]), ([10], [0])],
    versions := [(([33], 0), [9, 0, 0, 0, 1, 4]),
                 (([30], 0), [9, 0, 0, 0, 1, 3]),
                 (([20], 0), [9, 0, 0, 0, 1, 2]),
                 (([10], 0), [9, 0, 0, 0, 1, 1])],
    log := [(7, [203])],
    tiles := [({ ver := 1, ctr := 0 },
               [0, 2, 2, 1, 29, 167, 2, 1, 71, 134, 2, 190, 1, 100, 15, 1, 113, 101, 0])],
    head := some [0, 0, 0, 0, 0, 0, 0, 1, 0, 1, 140],
    auditor := none }

/-- the server after change 1 -/
def toyRT1 : Tree := ⟨toyRDb1, toyRDb1, some { treeSize := 1, signature := [140] }, none⟩

/-- the update returned by change 2 -/
def toyRU2 : AuditorUpdate :=
  { timestamp := 100,
    added := [{ vrf := [155], com := [69] }],
    removed := [],
    proof := { results := [.nonInclusionParent 1], elements := [[187]] } }

/-- the database after change 2 -/
def toyRDb2 : Store :=
  { entries := [(1, [0, 0, 0, 0, 0, 0, 0, 100, 8]), (0, [0, 0, 0, 0, 0, 0, 0, 5, 22])],
    index := [([40], [1]), ([33], [0]), ([30], [0]), ([20], [0]), ([10], [0])],
    versions := [(([40], 0), [9, 0, 0, 0, 1, 5]),
                 (([33], 0), [9, 0, 0, 0, 1, 4]),
                 (([30], 0), [9, 0, 0, 0, 1, 3]),
                 (([20], 0), [9, 0, 0, 0, 1, 2]),
                 (([10], 0), [9, 0, 0, 0, 1, 1])],
    log := [(7, [203, 218]), (7, [203])],
    tiles := [({ ver := 2, ctr := 0 }, [0, 2, 3, 187, 1, 0, 1, 155, 69]),
              ({ ver := 1, ctr := 0 },
               [0, 2, 2, 1, 29, 167, 2, 1, 71, 134, 2, 190, 1, 100, 15, 1, 113, 101, 0])],
    head := some [0, 0, 0, 0, 0, 0, 0, 2, 0, 1, 34],
    auditor := none }

/-- the server after change 2 -/
def toyRT2 : Tree := ⟨toyRDb2, toyRDb2, some { treeSize := 2, signature := [34] }, none⟩

/-- the update returned by change 3 -/
def toyRU3 : AuditorUpdate :=
  { timestamp := 200,
    added := [],
    removed := [{ vrf := [71], com := [134] }],
    proof := { results := [.inclusion 3], elements := [[218], [190], [242]] } }

/-- the database after change 3 -/
def toyRDb3 : Store :=
  { entries := [(2, [0, 0, 0, 0, 0, 0, 0, 200, 25]),
                (1, [0, 0, 0, 0, 0, 0, 0, 100, 8]),
                (0, [0, 0, 0, 0, 0, 0, 0, 5, 22])],
    index := [([40], [1]), ([33], [0]), ([30], [0]), ([10], [0])],
    versions := [(([40], 0), [9, 0, 0, 0, 1, 5]),
                 (([33], 0), [9, 0, 0, 0, 1, 4]),
                 (([30], 0), [9, 0, 0, 0, 1, 3]),
                 (([10], 0), [9, 0, 0, 0, 1, 1])],
    log := [(7, [203, 218, 23]), (7, [203, 218]), (7, [203])],
    tiles := [({ ver := 3, ctr := 0 }, [0, 2, 2, 1, 29, 167, 2, 0, 3, 190, 1, 0, 1, 155, 69]),
              ({ ver := 2, ctr := 0 }, [0, 2, 3, 187, 1, 0, 1, 155, 69]),
              ({ ver := 1, ctr := 0 },
               [0, 2, 2, 1, 29, 167, 2, 1, 71, 134, 2, 190, 1, 100, 15, 1, 113, 101, 0])],
    head := some [0, 0, 0, 0, 0, 0, 0, 3, 0, 1, 152],
    auditor := none }

/-- the server after change 3 -/
def toyRT3 : Tree := ⟨toyRDb3, toyRDb3, some { treeSize := 3, signature := [152] }, none⟩

/-- the update returned by change 4 -/
def toyRU4 : AuditorUpdate :=
  { timestamp := 300,
    added := [{ vrf := [71], com := [138] }],
    removed := [],
    proof := { results := [.nonInclusionParent 3], elements := [[218], [190], [242]] } }

/-- the database after change 4 -/
def toyRDb4 : Store :=
  { entries := [(3, [0, 0, 0, 0, 0, 0, 1, 44, 44]),
                (2, [0, 0, 0, 0, 0, 0, 0, 200, 25]),
                (1, [0, 0, 0, 0, 0, 0, 0, 100, 8]),
                (0, [0, 0, 0, 0, 0, 0, 0, 5, 22])],
    index := [([20], [3]), ([40], [1]), ([33], [0]), ([30], [0]), ([10], [0])],
    versions := [(([20], 0), [9, 0, 0, 0, 1, 6]),
                 (([40], 0), [9, 0, 0, 0, 1, 5]),
                 (([33], 0), [9, 0, 0, 0, 1, 4]),
                 (([30], 0), [9, 0, 0, 0, 1, 3]),
                 (([10], 0), [9, 0, 0, 0, 1, 1])],
    log := [(7, [203, 218, 23, 95]), (7, [203, 218, 23]), (7, [203, 218]), (7, [203])],
    tiles := [({ ver := 4, ctr := 0 }, [0, 2, 2, 1, 29, 167, 2, 1, 71, 138, 3, 190, 1, 0, 1, 155, 69]),
              ({ ver := 3, ctr := 0 }, [0, 2, 2, 1, 29, 167, 2, 0, 3, 190, 1, 0, 1, 155, 69]),
              ({ ver := 2, ctr := 0 }, [0, 2, 3, 187, 1, 0, 1, 155, 69]),
              ({ ver := 1, ctr := 0 },
               [0, 2, 2, 1, 29, 167, 2, 1, 71, 134, 2, 190, 1, 100, 15, 1, 113, 101, 0])],
    head := some [0, 0, 0, 0, 0, 0, 0, 4, 0, 1, 22],
    auditor := none }

/-- the server after change 4 -/
def toyRT4 : Tree := ⟨toyRDb4, toyRDb4, some { treeSize := 4, signature := [22] }, none⟩

/-- the update returned when label 20 is removed and added again in one call, after change 3 of `toyHistory` -/
def toyXU4 : AuditorUpdate :=
  { timestamp := 200,
    added := [{ vrf := [71], com := [139] }],
    removed := [{ vrf := [71], com := [134] }],
    proof := { results := [.inclusion 3, .inclusion 3],
               elements := [[183], [149], [0]] } }

/-- the database then -/
def toyXDb4 : Store :=
  { entries := [(3, [0, 0, 0, 0, 0, 0, 0, 200, 141]),
                (2, [0, 0, 0, 0, 0, 0, 0, 100, 96]),
                (1, [0, 0, 0, 0, 0, 0, 0, 6, 168]),
                (0, [0, 0, 0, 0, 0, 0, 0, 5, 2])],
    index := [([20], [3]), ([30], [2]), ([10], [0, 0, 1]), ([10], [0, 0])],
    versions := [(([20], 0), [9, 0, 0, 0, 1, 7]),
                 (([30], 0), [9, 0, 0, 0, 1, 4]),
                 (([10], 2), [9, 0, 0, 0, 1, 4]),
                 (([10], 1), [9, 0, 0, 0, 1, 3]),
                 (([10], 0), [9, 0, 0, 0, 1, 1])],
    log := [(7, [183, 96, 50, 139]), (7, [183, 96, 50]), (7, [183, 96]), (7, [183])],
    tiles := [({ ver := 4, ctr := 0 }, [0, 2, 2, 3, 183, 2, 0, 2, 1, 71, 139, 1, 113, 102, 0]),
              ({ ver := 3, ctr := 0 }, [0, 2, 2, 3, 183, 2, 0, 2, 1, 71, 134, 1, 113, 102, 0]),
              ({ ver := 2, ctr := 0 },
               [0, 2, 2, 2, 2, 70, 0, 2, 0, 2, 0, 2, 1, 29, 167, 2, 36, 1, 30, 156, 1, 31, 144, 0, 1, 71, 134,
                0]),
              ({ ver := 1, ctr := 0 },
               [0, 2, 2, 2, 2, 244, 0, 2, 0, 2, 0, 2, 1, 29, 167, 1, 30, 156, 0, 1, 71, 134, 0])],
    head := some [0, 0, 0, 0, 0, 0, 0, 4, 0, 1, 151],
    auditor := none }

/-- the server then -/
def toyXT4 : Tree := ⟨toyXDb4, toyXDb4, some { treeSize := 4, signature := [151] }, none⟩

theorem toyRemoval_runs :
    ServerSpec.Runs toyEnv toyRemovalHistory [toyRU1, toyRU2, toyRU3, toyRU4] toyRT4 := by
  have r0 : ServerSpec.Runs toyEnv [] [] {} := .start rfl
  have h1 : mutate toyEnv (toyChange [⟨[10], ⟨[1], none⟩⟩, ⟨[20], ⟨[2], none⟩⟩, ⟨[30], ⟨[3], none⟩⟩, ⟨[33], ⟨[4], none⟩⟩] [] 5) {} = (.ok toyRU1, toyRT1) := by
    decide +kernel
  have h2 : mutate toyEnv (toyChange [⟨[40], ⟨[5], none⟩⟩] [] 100) toyRT1 = (.ok toyRU2, toyRT2) := by decide +kernel
  have h3 : mutate toyEnv (toyChange [] [[20]] 200) toyRT2 = (.ok toyRU3, toyRT3) := by decide +kernel
  have h4 : mutate toyEnv (toyChange [⟨[20], ⟨[6], none⟩⟩] [] 300) toyRT3 = (.ok toyRU4, toyRT4) := by decide +kernel
  have r1 := ServerSpec.Runs.change r0 h1 (toyChange_ok _ _ _ (by decide +kernel) (by simp [UpdateValue.Typed, SuffixTyped, toyEnv, thirdPartyAuditing, thirdPartyManagement]))
    (inRange_of_short (by decide +kernel) (by decide +kernel)) (.inl rfl)
  have r2 := ServerSpec.Runs.change r1 h2 (toyChange_ok _ _ _ (by decide +kernel) (by simp [UpdateValue.Typed, SuffixTyped, toyEnv, thirdPartyAuditing, thirdPartyManagement]))
    (inRange_of_short (by decide +kernel) (by decide +kernel)) (.inr (.inl (by decide)))
  have r3 := ServerSpec.Runs.change r2 h3 (toyChange_ok _ _ _ (by decide +kernel) (by simp))
    (inRange_of_short (by decide +kernel) (by decide +kernel)) (.inr (.inr (by decide)))
  exact ServerSpec.Runs.change r3 h4 (toyChange_ok _ _ _ (by decide +kernel) (by simp [UpdateValue.Typed, SuffixTyped, toyEnv, thirdPartyAuditing, thirdPartyManagement]))
    (inRange_of_short (by decide +kernel) (by decide +kernel)) (.inr (.inl (by decide)))

/-- the first three changes of `toyHistory`, then one call that removes label 20 and adds it again -/
theorem toyReplace_runs :
    ServerSpec.Runs toyEnv (toyHistory.take 3 ++ [toyChange [⟨[20], ⟨[7], none⟩⟩] [[20]] 200]) [toyU1, toyU2, toyU3, toyXU4] toyXT4 := by
  obtain ⟨h1, h2, h3, -, -⟩ := toyHistory_steps
  have h4 : mutate toyEnv (toyChange [⟨[20], ⟨[7], none⟩⟩] [[20]] 200) toyT3 = (.ok toyXU4, toyXT4) := by decide +kernel
  have r0 : ServerSpec.Runs toyEnv [] [] {} := .start rfl
  have r1 := ServerSpec.Runs.change r0 h1 (toyChange_ok _ _ _ (by decide +kernel) (by simp [UpdateValue.Typed, SuffixTyped, toyEnv, thirdPartyAuditing, thirdPartyManagement]))
    (inRange_of_short (by decide +kernel) (by decide +kernel)) (.inl rfl)
  have r2 := ServerSpec.Runs.change r1 h2 (toyChange_ok _ _ _ (by decide +kernel) (by simp [UpdateValue.Typed, SuffixTyped, toyEnv, thirdPartyAuditing, thirdPartyManagement]))
    (inRange_of_short (by decide +kernel) (by decide +kernel)) (.inr (.inl (by decide)))
  have r3 := ServerSpec.Runs.change r2 h3 (toyChange_ok _ _ _ (by decide +kernel) (by simp [UpdateValue.Typed, SuffixTyped, toyEnv, thirdPartyAuditing, thirdPartyManagement]))
    (inRange_of_short (by decide +kernel) (by decide +kernel)) (.inr (.inl (by decide)))
  exact ServerSpec.Runs.change r3 h4 (toyChange_ok _ _ _ (by decide +kernel) (by simp [UpdateValue.Typed, SuffixTyped, toyEnv, thirdPartyAuditing, thirdPartyManagement]))
    (inRange_of_short (by decide +kernel) (by decide +kernel)) (.inr (.inl (by decide)))

end Katie.Props
