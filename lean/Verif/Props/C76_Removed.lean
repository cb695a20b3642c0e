import Verif.Props.C62_Served

/-
C76: labels that were removed.

For labels that were never removed see C62 and C63.  When a label is removed its index is deleted, but the earlier log entries
keep its versions: their prefix trees do not change (C15).  The server predicts the ladders from the index, so that it contradicts the
earlier entries from then on.
-/

namespace Katie.Props
open Katie Katie.Wire Katie.Alg Katie.Ladder Katie.Server Katie.Client Katie.ServerSpec Katie.ServedSpec

/-- the third and the fourth entry of the log as before, but label 20 stays -/
def keptChange4 : Change := toyChange [⟨[40], ⟨[5], none⟩⟩] [] 200

/-- label 20 is removed -/
def removeChange5 : Change := toyChange [⟨[50], ⟨[6], none⟩⟩] [[20]] 300

/-- label 20 is removed and added again, with value `v` -/
def replaceChange5 (v : UInt8) : Change := toyChange [⟨[20], ⟨[v], none⟩⟩] [[20]] 300

def keptU4 : AuditorUpdate :=
  { timestamp := 200, added := [{ vrf := [155], com := [69] }], removed := [],
    proof := { results := [.nonInclusionParent 1], elements := [[41]] } }

def removeU5 : AuditorUpdate :=
  { timestamp := 300, added := [{ vrf := [197], com := [36] }], removed := [{ vrf := [71], com := [134] }],
    proof := { results := [.nonInclusionLeaf [155] [69] 1, .inclusion 3], elements := [[183], [149]] } }

def replaceU5 (com : UInt8) : AuditorUpdate :=
  { timestamp := 300, added := [{ vrf := [71], com := [com] }], removed := [{ vrf := [71], com := [134] }],
    proof := { results := [.inclusion 3, .inclusion 3], elements := [[183], [149], [242]] } }

def keptT4 : Tree := (mutate toyEnv keptChange4 toyT3).2
def removeT5 : Tree := (mutate toyEnv removeChange5 keptT4).2
def replaceT5 (v : UInt8) : Tree := (mutate toyEnv (replaceChange5 v) keptT4).2

/-- the changes before -/
def keptHistory : List Change := toyHistory.take 3 ++ [keptChange4]
def keptUs : List AuditorUpdate := [toyU1, toyU2, toyU3] ++ [keptU4]

theorem keptRuns : ServerSpec.Runs toyEnv keptHistory keptUs keptT4 := by
  obtain ⟨h1, h2, h3, -, -⟩ := toyHistory_steps
  have r0 : ServerSpec.Runs toyEnv [] [] {} := .start rfl
  have r1 := ServerSpec.Runs.change r0 h1 (toyChange_ok _ _ _ (by decide +kernel) (by simp [UpdateValue.Typed, SuffixTyped, toyEnv, thirdPartyAuditing, thirdPartyManagement]))
    (inRange_of_short (by decide +kernel) (by decide +kernel)) (.inl rfl)
  have r2 := ServerSpec.Runs.change r1 h2 (toyChange_ok _ _ _ (by decide +kernel) (by simp [UpdateValue.Typed, SuffixTyped, toyEnv, thirdPartyAuditing, thirdPartyManagement]))
    (inRange_of_short (by decide +kernel) (by decide +kernel)) (.inr (.inl (by decide)))
  have r3 := ServerSpec.Runs.change r2 h3 (toyChange_ok _ _ _ (by decide +kernel) (by simp [UpdateValue.Typed, SuffixTyped, toyEnv, thirdPartyAuditing, thirdPartyManagement]))
    (inRange_of_short (by decide +kernel) (by decide +kernel)) (.inr (.inl (by decide)))
  have h4 : mutate toyEnv keptChange4 toyT3 = (.ok keptU4, keptT4) := Prod.ext (by decide +kernel) rfl
  exact ServerSpec.Runs.change r3 h4 (toyChange_ok _ _ _ (by decide +kernel) (by simp [UpdateValue.Typed, SuffixTyped, toyEnv, thirdPartyAuditing, thirdPartyManagement]))
    (inRange_of_short (by decide +kernel) (by decide +kernel)) (.inr (.inl (by decide)))

theorem removeRuns : ServerSpec.Runs toyEnv (keptHistory ++ [removeChange5]) (keptUs ++ [removeU5]) removeT5 := by
  have h5 : mutate toyEnv removeChange5 keptT4 = (.ok removeU5, removeT5) := Prod.ext (by decide +kernel) rfl
  exact ServerSpec.Runs.change keptRuns h5 (toyChange_ok _ _ _ (by decide +kernel) (by simp [UpdateValue.Typed, SuffixTyped, toyEnv, thirdPartyAuditing, thirdPartyManagement]))
    (inRange_of_short (by decide +kernel) (by decide +kernel)) (.inr (.inl (by decide)))

theorem replaceRuns6 : ServerSpec.Runs toyEnv (keptHistory ++ [replaceChange5 6]) (keptUs ++ [replaceU5 138]) (replaceT5 6) := by
  have h5 : mutate toyEnv (replaceChange5 6) keptT4 = (.ok (replaceU5 138), replaceT5 6) := Prod.ext (by decide +kernel) rfl
  exact ServerSpec.Runs.change keptRuns h5 (toyChange_ok _ _ _ (by decide +kernel) (by simp [UpdateValue.Typed, SuffixTyped, toyEnv, thirdPartyAuditing, thirdPartyManagement]))
    (inRange_of_short (by decide +kernel) (by decide +kernel)) (.inr (.inl (by decide)))

theorem replaceRuns2 : ServerSpec.Runs toyEnv (keptHistory ++ [replaceChange5 2]) (keptUs ++ [replaceU5 134]) (replaceT5 2) := by
  have h5 : mutate toyEnv (replaceChange5 2) keptT4 = (.ok (replaceU5 134), replaceT5 2) := Prod.ext (by decide +kernel) rfl
  exact ServerSpec.Runs.change keptRuns h5 (toyChange_ok _ _ _ (by decide +kernel) (by simp [UpdateValue.Typed, SuffixTyped, toyEnv, thirdPartyAuditing, thirdPartyManagement]))
    (inRange_of_short (by decide +kernel) (by decide +kernel)) (.inr (.inl (by decide)))

/-- Before the removal the same client has no difficulty with the label. -/
example : (versionsOf [20] keptHistory).length = 1 ∧ toyChecked 200 keptT4 none [20] (some 0) = .ok 3 ∧
    toyChecked 200 keptT4 none [20] none = .ok 3 := by decide +kernel

/-- **A label that was removed and added again can not be looked up.**  Version 0 of label 20 exists, with the value that was
added last; the server itself fails when it is asked for it. -/
theorem C76_replaced_refused : ∃ cs us t, ServerSpec.Runs toyEnv cs us t ∧ t.head ≠ none ∧
    (∃ x, versionsOf [20] cs = [x] ∧ x.value = ⟨[6], none⟩) ∧
    ∀ state, (state = none ∨ state = some 1 ∨ state = some 2 ∨ state = some 3 ∨ state = some 4) →
      Server.search toyEnv 300 t ⟨state, [20], some 0⟩ = goErr "different values for same commitment found" := by
  refine ⟨_, _, _, replaceRuns6, by decide +kernel, ⟨⟨4, ⟨[6], none⟩, [9]⟩, by decide, rfl⟩, ?_⟩
  rintro state (rfl | rfl | rfl | rfl | rfl) <;> decide +kernel

/-- **Even if its value is as before**, so that the commitment is the same: the server answers, and the client rejects the answer
because the proof does not have the shape that follows from what it shows. -/
theorem C76_replaced_rejected : ∃ cs us t res, ServerSpec.Runs toyEnv cs us t ∧
    (∃ x, versionsOf [20] cs = [x] ∧ x.value = ⟨[2], none⟩) ∧
    Server.search toyEnv 300 t (searchRequest none [20] (some 0)) = .ok res ∧
    toyChecked 300 t none [20] (some 0) = goErr "unexpected number of results in prefix proof" := by
  have h : ∃ res, Server.search toyEnv 300 (replaceT5 2) (searchRequest none [20] (some 0)) = .ok res := by
    have : (match Server.search toyEnv 300 (replaceT5 2) (searchRequest none [20] (some 0)) with
      | .ok _ => true
      | .error _ => false) = true := by decide +kernel
    revert this
    cases Server.search toyEnv 300 (replaceT5 2) (searchRequest none [20] (some 0)) with
    | ok res => exact fun _ => ⟨res, rfl⟩
    | error e => intro h; cases h
  obtain ⟨res, h⟩ := h
  exact ⟨_, _, _, res, replaceRuns2, ⟨⟨4, ⟨[2], none⟩, [9]⟩, by decide, rfl⟩, h, by decide +kernel⟩

/-- **That a label was removed can not be verified**: the answer of the server about a label that has no versions any more is
rejected. -/
theorem C76_removed_rejected : ∃ cs us t res, ServerSpec.Runs toyEnv cs us t ∧ versionsOf [20] cs = [] ∧
    Server.search toyEnv 300 t (searchRequest none [20] (some 0)) = .ok res ∧
    toyChecked 300 t none [20] (some 0) = goErr "unexpected number of results in prefix proof" := by
  have h : ∃ res, Server.search toyEnv 300 removeT5 (searchRequest none [20] (some 0)) = .ok res := by
    have : (match Server.search toyEnv 300 removeT5 (searchRequest none [20] (some 0)) with
      | .ok _ => true
      | .error _ => false) = true := by decide +kernel
    revert this
    cases Server.search toyEnv 300 removeT5 (searchRequest none [20] (some 0)) with
    | ok res => exact fun _ => ⟨res, rfl⟩
    | error e => intro h; cases h
  obtain ⟨res, h⟩ := h
  exact ⟨_, _, _, res, removeRuns, by decide, h, by decide +kernel⟩

end Katie.Props
