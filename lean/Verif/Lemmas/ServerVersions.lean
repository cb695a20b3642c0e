import Verif.Lemmas.ServerStep

/-
The list of versions of a label.
-/

namespace Katie.Server
open Katie Katie.Wire Katie.ServerSpec Katie.PrefixSpec Katie.AuditSpec Katie.SearchSpec

theorem fresh_values (l : Bytes) (n : Nat) (c : Change) (k : Nat) : (fresh l n c k).map Version.value = added l c := by
  unfold fresh
  rw [List.mapIdx_eq_zipIdx_map, List.map_map]
  simp only [Function.comp_def]
  exact List.zipIdx_map_fst 0 _

theorem fresh_positions (l : Bytes) (n : Nat) (c : Change) (k : Nat) :
    (fresh l n c k).map Version.pos = List.replicate (added l c).length n := by
  unfold fresh
  rw [List.mapIdx_eq_zipIdx_map, List.map_map]
  simp only [Function.comp_def]
  rw [List.map_const', List.length_zipIdx]

/-- what a later sequence of changes does to a label that it does not remove -/
theorem versionsOf_append (l : Bytes) (cs : List Change) : ∀ ds : List Change, (∀ c ∈ ds, l ∉ c.remove) →
    ∃ rest, versionsOf l (cs ++ ds) = versionsOf l cs ++ rest ∧ rest.map Version.value = ds.flatMap (added l) ∧
      ∀ x ∈ rest, cs.length ≤ x.pos := by
  intro ds
  induction ds using List.reverseRecOn with
  | nil => intro _; exact ⟨[], by simp, rfl, by simp⟩
  | append_singleton ds c ih =>
    intro h
    obtain ⟨rest, h1, h2, h3⟩ := ih (fun d hd => h d (by simp [hd]))
    rw [← List.append_assoc, versionsOf_snoc, h1]
    unfold step kept
    rw [if_neg (h c (by simp))]
    refine ⟨rest ++ fresh l (cs ++ ds).length c (versionsOf l cs ++ rest).length, by simp, ?_, ?_⟩
    · rw [List.map_append, h2, fresh_values, List.flatMap_append]
      simp
    · intro x hx
      rcases List.mem_append.1 hx with hx | hx
      · exact h3 x hx
      · have : x.pos ∈ (fresh l (cs ++ ds).length c (versionsOf l cs ++ rest).length).map Version.pos := List.mem_map.2 ⟨x, hx, rfl⟩
        rw [fresh_positions] at this
        rw [(List.mem_replicate.1 this).2]
        simp

theorem versionsOf_values (l : Bytes) (cs : List Change) (h : ∀ c ∈ cs, l ∉ c.remove) :
    (versionsOf l cs).map Version.value = cs.flatMap (added l) := by
  obtain ⟨rest, h1, h2, _⟩ := versionsOf_append l [] cs h
  rw [List.nil_append, versionsOf_nil, List.nil_append] at h1
  rw [h1, h2]

theorem versionsOf_length_le (l : Bytes) (cs : List Change) : (versionsOf l cs).length ≤ (cs.flatMap Change.add).length := by
  induction cs using List.reverseRecOn with
  | nil => simp [versionsOf_nil]
  | append_singleton cs c ih =>
    rw [versionsOf_snoc]
    unfold step
    rw [List.length_append, List.flatMap_append, List.length_append]
    have h1 : (kept l c (versionsOf l cs)).length ≤ (versionsOf l cs).length := by
      unfold kept; split <;> simp
    have h2 : (fresh l cs.length c (kept l c (versionsOf l cs)).length).length ≤ c.add.length := by
      have := congrArg List.length (fresh_values l cs.length c (kept l c (versionsOf l cs)).length)
      rw [List.length_map] at this
      rw [this]
      unfold added
      rw [List.length_map]
      exact List.length_filter_le _ _
    have h3 : ([c].flatMap Change.add).length = c.add.length := by simp
    omega

/-- `InRange` for a short history -/
theorem inRange_of_short {cs : List Change} (h1 : cs.length < 2 ^ 63) (h2 : (cs.flatMap Change.add).length ≤ 2 ^ 32) :
    InRange cs :=
  ⟨h1, by omega, fun l => le_trans (versionsOf_length_le l cs) h2⟩

/-- The version existed after `k` changes exactly when its position is one of the first `k`, for a label that was
not removed afterwards. -/
theorem versionsOf_take (l : Bytes) (cs : List Change) (k : Nat) (hk : k ≤ cs.length) (h : ∀ c ∈ cs.drop k, l ∉ c.remove) (v : Nat) :
    v < (versionsOf l (cs.take k)).length ↔ ∃ p, ((versionsOf l cs).map Version.pos)[v]? = some p ∧ p < k := by
  obtain ⟨rest, h1, _, h3⟩ := versionsOf_append l (cs.take k) (cs.drop k) h
  rw [List.take_append_drop] at h1
  rw [h1, List.map_append]
  have hl : (cs.take k).length = k := by simp; omega
  rw [hl] at h3
  constructor
  · intro hv
    rw [List.getElem?_append_left (by simpa using hv)]
    refine ⟨_, List.getElem?_eq_getElem (by simpa using hv), ?_⟩
    have := (versionsOf_pos l (cs.take k)).2 _ (List.getElem_mem (l := (versionsOf l (cs.take k)).map Version.pos) (by simpa using hv))
    rw [hl] at this
    exact this
  · rintro ⟨p, hp, hlt⟩
    by_contra hv
    rw [List.getElem?_append_right (by simp; omega)] at hp
    obtain ⟨x, hx, rfl⟩ := List.mem_map.1 (List.mem_of_getElem? hp)
    have := h3 x hx
    omega

end Katie.Server
