import Verif.Props.C31_C35_Auditor

/-
C35 for updates that were received: the state of the auditor can always be written, and is read back as it was.
-/

namespace Katie.Props
open Katie Katie.Wire Katie.Audit Katie.AuditSpec Katie.SearchSpec Katie.PrefixSpec

theorem exec_updates {cs : Log.Suite} {cfg : Config} {key : Bytes} {sign : Bytes → G Bytes} {U : AuditorUpdate → Prop}
    {P : (Bytes → G Unit) → Prop} {us kept : List AuditorUpdate} {hs : List AuditorTreeHead} {a : Auditor}
    (h : Exec cs cfg key sign U P us kept hs a) : (∀ u ∈ us, U u) ∧ ∀ u ∈ kept, U u := by
  induction h with
  | start h => simp
  | @update us kept hs a u _ hu hn ih =>
    refine ⟨?_, ih.2⟩
    intro x hx
    unfold extended at hx
    split at hx
    · rcases List.mem_append.1 hx with hx | hx
      · exact ih.1 x hx
      · rw [List.mem_singleton] at hx; subst hx; exact hu
    · exact ih.1 x hx
  | commit _ _ ih =>
    refine ⟨ih.1, ?_⟩
    unfold keptAfter
    split
    · exact ih.2
    · exact ih.1
  | restart _ _ ih => exact ⟨ih.2, ih.2⟩

/-- **C35.**  An auditor that processes updates that can be sent (`added.length < 2^16`), with a key whose signatures can be
sent: in every execution, whatever the database does, every signed state can be written, and what is written is read back as
the same state.  (The auditor writes its state only after it was signed.) -/
theorem C35_state_roundtrip {cs : Log.Suite} (hcs : cs.Good) {cfg : Config} {key : Bytes} {sign : Bytes → G Bytes}
    (hsign : ∀ b sig, sign b = .ok sig → sig.length < 2 ^ 16)
    {P : (Bytes → G Unit) → Prop} {us kept : List AuditorUpdate} {hs : List AuditorTreeHead} {a : Auditor}
    (h : Exec cs cfg key sign (fun u => UpdateOk cs u ∧ u.added.length < 2 ^ 16) P us kept hs a) (s : AState)
    (hst : a.state = some s) (hsig : s.signature.isSome) :
    ∃ raw, s.marshal = .ok raw ∧ newAuditorState cs.hashSize raw = .ok (s, []) := by
  obtain ⟨A, hAu, hS⟩ := (exec_inv hcs (fun _ h => h.1) h).state
  rw [hst] at hS
  have hA : Audits cs cfg sign A s := hS
  obtain ⟨sig, hsg⟩ := Option.isSome_iff_exists.1 hsig
  have hw : ∃ raw, s.marshal = .ok raw := by
    rw [marshal_iff]
    constructor
    · obtain ⟨-, -, -, tbs, -, h2⟩ := hA.head sig hsg
      rw [hsg]
      exact hsign tbs sig h2
    · have hne : A ≠ [] := by
        rintro rfl
        have := hA.desc.pos
        simp [log] at this
      obtain ⟨-, r, e2, -⟩ := hA.last _ (List.getLast?_eq_some_getLast hne)
      rw [e2, mem_mergeInserted]
      refine lt_of_le_of_lt (List.length_filter_le _ _) ?_
      rw [List.length_map]
      refine ((exec_updates h).1 _ ?_).2
      rw [← hAu]
      exact List.mem_map.2 ⟨_, List.getLast_mem hne, rfl⟩
  obtain ⟨raw, hraw⟩ := hw
  have := (codec_state cs.hashSize).rt s raw [] (Audits.typed hcs hS hsig) hraw
  rw [List.append_nil] at this
  exact ⟨raw, hraw, this⟩

/-- an execution with a signed state: one update that adds an entry, and a `Commit` whose write fails -/
example : ∃ us kept hs a s, Exec toySuite toyAuditCfg [1] .ok (fun u => UpdateOk toySuite u ∧ u.added.length < 2 ^ 16)
    (fun _ => True) us kept hs a ∧ a.state = some s ∧ s.signature.isSome ∧ s.treeSize = 1 := by
  have hu1 : UpdateOk toySuite ⟨100, [⟨[0x20], [9]⟩], [], ⟨[.nonInclusionParent 0], []⟩⟩ := by
    simp [UpdateOk, AuditorUpdate.Typed, ProofTyped, Each, EntryTyped, ResTyped, Fits, toySuite]
  have e1 := ((Exec.start (cs := toySuite) (cfg := toyAuditCfg) (key := [1]) (sign := .ok)
    (U := fun u => UpdateOk toySuite u ∧ u.added.length < 2 ^ 16) (P := fun _ => True) (a := ⟨none, none⟩) rfl).update
    ⟨hu1, by decide⟩ (by decide)).commit (put := fun _ => goErr "write failed") trivial
  have e2 : ((Audit.commit toySuite toyAuditCfg .ok (fun _ => goErr "write failed")
      (process toySuite toyAuditCfg ⟨100, [⟨[0x20], [9]⟩], [], ⟨[.nonInclusionParent 0], []⟩⟩ ⟨none, none⟩).2).2.state.map
        (fun s => (s.signature.isSome, s.treeSize))) = some (true, 1) := by decide +kernel
  obtain ⟨s, hs, he⟩ := Option.map_eq_some_iff.1 e2
  exact ⟨_, _, _, _, s, e1, hs, (Prod.mk.inj he).1, (Prod.mk.inj he).2⟩

end Katie.Props
