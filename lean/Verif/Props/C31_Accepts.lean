import Verif.Props.C31_C35_Auditor

/-
C31, C32: exactly which updates an auditor accepts, in terms of the updates that it has accepted before.
-/

namespace Katie.AuditSpec
open Katie Katie.Wire Katie.SearchSpec

/-- What an auditor with monitoring window `W` that has accepted the updates `us` demands of the next one, apart from the roots
of the prefix tree. -/
structure Admissible (W : Nat) (us : List AuditorUpdate) (u : AuditorUpdate) : Prop where
  /-- time does not go back -/
  time : ∀ v, us.getLast? = some v → v.timestamp ≤ u.timestamp
  /-- the lists are sorted, without repetitions -/
  added : u.added.Pairwise (fun a b => Prefix.bytesLt a.vrf b.vrf = true)
  removed : u.removed.Pairwise (fun a b => Prefix.bytesLt a.vrf b.vrf = true)
  /-- there is one result for each entry -/
  count : u.proof.results.length = u.added.length + u.removed.length
  /-- an added entry is shown absent, or is removed by the same update -/
  absent : ∀ (i : Nat) e d, u.added[i]? = some e → u.proof.results[i]? = some (.inclusion d) → ∃ x ∈ u.removed, x.vrf = e.vrf
  /-- a removed entry is shown present -/
  present : ∀ i, i < u.removed.length → ∃ d, u.proof.results[u.added.length + i]? = some (.inclusion d)
  /-- entries are removed only after a distinguished log entry; one that was added by the update before, only if that update's
  own log entry is distinguished -/
  eligible : ∀ e ∈ u.removed, ∃ y,
    IsGreatest' (fun y => Distinguished (Wide W) (times (us ++ [u])) (us.length + 1) y ∧ y < us.length) (some y) ∧
    ∀ v, us.getLast? = some v → e.vrf ∈ v.added.map (fun e => e.vrf) → y = us.length - 1

end Katie.AuditSpec

namespace Katie.Props
open Katie Katie.Wire Katie.Audit Katie.AuditSpec Katie.SearchSpec Katie.PrefixSpec

theorem sortedStrictly_iff : ∀ (l : List Prefix.Entry), sortedStrictly l = true ↔
    l.Pairwise (fun a b => Prefix.bytesLt a.vrf b.vrf = true)
  | [] => by simp [sortedStrictly]
  | [a] => by simp [sortedStrictly]
  | a :: b :: l => by
    constructor
    · exact sortedStrictly_pairwise _
    · intro h
      unfold sortedStrictly
      rw [Bool.and_eq_true]
      rw [List.pairwise_cons] at h
      exact ⟨h.1 b List.mem_cons_self, (sortedStrictly_iff (b :: l)).2 h.2⟩

theorem isInclusion_iff (r : Prefix.Res) : r.isInclusion = true ↔ ∃ d, r = .inclusion d := by
  cases r <;> simp [Prefix.Res.isInclusion]

theorem addedAbsent_iff (removed added : List Prefix.Entry) (results : List Prefix.Res) :
    addedAbsent removed added results = true ↔
      ∀ (i : Nat) e d, added[i]? = some e → results[i]? = some (.inclusion d) → ∃ x ∈ removed, x.vrf = e.vrf := by
  unfold addedAbsent
  rw [List.all_eq_true]
  constructor
  · intro h i e d he hr
    have hm : (e, Prefix.Res.inclusion d) ∈ added.zip results := by
      refine List.mem_of_getElem? (i := i) ?_
      rw [List.getElem?_zip_eq_some]
      exact ⟨he, hr⟩
    have := h _ hm
    simp only [Prefix.Res.isInclusion, Bool.not_true, Bool.false_or, List.any_eq_true, beq_iff_eq] at this
    obtain ⟨x, hx, hxe⟩ := this
    exact ⟨x, hx, hxe.symm⟩
  · rintro h ⟨e, r⟩ hm
    obtain ⟨i, hi⟩ := List.mem_iff_getElem?.1 hm
    rw [List.getElem?_zip_eq_some] at hi
    cases r with
    | inclusion d =>
      obtain ⟨x, hx, hxe⟩ := h i e d hi.1 hi.2
      simp only [Prefix.Res.isInclusion, Bool.not_true, Bool.false_or, List.any_eq_true, beq_iff_eq]
      exact ⟨x, hx, hxe.symm⟩
    | _ => simp [Prefix.Res.isInclusion]

theorem present_iff (u : AuditorUpdate) (hc : u.proof.results.length = u.added.length + u.removed.length) :
    (u.proof.results.drop u.added.length).all Prefix.Res.isInclusion = true ↔
      ∀ i, i < u.removed.length → ∃ d, u.proof.results[u.added.length + i]? = some (.inclusion d) := by
  rw [List.all_eq_true]
  constructor
  · intro h i hi
    have hlt : u.added.length + i < u.proof.results.length := by omega
    have := h (u.proof.results[u.added.length + i]) (by
      refine List.mem_of_getElem? (i := i) ?_
      rw [List.getElem?_drop, List.getElem?_eq_getElem hlt])
    obtain ⟨d, hd⟩ := (isInclusion_iff _).1 this
    exact ⟨d, by rw [List.getElem?_eq_getElem hlt, hd]⟩
  · intro h r hr
    obtain ⟨i, hi⟩ := List.mem_iff_getElem?.1 hr
    rw [List.getElem?_drop] at hi
    obtain ⟨d, hd⟩ := h i (by
      have := (List.getElem?_eq_some_iff.1 hi).1
      omega)
    rw [hi] at hd
    cases hd
    rfl

theorem addedSince_false {s : AState} {x : Nat} {v : Bytes} (h : ∀ i ∈ s.inserted, i.vrf = v → i.pos ≤ x) :
    addedSince (some s) x v = false := by
  unfold addedSince
  simp only
  split
  · rfl
  · next e he =>
    have hm := List.mem_of_getElem? he
    by_cases hv : e.vrf = v
    · have := h e hm hv
      simp only [Bool.and_eq_false_iff, decide_eq_false_iff_not]
      right
      omega
    · simp [hv]

/-- the root of the last entry is the one computed from its update -/
theorem chain_last {cs : Log.Suite} {A : List Audited} (h : Chain cs A) {x : Audited} (hx : A.getLast? = some x) :
    x.entry.timestamp = x.update.timestamp ∧
    ∃ b, Prefix.evaluateBeforeAfter cs x.update.added x.update.removed x.update.proof = .ok (b, x.entry.prefixTree) := by
  cases h with
  | nil => cases hx
  | snoc _ _ h2 _ =>
    rw [List.getLast?_concat] at hx
    cases hx
    exact ⟨rfl, _, h2⟩

/-- **C31 and C32**, exactly: an auditor accepts an update if and only if it is `Admissible` after the updates accepted so far, its
proof can be evaluated, and the root before the change is the one that was computed from the update before. -/
theorem C31_accepts_iff {cs : Log.Suite} (hcs : cs.Good) {cfg : Config} {key : Bytes} {sign : Bytes → G Bytes}
    {P : (Bytes → G Unit) → Prop} {us kept : List AuditorUpdate} {hs : List AuditorTreeHead} {a : Auditor}
    (h : Exec cs cfg key sign (UpdateOk cs) P us kept hs a) (u : AuditorUpdate) (hu : UpdateOk cs u)
    (hn : us.length + 1 < 2 ^ 64) :
    (process cs cfg u a).1 = .ok () ↔
      Admissible cfg.rmw us u ∧
      ∃ before after, Prefix.evaluateBeforeAfter cs u.added u.removed u.proof = .ok (before, after) ∧
        ∀ v, us.getLast? = some v → ∃ b, Prefix.evaluateBeforeAfter cs v.added v.removed v.proof = .ok (b, before) := by
  obtain ⟨A, hA, hS⟩ := (exec_inv hcs (fun _ h => h) h).state
  obtain ⟨hd, hg, hch⟩ := hS.desc
  have hsz := hd.size_eq
  have hlenA : us.length = A.length := by rw [← hA]; unfold updates; simp
  rw [log_length] at hsz
  have hnA : size a.state + 1 < 2 ^ 64 := by omega
  -- the last update and the state
  have hlast : ∀ v, us.getLast? = some v ↔ ∃ x, A.getLast? = some x ∧ x.update = v := by
    intro v
    rw [← hA]
    unfold updates
    rw [List.getLast?_map]
    cases A.getLast? with
    | none => simp
    | some x => simp
  have hstate : ∀ s, a.state = some s → ∃ x, A.getLast? = some x ∧ s.timestamp = x.update.timestamp ∧
      s.prefixTree = x.entry.prefixTree ∧ (sortedStrictly x.update.added = true ∧ ∃ r, s.inserted = mergeInserted []
        (x.update.added.map (fun e => ⟨A.length - 1, e.vrf⟩)) r) := by
    intro s hs
    rw [hs] at hS
    have hS : Audits cs cfg sign A s := hS
    have hpos := hS.desc.pos
    rw [log_length] at hpos
    cases hx : A.getLast? with
    | none =>
      rw [List.getLast?_eq_none_iff] at hx
      rw [hx] at hpos
      cases hpos
    | some x =>
      obtain ⟨l1, r, l2, -⟩ := hS.last x hx
      have hl : (log A).getLast? = some x.entry := by unfold log; rw [List.getLast?_map, hx]; rfl
      refine ⟨x, rfl, ?_, hS.desc.root _ hl, l1, r, l2⟩
      rw [hS.desc.time, ← (chain_last hch hx).1]
      rw [List.getLast?_eq_getElem?] at hl
      unfold timeOf
      rw [hl]
  have hnone : a.state = none → A = [] := by
    intro hs
    rw [hs] at hS
    exact hS
  constructor
  · intro hok
    have hel := fun e he => C32_last_update_partial hcs h u hu hnA hok e he
    unfold process at hok
    cases hp : processed cs cfg a.state u with
    | error e => rw [hp] at hok; cases hok
    | ok s' =>
      obtain ⟨c1, c2, c3, c4, c5, c6, r, p, before, after, -, -, -, hev, c9, -⟩ := processed_ok.1 hp
      refine ⟨⟨?_, (sortedStrictly_iff _).1 c2, (sortedStrictly_iff _).1 c3, c4, (addedAbsent_iff _ _ _).1 c5,
        (present_iff u c4).1 c6, hel⟩, before, after, hev, ?_⟩
      · intro v hv
        cases hs : a.state with
        | none =>
          obtain ⟨x', hx', -⟩ := (hlast v).1 hv
          rw [hnone hs] at hx'
          cases hx'
        | some s =>
          obtain ⟨x, hx, h1, -⟩ := hstate s hs
          obtain ⟨x', hx', rfl⟩ := (hlast v).1 hv
          rw [hx] at hx'
          cases hx'
          rw [← h1]
          exact c1 s hs
      · intro v hv
        obtain ⟨x', hx', rfl⟩ := (hlast v).1 hv
        cases hs : a.state with
        | none => rw [hnone hs] at hx'; cases hx'
        | some s =>
          obtain ⟨x, hx, -, h2, -⟩ := hstate s hs
          rw [hx] at hx'
          cases hx'
          rw [c9 s hs, h2]
          exact (chain_last hch hx).2
  · rintro ⟨had, before, after, hev, hroot⟩
    have ht : ∀ s, a.state = some s → s.timestamp ≤ u.timestamp := by
      intro s hs
      obtain ⟨x, hx, h1, -⟩ := hstate s hs
      rw [h1]
      exact had.time _ ((hlast _).2 ⟨x, hx, rfl⟩)
    obtain ⟨r, p, h1, h2, h3⟩ := previousRightmost_spec (cfg := cfg) hd (good_next [] hd hg hu.1 ht) (by rw [log_length]; omega)
    obtain ⟨r', s', h4, -⟩ := updateState_spec hcs (cfg := cfg) (p := p) (e := ⟨u.timestamp, after⟩) u.added hd
      (good_next after hd hg hu.1 ht) (by rw [log_length]; omega) (by intro y hy; rw [timeOf_root _ _ _ []]; exact h3 y hy)
    have hgr : ∀ y, IsGreatest' (fun y => Distinguished (Wide cfg.rmw) (times (us ++ [u])) (us.length + 1) y ∧ y < us.length) (some y) →
        r = some y := by
      intro y hy
      rw [← hA, times_next hch u [], hA, hlenA] at hy
      rw [log_length] at h2
      cases r with
      | none => exact absurd hy.1 (h2 y)
      | some z =>
        have a1 := hy.2 z h2.1
        have a2 := h2.2 y hy.1
        congr 1
        omega
    have hp : processed cs cfg a.state u = .ok s' := by
      refine processed_ok.2 ⟨ht, (sortedStrictly_iff _).2 had.added, (sortedStrictly_iff _).2 had.removed, had.count,
        (addedAbsent_iff _ _ _).2 had.absent, (present_iff u had.count).2 had.present, r, p, before, after, h1, ?_, ?_, hev, ?_, h4⟩
      · intro hr
        cases hrem : u.removed with
        | nil => rfl
        | cons e l =>
          obtain ⟨y, hy, -⟩ := had.eligible e (by rw [hrem]; exact List.mem_cons_self)
          have := hgr y hy
          rw [hr] at this
          cases this
      · intro e he
        obtain ⟨y, hy, hy2⟩ := had.eligible e he
        rw [hgr y hy]
        cases hs : a.state with
        | none =>
          have := hy.1.2
          rw [hlenA, hnone hs] at this
          cases this
        | some s =>
          obtain ⟨x, hx, -, -, -, r0, hins⟩ := hstate s hs
          refine addedSince_false ?_
          intro i hi hv
          rw [hins, mem_mergeInserted, List.mem_filter, List.mem_map] at hi
          obtain ⟨⟨e', he', rfl⟩, -⟩ := hi
          have := hy2 x.update ((hlast _).2 ⟨x, hx, rfl⟩) (List.mem_map.2 ⟨e', he', hv⟩)
          show A.length - 1 ≤ y
          omega
      · intro s hs
        obtain ⟨x, hx, -, h2, -⟩ := hstate s hs
        obtain ⟨b, hb⟩ := hroot _ ((hlast _).2 ⟨x, hx, rfl⟩)
        obtain ⟨b', hb'⟩ := (chain_last hch hx).2
        rw [hb] at hb'
        rw [h2]
        exact (Prod.mk.inj (Except.ok.inj hb')).2
    unfold process
    rw [hp]

/-- the removal of `C32_recent_removal_accepted` is admissible -/
example : Admissible 10 toyUpdates toyRemoval ∧ toyRemoval.removed ≠ [] := by
  obtain ⟨s, h1, h2, -⟩ := C32_recent_removal_accepted
  exact ⟨((C31_accepts_iff toySuite_good h1 toyRemoval (toyUpdates_ok toyRemoval (by simp)) (by decide)).1 h2).1, by decide⟩

/-- an update that goes back in time is not, and is refused -/
example : ∃ s, Exec toySuite toyAuditCfg [1] .ok (UpdateOk toySuite) (fun _ => True) toyUpdates [] [] ⟨some s, none⟩ ∧
    (process toySuite toyAuditCfg { toyRemoval with timestamp := 0 } ⟨some s, none⟩).1 ≠ .ok () := by
  obtain ⟨s, h1, h2, -⟩ := C32_recent_removal_accepted
  refine ⟨s, h1, fun hc => ?_⟩
  have hu := toyUpdates_ok toyRemoval (by simp)
  have := ((C31_accepts_iff toySuite_good h1 { toyRemoval with timestamp := 0 } ⟨by show (0 : Nat) < 256 ^ 8; decide, hu.2⟩ (by decide)).1 hc).1.time
  exact absurd (this _ rfl) (by decide)

end Katie.Props
