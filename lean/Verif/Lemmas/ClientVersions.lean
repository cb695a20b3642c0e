import Verif.Lemmas.MonitorSound

/-
The versions known to the verifier of a client: algorithms do not change them, and version 0 is always among those of a ladder.
-/

namespace Katie.Alg
open Katie Katie.Wire Katie.Ladder Prog

section
variable {cs : Log.Suite}

theorem received_getTimestamp_versions (x : Nat) (p : Provider Received) :
    (p.getTimestamp (Received.handle cs) x).2.state.versions = p.state.versions := by
  unfold Provider.getTimestamp
  cases p.timestamps.lookup x with
  | some t => rfl
  | none =>
    simp only [Received.handle, Received.getTs]
    cases p.state.inner.timestamps with
    | nil => rfl
    | cons t rest =>
      simp only
      cases addTimestamp p.timestamps x t <;> rfl

theorem received_viaRoot_versions {β : Type} {x : Nat} {f : Received → G (Bytes × β) × Received}
    (hf : ∀ s, (f s).2.versions = s.versions) (p : Provider Received) :
    (viaRoot (Received.handle cs) x f p).2.state.versions = p.state.versions := by
  unfold viaRoot
  have h1 := received_getTimestamp_versions (cs := cs) x p
  revert h1
  generalize p.getTimestamp (Received.handle cs) x = r
  obtain ⟨r1, p'⟩ := r
  intro h1
  cases r1 with
  | error e => exact h1
  | ok t =>
    simp only at h1 ⊢
    have h2 := hf p'.state
    revert h2
    generalize f p'.state = o
    obtain ⟨o1, s'⟩ := o
    intro h2
    cases o1 with
    | error e => exact h2.trans h1
    | ok ra =>
      simp only
      have : ∀ q : Provider Received, (Provider.record x ra.1 ra.2 q).2.state = q.state := by
        intro q
        unfold Provider.record
        cases addPrefixTree q.prefixTrees x ra.1 <;> rfl
      rw [this]; exact h2.trans h1

theorem received_answer_versions (q : Req) (p : Provider Received) :
    (p.answer (Received.handle cs) q).2.state.versions = p.state.versions := by
  cases q with
  | ts x => exact received_getTimestamp_versions x p
  | search x v om =>
    rw [show p.answer (Received.handle cs) (.search x v om) = viaRoot (Received.handle cs) x _ p from getSearch_eq _ x v om p]
    refine received_viaRoot_versions (fun s => ?_) p
    simp only [Received.handle, Received.search]
    split
    · rfl
    split <;> rfl
  | monitor x v =>
    rw [show p.answer (Received.handle cs) (.monitor x v) = viaRoot (Received.handle cs) x _ p from getMonitor_eq _ x v p]
    refine received_viaRoot_versions (fun s => ?_) p
    simp only [withUnit, Received.handle, Received.monitor]
    cases s.inner.prefixProofs with
    | nil => rfl
    | cons pf rest => cases h : Received.evalMonitor cs s.versions v pf <;> simp only [h] <;> rfl
  | incl x vers =>
    rw [show p.answer (Received.handle cs) (.incl x vers) = _ from getIncl_eq (Received.handle cs) x vers p]
    split
    · rfl
    refine received_viaRoot_versions (fun s => ?_) p
    simp only [withUnit, Received.handle, Received.incl]
    cases s.inner.prefixProofs with
    | nil => rfl
    | cons pf rest => cases h : Received.evalIncl cs s.versions vers pf <;> simp only [h] <;> rfl
  | stop x v => rfl
  | addLadder x om g l => rfl

/-- an algorithm does not change the known versions -/
theorem received_run_versions {α : Type} (prog : Prog α) (p : Provider Received) :
    (p.run (Received.handle cs) prog).2.state.versions = p.state.versions := by
  induction prog generalizing p with
  | ret r => rfl
  | op q k ih => exact (ih _ _).trans (received_answer_versions q p)

end
end Katie.Alg

namespace Katie.Ladder
open Katie

theorem rise_zero {fuel n : Nat} {l : List Nat} (h : rise fuel 0 n = .ok l) : ∃ r, l = 0 :: r := by
  cases fuel with
  | zero => cases h
  | succ fuel =>
    unfold rise at h
    simp only at h
    split at h
    · cases h; exact ⟨[], rfl⟩
    · obtain ⟨r, -, h⟩ := G.bind_eq_ok.1 h
      cases h
      exact ⟨r, rfl⟩

/-- every ladder starts with version 0 -/
theorem baseBinaryLadder_zero {n : Nat} {l : List Nat} (h : baseBinaryLadder n = .ok l) : ∃ r, l = 0 :: r := by
  unfold baseBinaryLadder baseLadderFuel at h
  obtain ⟨o, h1, h⟩ := G.bind_eq_ok.1 h
  obtain ⟨r, rfl⟩ := rise_zero h1
  split at h
  · obtain ⟨rest, -, h⟩ := G.bind_eq_ok.1 h
    cases h
    exact ⟨r ++ rest, rfl⟩
  · cases h

theorem searchBinaryLadder_zero {t n : Nat} {l : List Nat} (h : searchBinaryLadder t n [] [] = .ok l) : 0 ∈ l := by
  unfold searchBinaryLadder at h
  obtain ⟨b, h1, h⟩ := G.bind_eq_ok.1 h
  cases h
  obtain ⟨r, rfl⟩ := baseBinaryLadder_zero h1
  simp [searchLoop]

theorem monitoringBinaryLadder_zero {t : Nat} {l : List Nat} (h : monitoringBinaryLadder t = .ok l) : 0 ∈ l := by
  unfold monitoringBinaryLadder at h
  obtain ⟨b, h1, h⟩ := G.bind_eq_ok.1 h
  cases h
  obtain ⟨r, rfl⟩ := baseBinaryLadder_zero h1
  simp

end Katie.Ladder

namespace Katie.Client
open Katie Katie.Wire Katie.Alg Katie.Ladder Katie.Server

theorem insertNat_mem {a v : Nat} {l : List Nat} : a ∈ insertNat v l ↔ a = v ∨ a ∈ l := by
  induction l with
  | nil => simp [insertNat]
  | cons b l ih =>
    unfold insertNat
    split
    · simp
    split
    · next h1 h2 => subst h2; simp
    · simp only [List.mem_cons, ih]
      constructor
      · rintro (h | h | h) <;> simp [h]
      · rintro (h | h | h) <;> simp [h]

theorem sortedSet_mem {a : Nat} {l : List Nat} : a ∈ sortedSet l ↔ a ∈ l := by
  unfold sortedSet
  induction l with
  | nil => simp
  | cons b l ih => simp [insertNat_mem, ih]

theorem allLadderVersions_zero {vs l : List Nat} (h : allLadderVersions vs = .ok l) : 0 ∈ l := by
  unfold allLadderVersions at h
  obtain ⟨a, -, h⟩ := G.bind_eq_ok.1 h
  cases h
  exact sortedSet_mem.2 (by simp)

/-- adding a version makes it known and keeps the others -/
theorem addVersion_known {env : CEnv} {v w : Verifier} {ver : Nat} {vrf : Bytes} {com : Option Bytes}
    (h : v.addVersion env ver vrf com = .ok w) :
    v.p.state.versions.lookup ver = none ∧ w.p.state.versions = (ver, ⟨vrf, com⟩) :: v.p.state.versions := by
  unfold Verifier.addVersion at h
  obtain ⟨s, h5, h4⟩ := G.bind_eq_ok.1 h
  have h4 := Except.ok.inj h4
  subst h4
  unfold Received.addVersion at h5
  obtain ⟨vs, h6, h5⟩ := G.bind_eq_ok.1 h5
  have h5 := Except.ok.inj h5
  subst h5
  unfold Alg.addVersion at h6
  split at h6
  · cases h6
  split at h6
  · cases h6
  split at h6
  · cases h6
  next hn =>
  cases h6
  exact ⟨by cases hx : v.p.state.versions.lookup ver with
    | none => rfl
    | some y => rw [hx] at hn; simp at hn, rfl⟩

theorem addVersion_errs {env : CEnv} {v : Verifier} {ver : Nat} {vrf : Bytes} {com : Option Bytes} {f : Fault}
    (h : v.addVersion env ver vrf com = .error f) : ∃ m, f = .err m := by
  unfold Verifier.addVersion Received.addVersion Alg.addVersion at h
  split at h
  · cases h; exact ⟨_, rfl⟩
  split at h
  · cases h; exact ⟨_, rfl⟩
  split at h
  · cases h; exact ⟨_, rfl⟩
  · cases h

/-- the versions of the steps are known afterwards -/
theorem processSteps_known {env : CEnv} {label : Bytes} {manual : List (Nat × Bytes)}
    (l : List (Nat × BinaryLadderStep)) (v w : Verifier) (h : processSteps env label manual l v = .ok w) :
    ∀ ver, ver ∈ l.map Prod.fst ∨ (v.p.state.versions.lookup ver).isSome → (w.p.state.versions.lookup ver).isSome := by
  induction l generalizing v with
  | nil =>
    cases h
    rintro ver (h | h)
    · cases h
    · exact h
  | cons e l ih =>
    obtain ⟨ver, step⟩ := e
    unfold processSteps at h
    obtain ⟨i, h1, h⟩ := G.bind_eq_ok.1 h
    obtain ⟨o, h2, h⟩ := G.bind_eq_ok.1 h
    obtain ⟨c, h3, h⟩ := G.bind_eq_ok.1 h
    obtain ⟨u, h4, h⟩ := G.bind_eq_ok.1 h
    have h5 := (addVersion_known h4).2
    intro y hy
    apply ih _ h y
    simp only [List.map_cons, List.mem_cons] at hy
    rw [h5, List.lookup_cons]
    by_cases e : y = ver
    · subst e; simp
    · simp only [beq_eq_false_iff_ne.2 e]
      rcases hy with (hy | hy) | hy
      · exact absurd hy e
      · exact Or.inl hy
      · exact Or.inr hy

theorem processLadder_known {env : CEnv} {label : Bytes} {ladder : List BinaryLadderStep} {vers : List Nat}
    {manual : List (Nat × Bytes)} {v w : Verifier} (h : processLadder env label ladder vers manual v = .ok w) {ver : Nat} (hv : ver ∈ vers) :
    (w.p.state.versions.lookup ver).isSome := by
  unfold processLadder at h
  split at h
  · cases h
  next hl =>
  refine processSteps_known _ _ _ h ver (Or.inl ?_)
  have : (vers.zip ladder).map Prod.fst = vers := List.map_fst_zip (by omega)
  rw [this]
  exact hv

theorem run_known {α : Type} {env : CEnv} {prog : Prog α} {v w : Verifier} {a : α} (h : v.run env prog = .ok (a, w)) :
    w.p.state.versions = v.p.state.versions := by
  have h1 := (run_frame h).2
  have h2 := received_run_versions (cs := env.cs) prog v.p
  rw [h1] at h2
  exact h2

theorem updateView_known {env : CEnv} {now : Nat} {v w : Verifier} (h : v.updateView env now = .ok w) :
    w.p.state.versions = v.p.state.versions := by
  unfold Verifier.updateView at h
  obtain ⟨⟨_, u⟩, h1, h⟩ := G.bind_eq_ok.1 h
  cases h
  exact run_known h1

theorem verifierFinish_known {env : CEnv} {v w : Verifier} {s : ClientState} (h : v.finish env = .ok (s, w)) :
    w.p.state.versions = v.p.state.versions := by
  unfold Verifier.finish at h
  split at h
  · cases h
  next result p hf =>
  obtain ⟨root, -, h⟩ := G.bind_eq_ok.1 h
  obtain ⟨rootP, -, h⟩ := G.bind_eq_ok.1 h
  obtain ⟨u, h1, h⟩ := G.bind_eq_ok.1 h
  obtain ⟨up, -, h⟩ := G.bind_eq_ok.1 h
  cases h
  rw [verifyTreeHead_versions h1]
  exact finish_versions hf

/-- after a search has been verified version 0 is known -/
theorem verifySearch_zero {env : CEnv} {now : Nat} {state : Option ClientState} {req : SearchRequest} {res : SearchResponse}
    {t : Nat} {s : ClientState} {v : Verifier} (h : verifySearch env now state req res = .ok (t, s, v)) :
    (v.p.state.versions.lookup 0).isSome := by
  unfold verifySearch at h
  obtain ⟨v0, -, h⟩ := G.bind_eq_ok.1 h
  obtain ⟨target, -, h⟩ := G.bind_eq_ok.1 h
  obtain ⟨_, -, h⟩ := G.bind_eq_ok.1 h
  obtain ⟨ladder, hl, h⟩ := G.bind_eq_ok.1 h
  obtain ⟨com, -, h⟩ := G.bind_eq_ok.1 h
  obtain ⟨v1, h1, h⟩ := G.bind_eq_ok.1 h
  obtain ⟨v2, h2, h⟩ := G.bind_eq_ok.1 h
  obtain ⟨⟨t', v3⟩, h3, h⟩ := G.bind_eq_ok.1 h
  obtain ⟨⟨s', v4⟩, h4, h⟩ := G.bind_eq_ok.1 h
  cases h
  rw [verifierFinish_known h4, run_known h3, updateView_known h2]
  exact processLadder_known h1 (searchBinaryLadder_zero hl)

/-- adding retained versions fails, with an error, if one of them is known already -/
theorem addRetainedVersions_refused {env : CEnv} : ∀ (rs : List RetainedVersion) (v : Verifier),
    (∃ r ∈ rs, (v.p.state.versions.lookup r.version).isSome) → ∃ m, addRetainedVersions env rs v = goErr m
  | [], v, h => by obtain ⟨r, hr, -⟩ := h; cases hr
  | e :: rest, v, h => by
    unfold addRetainedVersions
    cases h1 : v.addVersion env e.version e.vrfOutput e.commitment with
    | error f =>
      obtain ⟨m, rfl⟩ := addVersion_errs h1
      exact ⟨m, rfl⟩
    | ok w =>
      obtain ⟨h2, h3⟩ := addVersion_known h1
      rw [G.ok_bind]
      refine addRetainedVersions_refused rest w ?_
      obtain ⟨r, hr, hs⟩ := h
      rcases List.mem_cons.1 hr with rfl | hr
      · rw [h2] at hs; cases hs
      · refine ⟨r, hr, ?_⟩
        rw [h3, List.lookup_cons]
        split
        · rfl
        · exact hs

/-- what is retained for a monitored label contains version 0 -/
theorem updateRetainedVersions_zero {ls ls' : ClientLabelState} {s : Received} (h : updateRetainedVersions ls s = .ok ls')
    (hc : ls.contact ≠ [] ∨ ls.owner ≠ none) : ∃ r ∈ ls'.versions, r.version = 0 := by
  unfold updateRetainedVersions at h
  obtain ⟨a, ha, h⟩ := G.bind_eq_ok.1 h
  obtain ⟨b, hb, h⟩ := G.bind_eq_ok.1 h
  obtain ⟨vs, h1, h⟩ := G.bind_eq_ok.1 h
  have h := Except.ok.inj h
  subst h
  have h2 := (retainAll_mem h1).2
  have h3 : 0 ∈ sortedSet (a ++ b) := by
    refine sortedSet_mem.2 (List.mem_append.2 ?_)
    rcases hc with hc | hc
    · left
      cases hl : ls.contact with
      | nil => exact absurd hl hc
      | cons e rest =>
        rw [hl] at ha
        unfold contactRequired at ha
        obtain ⟨l, h4, ha⟩ := G.bind_eq_ok.1 ha
        obtain ⟨more, -, ha⟩ := G.bind_eq_ok.1 ha
        cases ha
        exact List.mem_append_left _ (monitoringBinaryLadder_zero h4)
    · right
      cases ho : ls.owner with
      | none => exact absurd ho hc
      | some o =>
        rw [ho] at hb
        exact allLadderVersions_zero hb
  rw [← h2] at h3
  obtain ⟨r, hr, hr0⟩ := List.mem_map.1 h3
  exact ⟨r, hr, hr0⟩

end Katie.Client
