import Verif.Lemmas.ReceiveMonitor
import Verif.Lemmas.OwnerUpdate

/-
The verification of the response to an update, whatever the response is.
-/

namespace Katie.Alg
open Katie Prog SearchTree SearchSpec Katie.Client

theorem mild_of_ts {α : Type} {n : Nat} {p : Prog α} {Q : α → Prop} {F : Fault → Prop} (h : Spec p (fun q => ∃ x, q = .ts x ∧ x < n) Q F) :
    Spec p Mild Q F :=
  h.imp (fun q hq => by obtain ⟨x, rfl, -⟩ := hq; trivial) (fun _ h => h) (fun _ h => h)

theorem nonDistLoop_mild {cfg : Config} {n target : Nat} : ∀ (fuel lo hi : Nat) (anc : List Nat) (l r : Nat), At n lo hi anc → lo ≤ target → target < hi → hi - lo < fuel →
    Spec (nonDistLoop cfg n target fuel (rt lo hi) l r) Mild
      (fun r => ∀ x, r = some x → ∃ lo hi anc, x = rt lo hi ∧ At n lo hi anc ∧ lo ≤ target ∧ target < hi) IsErr := by
  intro fuel
  induction fuel with
  | zero => intro lo hi anc l r h _ _ hf; omega
  | succ fuel ih =>
    intro lo hi anc l r h h1 h2 hf
    have hb := h.bounds
    unfold nonDistLoop
    refine .ite (fun _ => .pure ?_) (fun _ => .ite (fun _ => .pure (by simp)) (fun hne => .bindT (.call trivial) (fun t => ?_)))
    · intro x hx
      cases hx
      exact ⟨lo, hi, anc, rfl, h, h1, h2⟩
    · refine .ite (fun hlt => ?_) (fun hlt => ?_)
      · refine .bind (Q := fun c => c = rt (rt lo hi + 1) hi) (.lift_ok (right_rt h (by omega)) rfl) ?_
        rintro c rfl
        exact ih _ _ _ _ _ (.right h (by omega)) (by omega) h2 (by omega)
      · refine .bind (Q := fun c => c = rt lo (rt lo hi)) (.lift_ok (by rw [left_rt h, if_pos (by omega)]) rfl) ?_
        rintro c rfl
        exact ih _ _ _ _ _ (.left h (by omega)) h1 (by omega) (by omega)

theorem nonDistinguishedAncestor_mild {m : Monitor} {target : Nat} (h0 : target < m.treeSize) :
    Spec (nonDistinguishedAncestor m target) Mild
      (fun r => ∀ x, r = some x → ∃ lo hi anc, x = rt lo hi ∧ At m.treeSize lo hi anc ∧ lo ≤ target ∧ target < hi) IsErr := by
  unfold nonDistinguishedAncestor
  refine .bindT (.call trivial) (fun t => ?_)
  rw [root_eq (by omega)]
  exact nonDistLoop_mild _ 0 _ [] _ _ (.root (by omega)) (by omega) h0 (by omega)

theorem previousTreeLoop_mild {pos lastUpdate : Nat} {greatest : Int} (hg : greatest < 2 ^ 31 - 1) : ∀ (fuel lo : Nat) (anc : List Nat), At pos lo pos anc → pos - lo < fuel →
    Spec (previousTreeLoop pos lastUpdate greatest fuel (rt lo pos)) Mild (fun _ => True) IsErr := by
  intro fuel
  induction fuel with
  | zero => intro lo anc h hf; omega
  | succ fuel ih =>
    intro lo anc h hf
    have hb := h.bounds
    unfold previousTreeLoop
    refine .bindT (.ite (fun _ => .pure trivial) (fun _ => expectLadder_mild hg)) (fun _ => .ite (fun _ => .pure trivial) (fun hne => ?_))
    refine .bind (Q := fun c => c = rt (rt lo pos + 1) pos) (.lift_ok (right_rt h (by omega)) rfl) ?_
    rintro c rfl
    exact ih _ _ (.right h (by omega)) (by omega)

theorem prepareTracker_mild {pos x lo : Nat} {anc : List Nat} {o : Owner} (h : At pos lo pos anc) (hx : rt lo pos = x) (hg : o.greatest < 2 ^ 31 - 1) :
    Spec (prepareTracker o pos x) Mild (fun _ => True) IsErr := by
  have hb := h.bounds
  unfold prepareTracker
  refine .ite (fun _ => .pure trivial) (fun hneg => ?_)
  simp only []
  obtain ⟨base, hbase, -⟩ := Ladder.baseBinaryLadder_ok (n := o.greatest.toNat % 2 ^ 32) (by omega)
  have hl : Ladder.searchBinaryLadder (o.greatest.toNat % 2 ^ 32) (o.greatest.toNat % 2 ^ 32) [] [] =
      .ok (Ladder.searchLoop (o.greatest.toNat % 2 ^ 32) (o.greatest.toNat % 2 ^ 32) [] [] base) := by
    unfold Ladder.searchBinaryLadder
    rw [hbase]; rfl
  refine .bindT (.lift_ok hl trivial) (fun ladder => .ite (fun hne => ?_) (fun _ => .call trivial))
  have hp : ∃ p, parent x pos = .ok p := by
    cases anc with
    | nil =>
      exfalso
      cases h
      exact hne (by rw [root_eq (by omega), hx])
    | cons a anc =>
      refine ⟨a, ?_⟩
      rw [← hx]; exact h.parent
  obtain ⟨p, hp1⟩ := hp
  refine .bind (Q := fun c => c = p) (.lift_ok hp1 rfl) ?_
  rintro c rfl
  exact .bindT (.call trivial) (fun _ => .call trivial)

theorem verifyPreviousTree_mild {m : Monitor} {o : Owner} {pos : Nat} (h0 : 0 < pos) (hp : pos < m.treeSize) (hg : o.greatest < 2 ^ 31 - 1) :
    Spec (verifyPreviousTree m o pos) Mild (fun _ => True) IsErr := by
  unfold verifyPreviousTree
  rw [if_neg (by omega)]
  refine .bind (nonDistinguishedAncestor_mild (by omega)) ?_
  intro r hr
  cases r with
  | none => exact .pure trivial
  | some x =>
    obtain ⟨lo, hi, anc, rfl, hAt, h1, h2⟩ := hr x rfl
    obtain ⟨hi', anc', hl, hAt', h3, h4⟩ := leftUntil_eq h0 (rt lo hi + 1) lo hi anc hAt (by omega) (by omega) (by omega)
    simp only []
    refine .bind (Q := fun c => c = rt lo hi') (.lift_ok hl rfl) ?_
    rintro c rfl
    have hb' := hAt'.bounds
    have hsh := at_shrink hAt (pos := pos) (by omega) (by omega)
    have e := rt_shrink (by omega) h3 h4
    refine .bindT (prepareTracker_mild hsh e hg) (fun _ => ?_)
    rw [← e]
    exact previousTreeLoop_mild hg _ _ _ hsh (by omega)

/-- the result of `Update`: the new versions are at the given position, and the monitoring map may have an entry for it -/
structure Updated (m : Monitor) (o : Owner) (k : Nat) (m' : Monitor) : Prop where
  owner : ∃ up, m'.owner = some ⟨o.starting, o.verAtStarting, up⟩ ∧ up.length = o.upcoming.length + k
  contact : ∃ c, m'.contact = some c ∧ Keys c ∧ ∀ e ∈ c, e.1 < m.treeSize ∧ e.2 < 2 ^ 31 - 1

theorem monitorUpdate_mild {m : Monitor} {o : Owner} {c : PMap} {pos k : Nat} (hm : m.owner = some o) (hc : m.contact = some c) (hk : Keys c)
    (hcs : ∀ e ∈ c, e.1 < m.treeSize ∧ e.2 < 2 ^ 31 - 1) (hl : -1 ≤ o.verAtStarting) (hg : o.greatest + k < 2 ^ 31 - 1) :
    Spec (monitorUpdate m pos k) Mild (Updated m o k) IsErr := by
  have hgr : o.greatest = o.verAtStarting + o.upcoming.length := rfl
  unfold monitorUpdate
  rw [hm]
  simp only []
  refine .ite (fun _ => .fail ⟨_, rfl⟩) (fun h1 => .ite (fun _ => .fail ⟨_, rfl⟩) (fun h2 => .ite (fun _ => .fail ⟨_, rfl⟩) (fun h3 =>
    .ite (fun _ => .fail ⟨_, rfl⟩) (fun h4 => ?_))))
  have hend : (o.greatest + (k : Int)).toNat < 2 ^ 31 - 1 := by omega
  obtain ⟨l, hl1, -⟩ := Server.ladder_self hend
  refine .bindT (.lift_ok hl1 trivial) (fun ladder => .bindT (verifyPreviousTree_mild (by omega) (by omega) (by omega)) (fun _ => ?_))
  refine .bindT (nonDistinguishedAncestor_mild (by omega)).trueQ (fun res => ?_)
  have hup : ∃ up, (some ({ o with upcoming := o.upcoming ++ List.replicate (k : Int).toNat pos } : Owner)) = some ⟨o.starting, o.verAtStarting, up⟩ ∧
      up.length = o.upcoming.length + k := ⟨_, rfl, by simp⟩
  refine .ite (fun _ => .bindT (.call trivial) (fun _ => .pure ⟨hup, c, hc, hk, hcs⟩)) (fun _ => ?_)
  refine .bindT (.call hend) (fun r => .ite (fun _ => .fail ⟨_, rfl⟩) (fun _ => .bindT (.call trivial) (fun _ => .pure ⟨hup, _, rfl, ?_, ?_⟩)))
  · rw [hc]
    exact hk.set _ _
  · rw [hc]
    intro e he
    rcases mem_set.1 he with rfl | ⟨he, -⟩
    · exact ⟨by simp only; omega, hend⟩
    · exact hcs e he

end Katie.Alg

namespace Katie.Client
open Katie Katie.Wire Katie.Alg Katie.Ladder Katie.Server Katie.Prefix Katie.SearchTree Katie.ContactSpec

section
variable {env : CEnv} {s : ClientState}

theorem updateCommitments_calm (hk : Keyed env.cfg) {label : Bytes} {start : Nat} : ∀ {i : Nat} {l : List (Bytes × UpdateInfo)},
    Calm (updateCommitments env label start i l)
  | _, [] => .pure
  | i, (val, info) :: l => by
    unfold updateCommitments
    exact .bind (verifyUpdateValue_calm hk) (fun _ _ => .bind computeCommitment_calm (fun _ _ =>
      .bind (updateCommitments_calm hk) (fun _ _ => .pure)))

theorem noNewCommitments_calm {start : Nat} : ∀ {vers : List Nat} {steps : List BinaryLadderStep}, vers.length ≤ steps.length →
    Calm (noNewCommitments start vers steps)
  | [], _, _ => .pure
  | ver :: vers, [], h => by simp at h
  | ver :: vers, s :: steps, h => by
    unfold noNewCommitments
    exact .ite (fun _ => .err) (fun _ => noNewCommitments_calm (by simpa using h))

theorem noNewCommitments_index {start : Nat} : ∀ {vers : List Nat} {steps : List BinaryLadderStep} {f : Fault},
    noNewCommitments start vers steps = .error f → IsErr f ∨ f = .panic "index out of range"
  | [], _, f, h => by cases h
  | ver :: vers, [], f, h => by
    unfold noNewCommitments at h
    by_cases hc : ver ≥ start
    · rw [if_pos hc] at h
      cases h
      exact .inr rfl
    · rw [if_neg hc] at h
      exact noNewCommitments_index h
  | ver :: vers, s :: steps, f, h => by
    unfold noNewCommitments at h
    by_cases hc : ver ≥ start ∧ s.commitment ≠ none
    · rw [if_pos hc] at h
      cases h
      exact .inl ⟨_, rfl⟩
    · rw [if_neg hc] at h
      exact noNewCommitments_index h

/-- the first new version -/
def firstNew (o : LabelOwnerState) : Nat := (o.verAtStarting + o.upcomingVers.length + 1).toNat

theorem verifyValues_safe (hk : Keyed env.cfg) {sv : Stream} {o : LabelOwnerState} (ho : sv.ls.owner = some o)
    (h1 : -1 ≤ o.verAtStarting) {values : List Bytes} {res : UpdateResponse}
    (h2 : o.verAtStarting + o.upcomingVers.length + res.info.length < 2 ^ 31 - 1) :
    Safe (fun r => 0 < res.info.length ∧ r.1 = firstNew o) (verifyValues env sv values res) := by
  unfold verifyValues
  refine .ite (fun _ => .err) (fun hc => ?_)
  rw [ho]
  refine (Safe.of_calm (updateCommitments_calm hk)).bind (fun coms _ => .pure ⟨?_, ?_⟩)
  · by_contra h
    exact hc (.inl (by omega))
  · unfold greatestVersion firstNew
    by_cases hg : o.verAtStarting + (o.upcomingVers.length : Int) ≥ 0
    · simp only [if_pos hg]
      rw [Nat.mod_eq_of_lt (a := Int.toNat _) (by omega), Nat.mod_eq_of_lt (by omega)]
      omega
    · simp only [if_neg hg]
      omega

/-- everything but the check that is made before the length of the ladder is known -/
theorem update_safe (he : Equipped env) {now : Nat} {sv : Stream} (hst : sv.state = some s) (hs : Stated s) {o : LabelOwnerState}
    (ho : sv.ls.owner = some o) {res : UpdateResponse} {st : CStore} (hf : Formed env res.fullTreeHead res.update)
    (h2 : o.verAtStarting + o.upcomingVers.length + res.info.length < 2 ^ 31 - 1) (hls : Modest s sv.ls) :
    ∀ f, sv.verify env now res st = .error f → IsErr f ∨ (f = .panic "index out of range" ∧
      ∃ ladder, updateLadderVersions (firstNew o) (firstNew o + (res.info.length - 1)) = .ok ladder ∧ res.binaryLadder.length < ladder.length) := by
  obtain ⟨ho1, ho2⟩ := hls.owner o ho
  intro f hfault
  unfold Stream.verify at hfault
  have hvv := verifyValues_safe he.keyed ho ho1 (values := if res.values.length = 0 then sv.req.values else res.values) h2
  cases hv1 : verifyValues env sv (if res.values.length = 0 then sv.req.values else res.values) res with
  | error e =>
    rw [hv1] at hfault
    cases hfault
    exact .inl (hvv.1 _ hv1)
  | ok r =>
    obtain ⟨start, coms⟩ := r
    obtain ⟨h0, hstart⟩ := hvv.2 _ hv1
    simp only at hstart
    rw [hv1, G.ok_bind] at hfault
    simp only at hfault
    have hfn : firstNew o < 2 ^ 31 ∧ firstNew o + (res.info.length - 1) < 2 ^ 31 - 1 := by
      unfold firstNew
      omega
    rw [hstart, Nat.mod_eq_of_lt (by omega)] at hfault
    cases hlad : updateLadderVersions (firstNew o) (firstNew o + (res.info.length - 1)) with
    | error e =>
      rw [hlad] at hfault
      cases hfault
      exact .inl (updateLadderVersions_calm hfn.1 hfn.2 _ hlad)
    | ok ladder =>
      rw [hlad, G.ok_bind] at hfault
      cases hnn : noNewCommitments (firstNew o) ladder res.binaryLadder with
      | error e =>
        rw [hnn] at hfault
        cases hfault
        rcases noNewCommitments_index hnn with h | h
        · exact .inl h
        · refine .inr ⟨h, ladder, rfl, ?_⟩
          by_contra hlen
          obtain ⟨m, hm⟩ := noNewCommitments_calm (Nat.le_of_not_lt hlen) _ hnn
          rw [hm] at h
          cases h
      | ok u =>
        rw [hnn, G.ok_bind, hst] at hfault
        refine .inl (Safe.bind (P := Going env s) (Q := fun _ => True) (newVerifier_safe hs.lt hf.head hf.proofs) (fun v h1 => ?_) |>.1 f hfault)
        refine (addRetainedVersions_safe h1).bind (fun v2 h2 => ?_)
        refine (processLadder_safe he h2.1).bind (fun v3 h3 => ?_)
        refine (updateView_safe hs.pos h3.1).bind (fun v4 h4 => ?_)
        refine (run_safe newMonitor_mild h4.1).bind (fun r h5 => ?_)
        obtain ⟨m, v5⟩ := r
        obtain ⟨⟨-, -, hsz, -, -⟩, h5, h6⟩ := h5
        simp only at hsz h5 h6 ⊢
        obtain ⟨hk, hm⟩ := modest_map hls (n := m.treeSize) (by omega)
        rw [ho]
        simp only [Option.map_some]
        refine (run_safe (monitorUpdate_mild (m := { m with contact := some (contactMap sv.ls.contact), owner := some ⟨o.starting, o.verAtStarting, o.upcomingVers⟩ })
          rfl rfl hk hm ho1 (by show o.verAtStarting + (o.upcomingVers.length : Int) + _ < _; omega)) h5).bind (fun r h7 => ?_)
        obtain ⟨m', v6⟩ := r
        obtain ⟨hup, h7, h8⟩ := h7
        obtain ⟨⟨up, hup1, hup2⟩, c, hc1, hc2, hc3⟩ := hup
        simp only at hup1 hup2 hc1 hc3 h7 h8 ⊢
        refine (finish_safe he h7 (by omega)).bind (fun r h9 => ?_)
        obtain ⟨u, v7⟩ := r
        simp only at h9 ⊢
        rw [hc1, hup1]
        refine Safe.bind (P := fun es => Placed m.treeSize es) ⟨.ok, fun a ha => by cases ha; exact contactStruct_placed hc2 hc3⟩ (fun es hes => ?_)
        simp only
        refine (Safe.of_calm (updateRetainedVersions_calm (ls := { sv.ls with contact := es, owner := some ⟨o.starting, o.verAtStarting, up⟩ }) hes ?_)).bind
          (fun ls' _ => (Safe.of_calm putLabelState_calm).bind (fun _ _ => .pure trivial))
        rintro w hw
        cases hw
        refine ⟨ho1, ?_⟩
        simp only
        omega

end
end Katie.Client
