import Verif.Lemmas.Crash
import Verif.Props.C80_Isolated

/-
C82: After a crash during a change, the restarted server answers as before or as after the change, and the change can be
repeated.

The vocabulary is in `Verif/Spec/Crash.lean`.  If the process ends between the two writes of a commit, the new server has
the old tree head but the indices and versions of the new one.  Requests about versions that the tree head covers are
answered as before.  A search for the greatest version of a label that was changed is refused.  The next change counts from
the new indices, whatever it is, so that the versions of the interrupted change are listed but are never added to the
prefix tree: they can neither be looked up nor removed.
-/

namespace Katie.Props
open Katie Katie.Wire Katie.Alg Katie.Ladder Katie.Server Katie.Client Katie.ServerSpec Katie.PrefixSpec Katie.AuditSpec

section
variable {env : Env} {cs : List Change} {us : List AuditorUpdate} {t t₁ t₂ : Tree} {c : Change} {u : AuditorUpdate}

/-- The old or the new database: the restarted server is one that has, or has not, made the change. -/
theorem C82_whole_partial (hruns : Runs env cs us t) (hm : mutate env c t = (.ok u, t₁)) (hc : ChangeOk env c)
    (hrange : InRange (cs ++ [c])) (hne : cs = [] ∨ u.added ≠ [] ∨ u.removed ≠ []) :
    (∀ t₂, newTree env t.db = .ok t₂ → Runs env cs us t₂) ∧
    (∀ t₂, newTree env t₁.db = .ok t₂ → Runs env (cs ++ [c]) (us ++ [u]) t₂) :=
  ⟨fun _ h => .restart hruns h, fun _ h => .restart (.change hruns hm hc hrange hne) h⟩

theorem crashed_eq (hcs : env.cs.Good) (hsm : Prefix.Small env.cs) (h : Crashed env cs us t c u t₁ t₂) :
    ∃ aud, t₂ = ⟨torn t.db t₁.db, torn t.db t₁.db, t.head, aud⟩ := by
  obtain ⟨-, hinv⟩ := runs_inv hcs hsm h.runs
  obtain ⟨h1, h2, h3⟩ := newTree_ok h.start
  have hs := hinv.size
  change readHead t.db.head = _ at h3
  rw [hinv.head.read (by rw [logOf_length, hinv.len]; omega)] at h3
  obtain ⟨db, tx, head, aud⟩ := t₂
  simp only at h1 h2 h3
  obtain rfl := Except.ok.inj h3
  exact ⟨aud, by rw [h1, h2]⟩

theorem crashed_runs (h : Crashed env cs us t c u t₁ t₂) : Runs env (cs ++ [c]) (us ++ [u]) t₁ :=
  .change h.runs h.change h.ok h.range h.something

theorem crashed_reads (h : Crashed env cs us t c u t₁ t₂) {ok : Change → Prop} (hok : ok c) :
    ReadsFrom (Moment env cs us ok) (torn t.db t₁.db) := by
  have hm : Moment env cs us ok t₁.db := ⟨[c], [u], t₁, crashed_runs h, rfl, by simpa using hok⟩
  exact ⟨fun _ => ⟨_, hm, rfl⟩, fun _ => ⟨_, hm, rfl⟩, fun _ => ⟨_, hm, rfl⟩, fun _ => ⟨_, hm, rfl⟩, fun _ => ⟨_, hm, rfl⟩⟩

/-- The third state: requests about labels that the change did not remove, and about versions that the tree head covers, are
answered as by a server that never attempted the change. -/
theorem C82_requests_partial (hcs : env.cs.Good) (hsm : Prefix.Small env.cs) (h : Crashed env cs us t c u t₁ t₂) (now : Nat) :
    (∀ (req : SearchRequest) (v : Nat), req.label ∉ c.remove → req.version = some v → v < (versionsOf req.label cs).length →
      Server.search env now t₂ req = Server.search env now { t with auditor := t₂.auditor } req) ∧
    (∀ req : SearchRequest, req.label ∉ c.remove → req.label ∉ c.add.map LabelValue.label →
      Server.search env now t₂ req = Server.search env now { t with auditor := t₂.auditor } req) ∧
    (∀ req : ContactMonitorRequest, req.label ∉ c.remove → (∀ e ∈ req.entries, e.version < (versionsOf req.label cs).length) →
      Server.contactMonitor env now t₂ req = Server.contactMonitor env now { t with auditor := t₂.auditor } req) ∧
    (∀ req : OwnerInitRequest, req.label ∉ c.remove →
      Server.ownerInit env now t₂ req = Server.ownerInit env now { t with auditor := t₂.auditor } req) ∧
    (∀ req : OwnerMonitorRequest, req.label ∉ c.remove → (∀ e ∈ req.entries, e.version < (versionsOf req.label cs).length) →
      (∀ v, req.greatestVersion = some v → v < (versionsOf req.label cs).length) →
      Server.ownerMonitor env now t₂ req = Server.ownerMonitor env now { t with auditor := t₂.auditor } req) := by
  obtain ⟨aud, rfl⟩ := crashed_eq hcs hsm h
  refine ⟨fun req v hl hv hlt => ?_, fun req hl ha => ?_, fun req hl he => ?_, fun req hl => ?_, fun req hl he hg => ?_⟩
  · exact C80_fixed_version_partial hcs hsm h.runs (crashed_reads h hl) aud hv hlt now
  · exact C80_other_labels hcs hsm h.runs (crashed_reads h ⟨hl, ha⟩) aud now
  · exact C80_contact_partial hcs hsm h.runs (crashed_reads h hl) aud he now
  · exact C80_ownerInit_partial hcs hsm h.runs (crashed_reads h hl) aud now
  · exact C80_ownerMonitor_partial hcs hsm h.runs (crashed_reads h hl) aud he hg now

/-- C82 is false for the greatest version: in the third state, no search for the greatest version of a label to which the
change added (and that has more than one version now) is answered. -/
theorem C82_greatest_refused (hcs : env.cs.Good) (hsm : Prefix.Small env.cs) (h : Crashed env cs us t c u t₁ t₂) (hne : cs ≠ [])
    {req : SearchRequest} (hkeep : req.label ∉ c.remove) (hreq : req.version = none)
    (hnew : req.label ∈ c.add.map LabelValue.label) (h1 : 1 < (versionsOf req.label (cs ++ [c])).length)
    (h2 : (versionsOf req.label (cs ++ [c])).length < 2 ^ 31) (now : Nat) (res : SearchResponse) :
    Server.search env now t₂ req ≠ .ok res := by
  obtain ⟨aud, rfl⟩ := crashed_eq hcs hsm h
  obtain ⟨-, hinv⟩ := runs_inv hcs hsm (crashed_runs h)
  refine C80_greatest_refused hcs hsm h.runs hne (crashed_reads h hkeep) aud hreq (hinv.getIndex req.label) ?_ (by simpa using h1)
    (by simpa using h2) now res
  rw [List.length_map, versionsOf_snoc]
  unfold step kept
  rw [if_neg hkeep, List.length_append, fresh_length]
  obtain ⟨p, hp, hpl⟩ := List.mem_map.1 hnew
  have := List.length_pos_of_mem (List.mem_filter.2 ⟨hp, by simpa using hpl⟩ : p ∈ c.add.filter (fun p => p.label == req.label))
  omega

/-- C82 is false for the change: in the third state its versions are lost.  Whatever changes the server makes afterwards, the
index says that the versions were added in log entry `cs.length`, but neither the tree of this entry nor any later one has
them — unless the VRF gives the same output for another label or version. -/
theorem C82_versions_lost (hcs : env.cs.Good) (hsm : Prefix.Small env.cs) (h : Crashed env cs us t c u t₁ t₂)
    {ds : List Change} {ws : List AuditorUpdate} {t₃ : Tree} (hcont : Continues env t₂ ds ws t₃)
    (hadds : ((cs ++ [c] ++ ds).flatMap Change.add).length ≤ 2 ^ 32) (hsize : (cs ++ ds).length < 2 ^ 63)
    {l : Bytes} (hl : ∀ d ∈ c :: ds, l ∉ d.remove) {v : Nat} (hv₀ : (versionsOf l cs).length ≤ v)
    (hv₁ : v < (versionsOf l (cs ++ [c])).length) {o pr : Bytes} (hvrf : computeVrf env l v = .ok (o, pr)) :
    (∃ index, getIndex t₃.db l = .ok index ∧ index[v]? = some cs.length) ∧
    ((∀ k, ∀ p ∈ contents ((us ++ ws.take k).map batchOf), p.1 ≠ o) ∨
      ∃ l' v' pr', (l', v') ≠ (l, v) ∧ computeVrf env l' v' = .ok (o, pr')) := by
  obtain ⟨aud, rfl⟩ := crashed_eq hcs hsm h
  obtain ⟨-, hinv⟩ := runs_inv hcs hsm h.runs
  obtain ⟨-, hinv₁⟩ := runs_inv hcs hsm (crashed_runs h)
  have hsz := hinv.size
  rw [List.flatMap_append, List.length_append] at hadds
  rw [List.length_append] at hsize
  have h0 : Labels env (fun l => versionsOf l (cs ++ [c])) cs.length ((cs ++ [c]).flatMap Change.add).length [] []
      ⟨torn t.db t₁.db, torn t.db t₁.db, t.head, aud⟩ := by
    refine ⟨rfl, ?_, ?_, ⟨fun l => versionsOf l (cs ++ [c]), fun l => ⟨(hinv₁.repr l).index, (hinv₁.repr l).versions⟩,
      fun l => (versionsOf_pos l _).1, fun l x hx => ?_, fun l => versionsOf_length_le l _, fun l _ => ⟨[], by simp⟩⟩, by simp⟩
    · have := hinv.head.size
      rw [logOf_length, hinv.len] at this
      exact this
    · exact hinv.head.read (by rw [logOf_length, hinv.len]; omega)
    · have := (versionsOf_pos l _).2 x hx
      simp at this ⊢
      omega
  have hL := labels_continue h0 hcont hadds hsize
  obtain ⟨vs, r1, r2, r3, r4, r5⟩ := hL.repr
  have hlc : l ∉ c.remove := hl c (List.mem_cons_self ..)
  have hld : ∀ d ∈ ds, l ∉ d.remove := fun d hd => hl d (List.mem_cons_of_mem _ hd)
  constructor
  · refine ⟨_, (r1 l).getIndex (r2 l) (fun x hx => by have := r3 l x hx; omega), ?_⟩
    obtain ⟨rest, hrest⟩ := r5 l hld
    rw [hrest, List.getElem?_map, List.getElem?_append_left hv₁, versionsOf_snoc]
    unfold step
    have hk : kept l c (versionsOf l cs) = versionsOf l cs := by unfold kept; rw [if_neg hlc]
    rw [versionsOf_snoc] at hv₁
    unfold step at hv₁
    rw [hk] at hv₁ ⊢
    rw [List.length_append] at hv₁
    rw [List.getElem?_append_right hv₀, ← List.getElem?_map, fresh_pos, List.getElem?_replicate,
      if_pos (by rw [fresh_length] at hv₁; omega)]
  · by_cases hcol : ∃ l' v' pr', (l', v') ≠ (l, v) ∧ computeVrf env l' v' = .ok (o, pr')
    · exact .inr hcol
    · left
      have huniq : ∀ l' v' pr', computeVrf env l' v' = .ok (o, pr') → l' = l ∧ v' = v := by
        intro l' v' pr' h'
        by_contra hne
        exact hcol ⟨l', v', pr', fun e => hne (Prod.mk.inj e), h'⟩
      have hnew : ∀ w ∈ ws, ∀ e ∈ w.added, e.vrf ≠ o := by
        rintro w hw e he rfl
        obtain ⟨l', v', pr', h1, h2⟩ := hL.added w hw e he
        obtain ⟨rfl, rfl⟩ := huniq l' v' pr' h1
        have := h2 hld
        omega
      have hold : ∀ p ∈ contents (us.map batchOf), p.1 ≠ o := by
        rintro p hp rfl
        obtain ⟨l', v', x, hx, hp'⟩ := (hinv.mem p).1 hp
        obtain ⟨pr', h1⟩ := pairOf_vrf hp'
        obtain ⟨rfl, rfl⟩ := huniq l' v' pr' h1
        have := (List.getElem?_eq_some_iff.1 hx).1
        omega
      intro k
      have hsub : ∀ w ∈ ws.take k, ∀ e ∈ w.added, e.vrf ≠ o := fun w hw => hnew w (List.mem_of_mem_take hw)
      generalize ws.take k = zs at hsub
      induction zs using List.reverseRecOn with
      | nil => simpa using hold
      | append_singleton zs w ih =>
        intro p hp
        rw [← List.append_assoc, List.map_append, List.map_singleton, Prefix.contents_snoc] at hp
        unfold Batch.apply at hp
        rcases List.mem_append.1 hp with hp | hp
        · exact ih (fun w' hw' => hsub w' (List.mem_append_left _ hw')) p (List.mem_filter.1 hp).1
        · unfold batchOf at hp
          obtain ⟨e, he, rfl⟩ := List.mem_map.1 hp
          exact hsub w (by simp) e he

end

/-! ### Concrete cases: a crash during the second change, which adds version 2 of label 10, and during the third one, which
adds label 30 -/

def toySecond : Change := toyChange [⟨[10], ⟨[4], none⟩⟩] [] 6
def toyThird : Change := toyChange [⟨[30], ⟨[4], none⟩⟩] [] 100

theorem toyCrashed2 : Crashed toyEnv (toyHistory.take 1) [toyU1] toyT1 toySecond toyU2 toyT2
    ⟨torn toyT1.db toyT2.db, torn toyT1.db toyT2.db, toyT1.head, none⟩ where
  runs := toyRuns1
  change := toyHistory_steps.2.1
  ok := toyChange_ok _ _ _ (by decide +kernel) (by simp [UpdateValue.Typed, SuffixTyped, toyEnv, thirdPartyAuditing, thirdPartyManagement])
  range := inRange_of_short (by decide +kernel) (by decide +kernel)
  something := .inr (.inl (by decide))
  start := by decide +kernel

/-- the server after the crash during the third change -/
def toyAfter3 : Tree := ⟨torn toyT2.db toyT3.db, torn toyT2.db toyT3.db, toyT2.head, none⟩

theorem toyCrashed3 : Crashed toyEnv (toyHistory.take 1 ++ [toySecond]) ([toyU1] ++ [toyU2]) toyT2 toyThird toyU3 toyT3 toyAfter3 where
  runs := toyRuns2
  change := toyHistory_steps.2.2.1
  ok := toyChange_ok _ _ _ (by decide +kernel) (by simp [UpdateValue.Typed, SuffixTyped, toyEnv, thirdPartyAuditing, thirdPartyManagement])
  range := inRange_of_short (by decide +kernel) (by decide +kernel)
  something := .inr (.inl (by decide))
  start := by decide +kernel

example := C82_whole_partial toyCrashed3.runs toyCrashed3.change toyCrashed3.ok toyCrashed3.range toyCrashed3.something

example := C82_requests_partial (env := toyEnv) toySuite_good (by decide : toySuite.hashSize ≤ 32) toyCrashed2 5

/-- after the crash during the second change, version 1 of label 10 is still found -/
example : (Server.search toyEnv 5 ⟨torn toyT1.db toyT2.db, torn toyT1.db toyT2.db, toyT1.head, none⟩ ⟨none, [10], some 1⟩).toBool = true := by
  decide +kernel

example := C82_greatest_refused (env := toyEnv) toySuite_good (by decide : toySuite.hashSize ≤ 32) toyCrashed2 (by decide)
  (req := ⟨none, [10], none⟩) (by decide) rfl (by decide) (by decide +kernel) (by decide +kernel) 5

/-- the third change is repeated, and two more are made -/
def toyAgain3 := mutate toyEnv toyThird toyAfter3
def toyAgain4 := mutate toyEnv (toyChange [⟨[40], ⟨[5], none⟩⟩] [] 300) toyAgain3.2
def toyAgain5 := mutate toyEnv (toyChange [⟨[41], ⟨[5], none⟩⟩] [] 500) toyAgain4.2

/-- the update, if there is one -/
def updateOf (r : G AuditorUpdate) : AuditorUpdate :=
  match r with
  | .ok u => u
  | .error _ => ⟨0, [], [], ⟨[], []⟩⟩

theorem mutate_again {c : Change} {t : Tree} (h : (mutate toyEnv c t).1.toBool = true) :
    mutate toyEnv c t = (.ok (updateOf (mutate toyEnv c t).1), (mutate toyEnv c t).2) := by
  generalize mutate toyEnv c t = r at h
  obtain ⟨r, t'⟩ := r
  cases r with
  | ok u => rfl
  | error e => cases h

theorem toyContinues : Continues toyEnv toyAfter3
    ([] ++ [toyThird] ++ [toyChange [⟨[40], ⟨[5], none⟩⟩] [] 300] ++ [toyChange [⟨[41], ⟨[5], none⟩⟩] [] 500])
    ([] ++ [updateOf toyAgain3.1] ++ [updateOf toyAgain4.1] ++ [updateOf toyAgain5.1]) toyAgain5.2 := by
  have h3 : mutate toyEnv toyThird toyAfter3 = (.ok (updateOf toyAgain3.1), toyAgain3.2) := mutate_again (by decide +kernel)
  have h4 : mutate toyEnv (toyChange [⟨[40], ⟨[5], none⟩⟩] [] 300) toyAgain3.2 = (.ok (updateOf toyAgain4.1), toyAgain4.2) :=
    mutate_again (by decide +kernel)
  have h5 : mutate toyEnv (toyChange [⟨[41], ⟨[5], none⟩⟩] [] 500) toyAgain4.2 = (.ok (updateOf toyAgain5.1), toyAgain5.2) :=
    mutate_again (by decide +kernel)
  exact .change (.change (.change .here h3 (toyChange_ok _ _ _ (by decide +kernel) (by simp [UpdateValue.Typed, SuffixTyped, toyEnv, thirdPartyAuditing, thirdPartyManagement])))
    h4 (toyChange_ok _ _ _ (by decide +kernel) (by simp [UpdateValue.Typed, SuffixTyped, toyEnv, thirdPartyAuditing, thirdPartyManagement])))
    h5 (toyChange_ok _ _ _ (by decide +kernel) (by simp [UpdateValue.Typed, SuffixTyped, toyEnv, thirdPartyAuditing, thirdPartyManagement]))

example := C82_versions_lost (env := toyEnv) toySuite_good (by decide : toySuite.hashSize ≤ 32) toyCrashed3 toyContinues (by decide +kernel)
  (by decide +kernel) (l := [30]) (by decide +kernel) (v := 0) (by decide +kernel) (by decide +kernel)
  (o := [113]) (pr := []) (by decide +kernel)

/-- **Witness.**  After the crash during the third change, the change is repeated successfully, and an auditor accepts the
update.  Label 30 now has two versions, both of them in log entry 2, but no search for it succeeds. -/
theorem C82_repeated_witness : toyAgain3.1.toBool = true ∧
    (auditAll toyEnv.cs toyEnv.cfg [toyU1, toyU2, updateOf toyAgain3.1] {}).toBool = true ∧
    getIndex toyAgain3.2.db [30] = .ok [2, 2] ∧
    toyChecked 100 toyAgain3.2 none [30] none = goErr "unexpected number of results in prefix proof" ∧
    toyChecked 100 toyAgain3.2 none [30] (some 0) = goErr "unexpected number of results in prefix proof" ∧
    toyChecked 100 toyAgain3.2 none [30] (some 1) = goErr "unexpected number of results in prefix proof" :=
  ⟨by decide +kernel, by decide +kernel, by decide +kernel, by decide +kernel, by decide +kernel, by decide +kernel⟩

/-- without the crash, the only version of the label is found in log entry 2 -/
example : toyChecked 100 toyT3 none [30] none = .ok 2 ∧ toyChecked 100 toyT3 none [30] (some 0) = .ok 2 :=
  ⟨by decide +kernel, by decide +kernel⟩

/-- **Witness.**  Nor can the label be removed, however much later. -/
theorem C82_not_removable_witness : (mutate toyEnv (toyChange [] [[30]] 900) toyAgain5.2).1 =
    goErr "can not remove vrf output that does not exist" := by decide +kernel

end Katie.Props
