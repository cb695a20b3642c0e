import Verif.Spec.Fits
import Verif.Model.Handles
import Verif.Lemmas.Provider
import Verif.Props.C19_C22_Ladder

/-
The server's run of an algorithm and the client's run on the resulting proof: one step, and whole runs.
-/

namespace Katie.Alg
open Katie Katie.Wire Katie.Ladder Katie.Props

/-! ### ladders -/

theorem Bisection.nodup {n : Nat} {l : List Nat} (h : Bisection n l) : l.Nodup := by
  have h1 : (l.filter (fun v => decide (v ≤ n))).Nodup := h.low.imp (fun h => Nat.ne_of_lt h)
  have h2 : (l.filter (fun v => decide (n < v))).Nodup := h.high.imp (fun h => Nat.ne_of_gt h)
  have h3 : (l.filter (fun v => !decide (v ≤ n))) = l.filter (fun v => decide (n < v)) := by
    apply List.filter_congr
    intro v _
    by_cases hv : v ≤ n
    · simp [hv]
    · simp [hv, Nat.lt_of_not_le hv]
  have hp := List.filter_append_perm (fun v => decide (v ≤ n)) l
  rw [h3] at hp
  rw [← hp.nodup_iff, List.nodup_append]
  refine ⟨h1, h2, ?_⟩
  intro a ha b hb
  have ha := (List.mem_filter.1 ha).2
  have hb := (List.mem_filter.1 hb).2
  simp only [decide_eq_true_eq] at ha hb
  omega

/-- `visit_agrees`, and what the versions looked up are like -/
theorem visit_served {t : Nat} (ht : t < 2 ^ 31 - 1) {gAt : Nat → Int} {done : List Nat} {vt : Tracker} {x : Nat}
    (hrange : gAt x < 2 ^ 32) (hm : ∀ x y, x ≤ y → gAt x ≤ gAt y) (hvt : Recorded gAt done vt)
    (hdir : ∀ a ∈ done, (a < x → gAt a ≤ t) ∧ (x < a → (t : Int) < gAt a)) :
    ∃ w vt', produceLadder vt x t true (gAt x) = .ok (w, cmp3 (gAt x) t, vt') ∧
      receiveLadder vt x t true (w.map (fun (v : Nat) => decide ((v : Int) ≤ gAt x))) = .ok (w, cmp3 (gAt x) t, vt') ∧
      Recorded gAt (done ++ [x]) vt' ∧ w ≠ [] ∧ w.Nodup ∧ ∀ v ∈ w, v < 2 ^ 31 := by
  obtain ⟨w, full, vt', h1, h2, h3, h4, h5⟩ := visit_agrees ht hrange hm hvt (fun a ha =>
    ⟨(hdir a ha).1, fun h => le_of_lt ((hdir a ha).2 h)⟩)
  obtain ⟨b, hb, hbis, -, hh, hlt⟩ := baseBinaryLadder_ok ht
  have hfull : full = b.filter (fun v => !((vt.searchMaps x true).1.contains v || (vt.searchMaps x true).2.contains v)) := by
    have h3' := h3
    unfold searchBinaryLadder at h3'
    rw [hb] at h3'
    simp only [G.ok_bind, G.pure_eq, searchLoop_self] at h3'
    exact (Except.ok.inj h3').symm
  have hsub : ∀ v ∈ w, v ∈ b := fun v hv => by
    have := h4.subset hv
    rw [hfull] at this
    exact (List.mem_filter.1 this).1
  refine ⟨w, vt', h1, h2, h5, ?_, ?_, fun v hv => hlt v (hsub v hv)⟩
  · have ht1 : t + 1 ∈ full := by
      rw [hfull, List.mem_filter]
      refine ⟨(List.mem_filter.1 (List.mem_of_getLast? hbis.highEnd)).1, ?_⟩
      rw [Bool.not_eq_true', Bool.or_eq_false_iff]
      constructor
      · rw [← Bool.not_eq_true, List.contains_iff_mem]
        intro hmem
        unfold Tracker.searchMaps at hmem
        simp only [Bool.not_true, Bool.false_eq_true, if_false, List.mem_flatMap, List.mem_filter, decide_eq_true_eq] at hmem
        obtain ⟨e, ⟨he, hl⟩, hv⟩ := hmem
        have a1 := (hvt.1 e he).2 _ hv
        have a2 := (hdir e.1 (hvt.1 e he).1).1 hl
        push_cast at a1
        omega
      · rw [← Bool.not_eq_true, List.contains_iff_mem]
        intro hmem
        unfold Tracker.searchMaps at hmem
        simp only [Bool.not_true, Bool.false_eq_true, if_false, List.mem_flatMap, List.mem_filter, decide_eq_true_eq] at hmem
        obtain ⟨e, ⟨he, hl⟩, hv⟩ := hmem
        have a1 := (hvt.2 e he).2 _ hv
        have a2 := (hdir e.1 (hvt.2 e he).1).2 hl
        push_cast at a1
        omega
    intro hw
    subst hw
    unfold receiveLadder at h2
    simp only [h3, G.ok_bind, List.map_nil] at h2
    obtain ⟨r, hr, _⟩ := G.bind_eq_ok.1 h2
    unfold interpretSearchLadder at hr
    rw [if_neg (by simp)] at hr
    cases full with
    | nil => simp at ht1
    | cons f fs => simp [interpretLoop, goErr] at hr
  · have : full.Nodup := by rw [hfull]; exact (Bisection.nodup hbis).filter _
    exact this.sublist h4.sublist

/-- without omission -/
theorem visit_served_full {t : Nat} (ht : t < 2 ^ 31 - 1) {gAt : Nat → Int} (vt : Tracker) {x : Nat}
    (hrange : gAt x < 2 ^ 32) (hm : ∀ x y, x ≤ y → gAt x ≤ gAt y) :
    ∃ w, produceLadder vt x t false (gAt x) = .ok (w, cmp3 (gAt x) t, vt) ∧
      receiveLadder vt x t false (w.map (fun (v : Nat) => decide ((v : Int) ≤ gAt x))) = .ok (w, cmp3 (gAt x) t, vt) ∧
      w ≠ [] ∧ w.Nodup ∧ ∀ v ∈ w, v < 2 ^ 31 := by
  obtain ⟨w, vt', h1, h2, -, h4, h5, h6⟩ := visit_served ht (done := []) (vt := {}) hrange hm ⟨by simp, by simp⟩ (by simp)
  refine ⟨w, ?_, ?_, h4, h5, h6⟩
  · have e : producedVersions vt x t false (gAt x) = producedVersions {} x t true (gAt x) := by
      unfold producedVersions
      rfl
    unfold produceLadder at h1 ⊢
    rw [e]
    obtain ⟨l, hl, h1⟩ := G.bind_eq_ok.1 h1
    rw [hl]
    have := Except.ok.inj h1
    simp only [Prod.mk.injEq] at this
    simp only [G.ok_bind, G.pure_eq]
    rw [this.1, this.2.1]
    rfl
  · unfold receiveLadder at h2 ⊢
    have e : (vt.searchMaps x false) = (({} : Tracker).searchMaps x true) := rfl
    rw [e]
    simp only at h2 ⊢
    obtain ⟨l, hl, h2⟩ := G.bind_eq_ok.1 h2
    obtain ⟨r, hr, h2⟩ := G.bind_eq_ok.1 h2
    obtain ⟨v', hv, h2⟩ := G.bind_eq_ok.1 h2
    rw [hl, G.ok_bind, hr, G.ok_bind]
    have := Except.ok.inj h2
    simp only [Prod.mk.injEq] at this
    simp only [Tracker.addResults, Bool.not_false, if_true, G.ok_bind, G.pure_eq]
    rw [this.1, this.2.1]

/-! ### one request -/

/-- The proof shows of each version of the list whether it is in the prefix tree of entry `x`, to a client that knows the
versions `vs`. -/
def Convinces (cs : Log.Suite) (vs : Versions) (g : Nat → Int) (E : Nat → LogEntry) (need : Nat × List Nat)
    (pf : Prefix.Proof) : Prop :=
  pf.results.map Prefix.Res.isInclusion = need.2.map (fun (v : Nat) => decide ((v : Int) ≤ g need.1)) ∧
  ∃ es, Received.entriesFor vs need.2 pf.results = .ok es ∧ Prefix.evaluateRoot cs es pf = .ok (E need.1).prefixTree

/-- a list of versions that a prefix proof can be made for -/
def Provable (n : Nat) (need : Nat × List Nat) : Prop :=
  need.1 < n ∧ need.2 ≠ [] ∧ need.2.Nodup

/-- the client's provider that corresponds to the server's, given what is left of the proof -/
def mirror (p : Provider Produced) (full : List Bytes) (vs : Versions) (T : List Nat) (P : List Prefix.Proof)
    (roots incl : List Bytes) : Provider Received :=
  ⟨⟨⟨T, P, roots, incl⟩, vs, p.state.tracker⟩, full, p.logEntries, p.timestamps, p.prefixTrees⟩

/-- what a part of the server's run leaves unchanged, and what it adds -/
structure Adds (p p' : Provider Produced) (ts : List Nat) (pfs : List (Nat × List Nat)) : Prop where
  timestamps : p'.state.timestamps = p.state.timestamps ++ ts
  proofs : p'.state.proofs = p.state.proofs ++ pfs
  versions : p'.state.versions = p.state.versions
  roots : p'.state.roots = p.state.roots
  logEntries : p'.logEntries = p.logEntries
  fullSubtrees : p'.fullSubtrees = p.fullSubtrees

theorem Adds.trans {p p' p'' : Provider Produced} {ts ts' : List Nat} {pfs pfs' : List (Nat × List Nat)}
    (h : Adds p p' ts pfs) (h' : Adds p' p'' ts' pfs') : Adds p p'' (ts ++ ts') (pfs ++ pfs') :=
  ⟨by rw [h'.timestamps, h.timestamps, List.append_assoc], by rw [h'.proofs, h.proofs, List.append_assoc],
   h'.versions.trans h.versions, h'.roots.trans h.roots, h'.logEntries.trans h.logEntries,
   h'.fullSubtrees.trans h.fullSubtrees⟩

theorem Adds.refl (p : Provider Produced) : Adds p p [] [] := ⟨by simp, by simp, rfl, rfl, rfl, rfl⟩

section
variable {cs : Log.Suite} {db : ServerDB} {index : List Nat} {n : Nat} {E : Nat → LogEntry}

theorem getTimestamp_sim (hE : ∀ x < n, db.entry x = .ok (E x)) {x : Nat} (hx : x < n) (p : Provider Produced) :
    ∃ ts, Adds p (p.getTimestamp (Produced.handle db index) x).2 ts [] ∧
      (p.getTimestamp (Produced.handle db index) x).2.state.tracker = p.state.tracker ∧
      ∀ full vs T P roots incl, (mirror p full vs (ts ++ T) P roots incl).getTimestamp (Received.handle cs) x =
        ((p.getTimestamp (Produced.handle db index) x).1,
          mirror (p.getTimestamp (Produced.handle db index) x).2 full vs T P roots incl) := by
  unfold Provider.getTimestamp mirror
  simp only
  cases hl : p.timestamps.lookup x with
  | some t => exact ⟨[], Adds.refl p, rfl, fun _ _ _ _ _ _ => rfl⟩
  | none =>
    simp only [Produced.handle, Produced.getTs, hE x hx]
    refine ⟨[(E x).timestamp], ?_, ?_, ?_⟩
    · cases addTimestamp p.timestamps x (E x).timestamp <;> exact ⟨rfl, by simp, rfl, rfl, rfl, rfl⟩
    · cases addTimestamp p.timestamps x (E x).timestamp <;> rfl
    · intro full vs T P roots incl
      simp only [Received.handle, Received.getTs, List.cons_append, List.nil_append]
      cases addTimestamp p.timestamps x (E x).timestamp <;> rfl

theorem record_mirror {β : Type} (p : Provider Produced) (full : List Bytes) (vs : Versions) (T : List Nat)
    (P : List Prefix.Proof) (roots incl : List Bytes) (x : Nat) (root : Bytes) (b : β) :
    Provider.record x root b (mirror p full vs T P roots incl) =
      ((Provider.record x root b p).1, mirror (Provider.record x root b p).2 full vs T P roots incl) := by
  unfold Provider.record mirror
  simp only
  cases addPrefixTree p.prefixTrees x root <;> rfl

theorem record_adds {β : Type} (p : Provider Produced) (x : Nat) (root : Bytes) (b : β) :
    Adds p (Provider.record x root b p).2 [] [] ∧ (Provider.record x root b p).2.state.tracker = p.state.tracker := by
  unfold Provider.record
  cases addPrefixTree p.prefixTrees x root <;> exact ⟨⟨by simp, by simp, rfl, rfl, rfl, rfl⟩, rfl⟩

/-- A request that needs a prefix proof: if, at any state, the server's handle adds the versions `w` for entry `x`, and the
client's handle, given a proof for these, gives the same answer, then so do the providers. -/
theorem viaRoot_sim {γ : Type} (hE : ∀ x < n, db.entry x = .ok (E x)) {x : Nat} (hx : x < n) {w : List Nat}
    {fp : Produced → G (Bytes × γ) × Produced} {fr : Received → G (Bytes × γ) × Received} {c : γ} {vt' : Tracker}
    (p : Provider Produced)
    (hfp : ∀ s, s.tracker = p.state.tracker → fp s = (.ok ((E x).prefixTree, c), { s with proofs := s.proofs ++ [(x, w)], tracker := vt' }))
    (hfr : ∀ T P roots incl vs pf, Convinces cs vs (greatestAt index) E (x, w) pf →
      fr ⟨⟨T, pf :: P, roots, incl⟩, vs, p.state.tracker⟩ = (.ok ((E x).prefixTree, c), ⟨⟨T, P, roots, incl⟩, vs, vt'⟩)) :
    ∃ ts pfs, Adds p (viaRoot (Produced.handle db index) x fp p).2 ts pfs ∧
      (pfs = [] ∨ pfs = [(x, w)]) ∧
      ((viaRoot (Produced.handle db index) x fp p).2.state.tracker = p.state.tracker ∨
        (viaRoot (Produced.handle db index) x fp p).2.state.tracker = vt') ∧
      ((∃ a, (viaRoot (Produced.handle db index) x fp p).1 = .ok a) → pfs = [(x, w)] ∧
        (viaRoot (Produced.handle db index) x fp p).2.state.tracker = vt') ∧
      ∀ full vs T P roots incl prs, List.Forall₂ (Convinces cs vs (greatestAt index) E) pfs prs →
        viaRoot (Received.handle cs) x fr (mirror p full vs (ts ++ T) (prs ++ P) roots incl) =
          ((viaRoot (Produced.handle db index) x fp p).1,
            mirror (viaRoot (Produced.handle db index) x fp p).2 full vs T P roots incl) := by
  obtain ⟨ts, had, htr, hsim⟩ := getTimestamp_sim (cs := cs) (index := index) hE hx p
  unfold viaRoot
  revert had htr hsim
  generalize p.getTimestamp (Produced.handle db index) x = r
  obtain ⟨r1, p'⟩ := r
  intro had htr hsim
  simp only at had htr hsim
  cases r1 with
  | error e =>
    refine ⟨ts, [], had, .inl rfl, .inl htr, (fun h => by obtain ⟨a, ha⟩ := h; cases ha), ?_⟩
    intro full vs T P roots incl prs hprs
    cases hprs
    rw [List.nil_append, hsim]
  | ok t =>
    simp only
    rw [hfp _ htr]
    simp only
    obtain ⟨had2, htr2⟩ := record_adds { p' with state := { p'.state with proofs := p'.state.proofs ++ [(x, w)], tracker := vt' } }
      x (E x).prefixTree c
    refine ⟨ts, [(x, w)], ?_, .inr rfl, .inr htr2, fun _ => ⟨rfl, htr2⟩, ?_⟩
    · have h1 : Adds p' { p' with state := { p'.state with proofs := p'.state.proofs ++ [(x, w)], tracker := vt' } } [] [(x, w)] :=
        ⟨by simp, rfl, rfl, rfl, rfl, rfl⟩
      have := (had.trans h1).trans had2
      simpa using this
    · intro full vs T P roots incl prs hprs
      cases hprs with
      | @cons _ pf _ _ hpf hnil =>
        cases hnil
        rw [hsim]
        simp only [List.cons_append, List.nil_append]
        have : (mirror p' full vs T (pf :: P) roots incl).state = ⟨⟨T, pf :: P, roots, incl⟩, vs, p.state.tracker⟩ := by
          unfold mirror; rw [htr]
        rw [this, hfr T P roots incl vs pf hpf]
        simp only
        have : ({ mirror p' full vs T (pf :: P) roots incl with state := ⟨⟨T, P, roots, incl⟩, vs, vt'⟩ } : Provider Received) =
            mirror { p' with state := { p'.state with proofs := p'.state.proofs ++ [(x, w)], tracker := vt' } } full vs T P roots incl := rfl
        rw [this, record_mirror]

/-! ### the three kinds of prefix proofs -/

theorem entriesFor_all {vs : Versions} : ∀ {vers : List Nat} {res : List Prefix.Res} {es : List Prefix.Entry},
    Received.entriesFor vs vers res = .ok es → vers.length = res.length → res.all Prefix.Res.isInclusion = true →
    Received.allEntries vs vers = .ok es
  | [], [], es, h, _, _ => by
    have : es = [] := by unfold Received.entriesFor at h; exact (Except.ok.inj h).symm
    subst this; rfl
  | v :: vers, r :: res, es, h, hl, hall => by
    simp only [List.all_cons, Bool.and_eq_true] at hall
    unfold Received.entriesFor at h
    unfold Received.allEntries
    cases hk : vs.lookup v with
    | none => rw [hk] at h; exact absurd h (G.goErr_ne_ok _ _)
    | some k =>
      rw [hk] at h
      simp only at h ⊢
      by_cases hc : k.com = none
      · rw [if_pos ⟨hall.1, hc⟩] at h; exact absurd h (G.goErr_ne_ok _ _)
      · rw [if_neg (fun hh => hc hh.2)] at h
        rw [if_neg hc]
        obtain ⟨rest, h1, h2⟩ := G.bind_eq_ok.1 h
        rw [entriesFor_all h1 (by simpa using hl) hall.2]
        exact h2

theorem Convinces.results {vs : Versions} {g : Nat → Int} {need : Nat × List Nat} {pf : Prefix.Proof}
    (h : Convinces cs vs g E need pf) (hall : ∀ v ∈ need.2, (v : Int) ≤ g need.1) :
    pf.results.length = need.2.length ∧ pf.results.all Prefix.Res.isInclusion = true := by
  have hl : pf.results.length = need.2.length := by
    have := congrArg List.length h.1
    simpa using this
  refine ⟨hl, ?_⟩
  rw [List.all_eq_true]
  intro r hr
  have hm : r.isInclusion ∈ pf.results.map Prefix.Res.isInclusion := List.mem_map.2 ⟨r, hr, rfl⟩
  rw [h.1] at hm
  obtain ⟨v, hv, e⟩ := List.mem_map.1 hm
  rw [← e, decide_eq_true_eq]
  exact hall v hv

theorem search_sim (hE : ∀ x < n, db.entry x = .ok (E x)) {x v : Nat} {om : Bool} (hx : x < n) {w : List Nat} {vt vt' : Tracker}
    {c : Int} (h1 : produceLadder vt x v om (greatestAt index x) = .ok (w, c, vt'))
    (h2 : receiveLadder vt x v om (w.map (fun (v : Nat) => decide ((v : Int) ≤ greatestAt index x))) = .ok (w, c, vt')) :
    (∀ s : Produced, s.tracker = vt → Produced.search db index x v om s =
      (.ok ((E x).prefixTree, c), { s with proofs := s.proofs ++ [(x, w)], tracker := vt' })) ∧
    (∀ T P roots incl vs pf, Convinces cs vs (greatestAt index) E (x, w) pf →
      Received.search cs x v om ⟨⟨T, pf :: P, roots, incl⟩, vs, vt⟩ =
        (.ok ((E x).prefixTree, c), ⟨⟨T, P, roots, incl⟩, vs, vt'⟩)) := by
  constructor
  · rintro s rfl
    unfold Produced.search
    rw [h1]
    simp only [hE x hx]
  · intro T P roots incl vs pf hpf
    obtain ⟨k1, es, k2, k3⟩ := hpf
    unfold Received.search
    have : Received.evalSearch cs vs vt x v om pf = .ok ((E x).prefixTree, c, vt') := by
      unfold Received.evalSearch
      rw [k1]
      simp only at k2 k3 ⊢
      rw [h2]
      simp only [G.ok_bind, k2, k3, G.pure_eq]
    simp only [this]
    rfl

theorem monitor_sim (hE : ∀ x < n, db.entry x = .ok (E x)) {x v : Nat} (hx : x < n) {w : List Nat} (vt : Tracker)
    (h1 : monitoringBinaryLadder v = .ok w) (hw : ∀ u ∈ w, u ≤ v) (hv : (v : Int) ≤ greatestAt index x) :
    (∀ s : Produced, s.tracker = vt → withUnit (Produced.monitor db x v) s =
      (.ok ((E x).prefixTree, ()), { s with proofs := s.proofs ++ [(x, w)], tracker := vt })) ∧
    (∀ T P roots incl vs pf, Convinces cs vs (greatestAt index) E (x, w) pf →
      withUnit (Received.monitor cs x v) ⟨⟨T, pf :: P, roots, incl⟩, vs, vt⟩ =
        (.ok ((E x).prefixTree, ()), ⟨⟨T, P, roots, incl⟩, vs, vt⟩)) := by
  constructor
  · rintro s rfl
    unfold withUnit Produced.monitor
    rw [hE x hx, h1]
  · intro T P roots incl vs pf hpf
    obtain ⟨k0, k1⟩ := hpf.results (fun u hu => by
      have := hw u hu
      have : (u : Int) ≤ v := by exact_mod_cast this
      simp only
      omega)
    obtain ⟨_, es, k2, k3⟩ := hpf
    have : Received.evalMonitor cs vs v pf = .ok (E x).prefixTree := by
      unfold Received.evalMonitor
      rw [h1]
      simp only [G.ok_bind]
      rw [if_neg (by simp only at k0; simp [k0]), if_neg (by simp only [k1, not_true_eq_false, not_false_eq_true]),
        entriesFor_all k2 k0.symm k1]
      simp only [G.ok_bind]
      exact k3
    unfold withUnit Received.monitor
    simp only [this]
    rfl

theorem incl_sim (hE : ∀ x < n, db.entry x = .ok (E x)) {x v : Nat} (hx : x < n) (vt : Tracker)
    (hv : (v : Int) ≤ greatestAt index x) :
    (∀ s : Produced, s.tracker = vt → withUnit (Produced.incl db x [v]) s =
      (.ok ((E x).prefixTree, ()), { s with proofs := s.proofs ++ [(x, [v])], tracker := vt })) ∧
    (∀ T P roots incl vs pf, Convinces cs vs (greatestAt index) E (x, [v]) pf →
      withUnit (Received.incl cs x [v]) ⟨⟨T, pf :: P, roots, incl⟩, vs, vt⟩ =
        (.ok ((E x).prefixTree, ()), ⟨⟨T, P, roots, incl⟩, vs, vt⟩)) := by
  constructor
  · rintro s rfl
    unfold withUnit Produced.incl
    rw [hE x hx]
  · intro T P roots incl vs pf hpf
    obtain ⟨k0, k1⟩ := hpf.results (fun u hu => by
      rw [List.mem_singleton] at hu
      subst hu; exact hv)
    obtain ⟨_, es, k2, k3⟩ := hpf
    have : Received.evalIncl cs vs [v] pf = .ok (E x).prefixTree := by
      unfold Received.evalIncl
      obtain ⟨r, hr⟩ : ∃ r, pf.results = [r] := by
        match h : pf.results, k0 with
        | [r], _ => exact ⟨r, rfl⟩
      rw [hr] at k1 k0
      simp only [hr]
      simp only [List.all_cons, List.all_nil, Bool.and_true] at k1
      have hr' := hr
      rw [if_neg (by simp [k1])]
      rw [hr] at k2
      rw [entriesFor_all k2 k0.symm (by simp [k1])]
      simp only [G.ok_bind]
      exact k3
    unfold withUnit Received.incl
    simp only [this]
    rfl

/-! ### whole runs -/

theorem forall₂_append_left {α β : Type} {R : α → β → Prop} : ∀ {l1 l2 : List α} {r : List β}, List.Forall₂ R (l1 ++ l2) r →
    ∃ r1 r2, r = r1 ++ r2 ∧ List.Forall₂ R l1 r1 ∧ List.Forall₂ R l2 r2
  | [], _, r, h => ⟨[], r, rfl, .nil, h⟩
  | _ :: _, _, _, .cons h hs => by
    obtain ⟨r1, r2, rfl, h1, h2⟩ := forall₂_append_left hs
    exact ⟨_ :: r1, r2, rfl, .cons h h1, h2⟩

theorem greatestAt_mono (index : List Nat) (x y : Nat) (h : x ≤ y) : greatestAt index x ≤ greatestAt index y := by
  unfold greatestAt
  have : (index.takeWhile (fun p => decide (p < x + 1))).length ≤ (index.takeWhile (fun p => decide (p < y + 1))).length := by
    induction index with
    | nil => simp
    | cons a l ih =>
      simp only [List.takeWhile_cons, decide_eq_true_eq]
      by_cases ha : a < x + 1
      · rw [if_pos ha, if_pos (by omega)]
        simp only [List.length_cons]
        omega
      · rw [if_neg ha]; simp
  omega

theorem greatestAt_lt {index : List Nat} (hi : index.length ≤ 2 ^ 32) (x : Nat) : greatestAt index x < 2 ^ 32 := by
  unfold greatestAt
  have := (List.takeWhile_prefix (l := index) (fun p => decide (p < x + 1))).length_le
  have : ((index.takeWhile (fun p => decide (p < x + 1))).length : Int) ≤ 2 ^ 32 := by exact_mod_cast this.trans hi
  omega

/-- what one request adds, and that the client gets the same answer -/
theorem answer_sim (cs : Log.Suite) (hE : ∀ x < n, db.entry x = .ok (E x)) (hi : index.length ≤ 2 ^ 32) {q : Req} {k : List Ev}
    {more : Bool} {done : List Nat} (p : Provider Produced) (hrec : Recorded (greatestAt index) done p.state.tracker)
    (hok : ∃ a, (p.answer (Produced.handle db index) q).1 = .ok a)
    (hfit : Fits (greatestAt index) n more done (⟨q, (p.answer (Produced.handle db index) q).1⟩ :: k)) :
    ∃ ts pfs done', Adds p (p.answer (Produced.handle db index) q).2 ts pfs ∧
      Recorded (greatestAt index) done' (p.answer (Produced.handle db index) q).2.state.tracker ∧
      Fits (greatestAt index) n more done' k ∧ (∀ need ∈ pfs, Provable n need) ∧
      decide (pfs ≠ []) = q.proves ∧
      ∀ full vs T P roots incl prs, List.Forall₂ (Convinces cs vs (greatestAt index) E) pfs prs →
        (more || k.any (fun e => e.q.proves)) = decide (P ≠ []) →
        (mirror p full vs (ts ++ T) (prs ++ P) roots incl).answer (Received.handle cs) q =
          ((p.answer (Produced.handle db index) q).1,
            mirror (p.answer (Produced.handle db index) q).2 full vs T P roots incl) := by
  cases q with
  | ts x =>
    obtain ⟨ts, h1, h2, h3⟩ := getTimestamp_sim (cs := cs) (index := index) hE hfit.1 p
    refine ⟨ts, [], done, h1, ?_, hfit.2, by simp, rfl, ?_⟩
    · rw [show (p.answer (Produced.handle db index) (.ts x)).2.state.tracker = _ from h2]; exact hrec
    · intro full vs T P roots incl prs hprs _
      cases hprs
      exact h3 full vs T P roots incl
  | search x v om =>
    obtain ⟨hx, hv, hdir, hk⟩ := hfit
    have he : p.answer (Produced.handle db index) (.search x v om) = viaRoot (Produced.handle db index) x _ p :=
      getSearch_eq _ x v om p
    have he' : ∀ (p : Provider Received), p.answer (Received.handle cs) (.search x v om) = viaRoot (Received.handle cs) x _ p :=
      fun p => getSearch_eq _ x v om p
    have key : ∃ w vt', produceLadder p.state.tracker x v om (greatestAt index x) = .ok (w, cmp3 (greatestAt index x) v, vt') ∧
        receiveLadder p.state.tracker x v om (w.map (fun (v : Nat) => decide ((v : Int) ≤ greatestAt index x))) =
          .ok (w, cmp3 (greatestAt index x) v, vt') ∧
        Recorded (greatestAt index) (if om then done ++ [x] else done) vt' ∧ w ≠ [] ∧ w.Nodup := by
      cases om with
      | true =>
        obtain ⟨w, vt', h1, h2, h3, h4, h5, _⟩ := visit_served hv (greatestAt_lt hi x) (greatestAt_mono index) hrec (hdir rfl)
        exact ⟨w, vt', h1, h2, h3, h4, h5⟩
      | false =>
        obtain ⟨w, h1, h2, h4, h5, _⟩ := visit_served_full hv p.state.tracker (greatestAt_lt hi x) (greatestAt_mono index)
        exact ⟨w, _, h1, h2, hrec, h4, h5⟩
    obtain ⟨w, vt', h1, h2, h3, h4, h5⟩ := key
    obtain ⟨s1, s2⟩ := search_sim (cs := cs) hE hx h1 h2
    obtain ⟨ts, pfs, a1, a2, a3, a4, a5⟩ := viaRoot_sim (cs := cs) (index := index) (fp := (Produced.handle db index).search x v om)
      (fr := (Received.handle cs).search x v om) hE hx p s1 s2
    rw [he] at hok ⊢
    obtain ⟨rfl, htr⟩ := a4 hok
    refine ⟨ts, _, _, a1, (show Recorded _ _ _ by
      exact htr.symm ▸ h3), hk, ?_, rfl, ?_⟩
    · intro need hneed
      rw [List.mem_singleton] at hneed
      subst hneed
      exact ⟨hx, h4, h5⟩
    · intro full vs T P roots incl prs hprs _
      rw [he']
      exact a5 full vs T P roots incl prs hprs
  | monitor x v =>
    obtain ⟨hx, hv, hg, hk⟩ := hfit
    have he : p.answer (Produced.handle db index) (.monitor x v) = viaRoot (Produced.handle db index) x _ p :=
      getMonitor_eq _ x v p
    have he' : ∀ (p : Provider Received), p.answer (Received.handle cs) (.monitor x v) = viaRoot (Received.handle cs) x _ p :=
      fun p => getMonitor_eq _ x v p
    have key : ∃ w, monitoringBinaryLadder v = .ok w ∧ (∀ u ∈ w, u ≤ v) ∧ w ≠ [] ∧ w.Nodup := by
      obtain ⟨b, hb, hbis, -, -, -⟩ := baseBinaryLadder_ok hv
      obtain ⟨w, h1, h2, h3, _⟩ := C19_monitoring_ladder hv
      refine ⟨w, h1, ?_, by rintro rfl; simp at h3, h2.imp (fun h => Nat.ne_of_lt h)⟩
      intro u hu
      unfold monitoringBinaryLadder at h1
      rw [hb] at h1
      have h1 := Except.ok.inj h1
      rw [← h1] at hu
      exact of_decide_eq_true (List.mem_filter.1 hu).2
    obtain ⟨w, h1, h2, h4, h5⟩ := key
    obtain ⟨s1, s2⟩ := monitor_sim (cs := cs) hE hx p.state.tracker h1 h2 hg
    obtain ⟨ts, pfs, a1, a2, a3, a4, a5⟩ := viaRoot_sim (cs := cs) (index := index)
      (fp := withUnit ((Produced.handle db index).monitor x v))
      (fr := withUnit ((Received.handle cs).monitor x v)) hE hx p s1 s2
    rw [he] at hok ⊢
    obtain ⟨rfl, htr⟩ := a4 hok
    refine ⟨ts, _, done, a1, (show Recorded _ _ _ by
      exact htr.symm ▸ hrec), hk, ?_, rfl, ?_⟩
    · intro need hneed
      rw [List.mem_singleton] at hneed
      subst hneed
      exact ⟨hx, h4, h5⟩
    · intro full vs T P roots incl prs hprs _
      rw [he']
      exact a5 full vs T P roots incl prs hprs
  | incl x vers =>
    obtain ⟨hc, hk⟩ := hfit
    have he : p.answer (Produced.handle db index) (.incl x vers) = _ := getIncl_eq (Produced.handle db index) x vers p
    have he' : ∀ (p : Provider Received), p.answer (Received.handle cs) (.incl x vers) = _ :=
      fun p => getIncl_eq (Received.handle cs) x vers p
    rcases hc with rfl | ⟨hx, v, rfl, hg⟩
    · rw [he] at hok ⊢
      refine ⟨[], [], done, Adds.refl p, hrec, hk, by simp, rfl, ?_⟩
      intro full vs T P roots incl prs hprs _
      cases hprs
      rw [he']
      rfl
    · rw [if_neg (by simp)] at he
      obtain ⟨s1, s2⟩ := incl_sim (cs := cs) hE hx p.state.tracker hg
      obtain ⟨ts, pfs, a1, a2, a3, a4, a5⟩ := viaRoot_sim (cs := cs) (index := index)
        (fp := withUnit ((Produced.handle db index).incl x [v]))
        (fr := withUnit ((Received.handle cs).incl x [v])) hE hx p s1 s2
      rw [he] at hok ⊢
      obtain ⟨rfl, htr⟩ := a4 hok
      refine ⟨ts, _, done, a1, (show Recorded _ _ _ by
      exact htr.symm ▸ hrec), hk, ?_, rfl, ?_⟩
      · intro need hneed
        rw [List.mem_singleton] at hneed
        subst hneed
        exact ⟨hx, by simp, by simp⟩
      · intro full vs T P roots incl prs hprs _
        rw [he', if_neg (by simp)]
        exact a5 full vs T P roots incl prs hprs
  | stop x v =>
    refine ⟨[], [], done, Adds.refl p, hrec, hfit.2, by simp, rfl, ?_⟩
    intro full vs T P roots incl prs hprs hP
    cases hprs
    have h1 := hfit.1
    rw [hP] at h1
    rw [h1]
    have : P.isEmpty = !decide (P ≠ []) := by cases P <;> rfl
    rw [← this]
    rfl
  | addLadder x om g l => exact absurd hfit (by simp [Fits])

/-- whole runs -/
theorem run_sim (cs : Log.Suite) (hE : ∀ x < n, db.entry x = .ok (E x)) (hi : index.length ≤ 2 ^ 32) {α : Type} (prog : Prog α)
    {more : Bool} {done : List Nat} (p : Provider Produced) (hrec : Recorded (greatestAt index) done p.state.tracker)
    (hok : ∀ e ∈ p.trace (Produced.handle db index) prog, ∃ a, e.a = .ok a)
    (hfit : Fits (greatestAt index) n more done (p.trace (Produced.handle db index) prog)) :
    ∃ ts pfs done', Adds p (p.run (Produced.handle db index) prog).2 ts pfs ∧
      Recorded (greatestAt index) done' (p.run (Produced.handle db index) prog).2.state.tracker ∧
      (∀ need ∈ pfs, Provable n need) ∧
      decide (pfs ≠ []) = (p.trace (Produced.handle db index) prog).any (fun e => e.q.proves) ∧
      ∀ full vs T P roots incl prs, List.Forall₂ (Convinces cs vs (greatestAt index) E) pfs prs →
        more = decide (P ≠ []) →
        (mirror p full vs (ts ++ T) (prs ++ P) roots incl).run (Received.handle cs) prog =
          ((p.run (Produced.handle db index) prog).1,
            mirror (p.run (Produced.handle db index) prog).2 full vs T P roots incl) := by
  induction prog generalizing p done with
  | ret r =>
    refine ⟨[], [], done, Adds.refl p, hrec, by simp, rfl, ?_⟩
    intro full vs T P roots incl prs hprs _
    cases hprs
    rfl
  | op q k ih =>
    obtain ⟨ts1, pfs1, done1, a1, a2, a3, a4, a5, a6⟩ := answer_sim cs hE hi p hrec (hok _ List.mem_cons_self) hfit
    obtain ⟨ts2, pfs2, done2, b1, b2, b3, b4, b5⟩ := ih (p.answer (Produced.handle db index) q).1 (p.answer (Produced.handle db index) q).2 a2
      (fun e he => hok e (List.mem_cons_of_mem _ he)) a3
    refine ⟨ts1 ++ ts2, pfs1 ++ pfs2, done2, a1.trans b1, b2, ?_, ?_, ?_⟩
    · intro need hn
      rcases List.mem_append.1 hn with hn | hn
      · exact a4 _ hn
      · exact b3 _ hn
    · unfold Provider.trace
      rw [List.any_cons, ← b4, ← a5]
      cases pfs1 <;> simp
    · intro full vs T P roots incl prs hprs hP
      obtain ⟨prs1, prs2, rfl, h1, h2⟩ : ∃ prs1 prs2, prs = prs1 ++ prs2 ∧
          List.Forall₂ (Convinces cs vs (greatestAt index) E) pfs1 prs1 ∧
          List.Forall₂ (Convinces cs vs (greatestAt index) E) pfs2 prs2 := by
        exact forall₂_append_left hprs
      unfold Provider.run
      rw [List.append_assoc, List.append_assoc, a6 full vs (ts2 ++ T) (prs2 ++ P) roots incl prs1 h1 ?_]
      · exact b5 full vs T P roots incl prs2 h2 hP
      · rw [← b4, hP]
        cases h2 <;> simp

end
end Katie.Alg
