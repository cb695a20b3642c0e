import Verif.Lemmas.Ladder

/-
C19 binary ladders terminate and bracket the version, C55 their length, C20 interpretation of search
ladders, C21 omission of lookups, C22 agreement of server and client.

Specification: `Bisection n l` (Lemmas/Ladder.lean): the elements of `l` at or below `n` are strictly
increasing and end with `n`, the elements above `n` are strictly decreasing and end with `n + 1`.
-/

namespace Katie.Props
open Katie Katie.Ladder

/-! ### C19, C55 -/

/-- For every version below `2^31 - 1` the ladder is computed (any larger iteration limit changes
nothing), starts with 0 and bisects the version. -/
theorem C19_ladder_terminates_partial {n : Nat} (hn : n < 2 ^ 31 - 1) :
    ∃ l, baseBinaryLadder n = .ok l ∧ (∀ fuel, 64 ≤ fuel → baseLadderFuel fuel n = .ok l) ∧
      Bisection n l ∧ l.head? = some 0 := by
  obtain ⟨l, h1, h2, h3, h4, -⟩ := base_ok hn 64 (le_refl _)
  refine ⟨l, h1, ?_, h2, h4⟩
  intro fuel hf
  -- more fuel gives the same list
  have mono1 : ∀ f len l, rise f len n = .ok l → ∀ f', f ≤ f' → rise f' len n = .ok l := by
    intro f
    induction f with
    | zero => intro len l h; simp [rise] at h
    | succ f ih =>
      intro len l h f' hf'
      obtain ⟨f', rfl⟩ : ∃ k, f' = k + 1 := ⟨f' - 1, by omega⟩
      unfold rise at h ⊢
      simp only at h ⊢
      split at h
      · next hc => rw [if_pos hc]; exact h
      · next hc =>
        rw [if_neg hc]
        obtain ⟨r, hr, he⟩ := G.bind_eq_ok.mp h
        rw [ih _ r hr f' (by omega)]; exact he
  have mono2 : ∀ f lo hi l, bisect f n lo hi = .ok l → ∀ f', f ≤ f' → bisect f' n lo hi = .ok l := by
    intro f
    induction f with
    | zero => intro lo hi l h; simp [bisect] at h
    | succ f ih =>
      intro lo hi l h f' hf'
      obtain ⟨f', rfl⟩ : ∃ k, f' = k + 1 := ⟨f' - 1, by omega⟩
      unfold bisect at h ⊢
      split at h
      · next hc =>
        rw [if_pos hc]
        simp only at h ⊢
        split at h
        · next hv =>
          obtain ⟨r, hr, he⟩ := G.bind_eq_ok.mp h
          rw [if_pos hv, ih _ _ r hr f' (by omega)]; exact he
        · next hv =>
          obtain ⟨r, hr, he⟩ := G.bind_eq_ok.mp h
          rw [if_neg hv, ih _ _ r hr f' (by omega)]; exact he
      · next hc => rw [if_neg hc]; exact h
  unfold baseLadderFuel at h1 ⊢
  obtain ⟨out, ho, h1⟩ := G.bind_eq_ok.mp h1
  rw [mono1 _ _ _ ho fuel hf]
  simp only [G.ok_bind]
  split at h1
  · next u v w hr =>
    obtain ⟨r, hr', he⟩ := G.bind_eq_ok.mp h1
    rw [mono2 _ _ _ _ hr' fuel hf]; exact he
  · exact absurd h1 (G.goPanic_ne_ok _ _)

/-- The full claim of C19 (for every 32-bit version) is false: from `2^31 - 1` on, the computation
never ends, whatever the iteration limit. -/
theorem C19_ladder_diverges {n : Nat} (h1 : 2 ^ 31 - 1 ≤ n) (h2 : n < 2 ^ 32) :
    ∀ fuel, baseLadderFuel fuel n = .error .diverge := base_diverges h1 h2

theorem C19_all_versions_false :
    ¬ ∀ n, n < 2 ^ 32 → ∃ fuel l, baseLadderFuel fuel n = .ok l ∧ Bisection n l := by
  intro h
  obtain ⟨f, l, hl, -⟩ := h (2 ^ 31 - 1) (by norm_num)
  rw [base_diverges (by norm_num) (by norm_num)] at hl
  exact absurd hl (by simp)

/-- The monitoring ladder of a version: the rising part of its ladder. -/
theorem C19_monitoring_ladder {t : Nat} (ht : t < 2 ^ 31 - 1) :
    ∃ l, monitoringBinaryLadder t = .ok l ∧ l.Pairwise (· < ·) ∧ l.getLast? = some t ∧ l.head? = some 0 := by
  obtain ⟨b, hb, hbis, -, hh, -⟩ := baseBinaryLadder_ok ht
  refine ⟨b.filter (fun v => v ≤ t), ?_, hbis.low, hbis.lowEnd, ?_⟩
  · unfold monitoringBinaryLadder; rw [hb]; rfl
  · obtain ⟨r, rfl⟩ : ∃ r, b = 0 :: r := by
      cases b with
      | nil => simp at hh
      | cons a r => simp at hh; exact ⟨r, by rw [hh]⟩
    simp

example : baseBinaryLadder 5 = .ok [0, 1, 3, 7, 5, 6] ∧ monitoringBinaryLadder 5 = .ok [0, 1, 3, 5] := by decide

/-- C55: at most 62 (so at most `2*32+1`) lookups. -/
theorem C55_ladder_length {n : Nat} {l : List Nat} (h : baseBinaryLadder n = .ok l) (hn : n < 2 ^ 32) :
    l.length ≤ 62 := by
  by_cases hb : n < 2 ^ 31 - 1
  · obtain ⟨l', h1, -, h3, -⟩ := baseBinaryLadder_ok hb
    rw [h] at h1
    rw [Except.ok.inj h1]; exact h3
  · unfold baseBinaryLadder at h
    rw [base_diverges (by omega) hn] at h
    exact absurd h (by simp)

/-- the bound is attained -/
example : (baseBinaryLadder (2 ^ 31 - 2)).toOption.map List.length = some 62 := by decide

/-! ### C20 -/

/-- Every outcome of interpreting a ladder, in terms of the answers: equal exactly when every version
was answered and included iff at most the target; greater exactly when the answers agree with that up
to a final inclusion of a version above the target; less when they agree up to a final non-inclusion of
a version at or below the target. Everything else is an error. -/
theorem C20_interpretation (ladder : List Nat) (t : Nat) (results : List Bool) :
    (interpretSearchLadder ladder t results = .ok 0 ↔ results = ladder.map (fun v => decide (v ≤ t))) ∧
    (interpretSearchLadder ladder t results = .ok 1 ↔ ∃ pre v post, ladder = pre ++ v :: post ∧ t < v ∧
      results = pre.map (fun v => decide (v ≤ t)) ++ [true]) ∧
    (interpretSearchLadder ladder t results = .ok (-1) ↔ ∃ pre v post, ladder = pre ++ v :: post ∧ v ≤ t ∧
      results = pre.map (fun v => decide (v ≤ t)) ++ [false]) ∧
    (∀ r, interpretSearchLadder ladder t results = .ok r → r = 0 ∨ r = 1 ∨ r = -1) := by
  have key : ∀ (ladder : List Nat) (results : List Bool), results.length ≤ ladder.length →
      (interpretLoop t ladder results = .ok 0 ↔ results = ladder.map (fun v => decide (v ≤ t))) ∧
      (interpretLoop t ladder results = .ok 1 ↔ ∃ pre v post, ladder = pre ++ v :: post ∧ t < v ∧
        results = pre.map (fun v => decide (v ≤ t)) ++ [true]) ∧
      (interpretLoop t ladder results = .ok (-1) ↔ ∃ pre v post, ladder = pre ++ v :: post ∧ v ≤ t ∧
        results = pre.map (fun v => decide (v ≤ t)) ++ [false]) ∧
      (∀ r, interpretLoop t ladder results = .ok r → r = 0 ∨ r = 1 ∨ r = -1) := by
    intro ladder
    induction ladder with
    | nil =>
      intro results hl
      have : results = [] := by simpa using hl
      subst this
      simp [interpretLoop]
    | cons v rest ih =>
      intro results hl
      cases results with
      | nil =>
        simp [interpretLoop, goErr]
      | cons b bs =>
        have ih := ih bs (by simpa using hl)
        unfold interpretLoop
        by_cases hv : v ≤ t
        · have hv' : ¬ v > t := by omega
          cases b with
          | true =>
            simp only [hv', decide_false, Bool.and_false, Bool.false_eq_true, if_false, Bool.not_true,
              Bool.false_and]
            refine ⟨?_, ?_, ?_, ih.2.2.2⟩
            · rw [ih.1]; simp [hv]
            · rw [ih.2.1]
              constructor
              · rintro ⟨pre, w, post, rfl, h1, rfl⟩
                exact ⟨v :: pre, w, post, rfl, h1, by simp [hv]⟩
              · rintro ⟨pre, w, post, h1, h2, h3⟩
                cases pre with
                | nil => simp at h1; omega
                | cons p pre =>
                  simp at h1 h3
                  exact ⟨pre, w, post, h1.2, h2, h3.2⟩
            · rw [ih.2.2.1]
              constructor
              · rintro ⟨pre, w, post, rfl, h1, rfl⟩
                exact ⟨v :: pre, w, post, rfl, h1, by simp [hv]⟩
              · rintro ⟨pre, w, post, h1, h2, h3⟩
                cases pre with
                | nil => simp at h3
                | cons p pre =>
                  simp at h1 h3
                  exact ⟨pre, w, post, h1.2, h2, h3.2⟩
          | false =>
            simp only [hv, Bool.false_and, Bool.false_eq_true, if_false, Bool.not_false, decide_true,
              Bool.and_self, if_true]
            cases bs with
            | nil =>
              simp only [ne_eq, not_true, if_false, G.pure_eq]
              refine ⟨by simp [hv], ?_, ?_, by simp⟩
              · constructor
                · intro h; simp at h
                · rintro ⟨pre, w, post, h1, h2, h3⟩
                  cases pre <;> simp at h3
              · constructor
                · intro _; exact ⟨[], v, rest, rfl, hv, rfl⟩
                · intro _; trivial
            | cons c cs =>
              simp only [ne_eq, reduceCtorEq, not_false_eq_true, if_true]
              refine ⟨by simp [goErr, hv], ?_, ?_, by simp [goErr]⟩
              · constructor
                · intro h; simp [goErr] at h
                · rintro ⟨pre, w, post, h1, h2, h3⟩
                  cases pre with
                  | nil => simp at h3
                  | cons p pre => simp at h1 h3; omega
              · constructor
                · intro h; simp [goErr] at h
                · rintro ⟨pre, w, post, h1, h2, h3⟩
                  cases pre with
                  | nil => simp at h3
                  | cons p pre => simp at h1 h3; omega
        · have hv' : v > t := by omega
          cases b with
          | false =>
            simp only [hv, Bool.false_and, Bool.false_eq_true, if_false, Bool.not_false, decide_false,
              Bool.and_false]
            refine ⟨?_, ?_, ?_, ih.2.2.2⟩
            · rw [ih.1]; simp [hv]
            · rw [ih.2.1]
              constructor
              · rintro ⟨pre, w, post, rfl, h1, rfl⟩
                exact ⟨v :: pre, w, post, rfl, h1, by simp [hv]⟩
              · rintro ⟨pre, w, post, h1, h2, h3⟩
                cases pre with
                | nil => simp at h3
                | cons p pre =>
                  simp at h1 h3
                  exact ⟨pre, w, post, h1.2, h2, h3.2⟩
            · rw [ih.2.2.1]
              constructor
              · rintro ⟨pre, w, post, rfl, h1, rfl⟩
                exact ⟨v :: pre, w, post, rfl, h1, by simp [hv]⟩
              · rintro ⟨pre, w, post, h1, h2, h3⟩
                cases pre with
                | nil => simp at h1; omega
                | cons p pre =>
                  simp at h1 h3
                  exact ⟨pre, w, post, h1.2, h2, h3.2⟩
          | true =>
            simp only [hv', decide_true, Bool.and_self, if_true]
            cases bs with
            | nil =>
              simp only [ne_eq, not_true, if_false, G.pure_eq]
              refine ⟨by simp; omega, ?_, ?_, by simp⟩
              · constructor
                · intro _; exact ⟨[], v, rest, rfl, hv', rfl⟩
                · intro _; trivial
              · constructor
                · intro h; simp at h
                · rintro ⟨pre, w, post, h1, h2, h3⟩
                  cases pre <;> simp at h3
            | cons c cs =>
              simp only [ne_eq, reduceCtorEq, not_false_eq_true, if_true]
              refine ⟨by simp [goErr, hv], ?_, ?_, by simp [goErr]⟩
              · constructor
                · intro h; simp [goErr] at h
                · rintro ⟨pre, w, post, h1, h2, h3⟩
                  cases pre with
                  | nil => simp at h3
                  | cons p pre => simp at h1 h3; omega
              · constructor
                · intro h; simp [goErr] at h
                · rintro ⟨pre, w, post, h1, h2, h3⟩
                  cases pre with
                  | nil => simp at h3
                  | cons p pre => simp at h1 h3; omega
  unfold interpretSearchLadder
  by_cases hl : results.length > ladder.length
  · rw [if_pos hl]
    refine ⟨?_, ?_, ?_, by simp [goErr]⟩
    · constructor
      · intro h; simp [goErr] at h
      · rintro rfl; simp at hl
    · constructor
      · intro h; simp [goErr] at h
      · rintro ⟨pre, w, post, rfl, h1, rfl⟩; simp at hl
    · constructor
      · intro h; simp [goErr] at h
      · rintro ⟨pre, w, post, rfl, h1, rfl⟩; simp at hl
  · rw [if_neg hl]; exact key ladder results (by omega)

/-- "Equal" needs the target to be included and its successor (the least upper bound of the ladder) to
be excluded, whatever the answers. -/
theorem C20_equal_needs_bounds {t : Nat} {ladder : List Nat} {results : List Bool}
    (ht : t < 2 ^ 31 - 1) (hl : searchBinaryLadder t t [] [] = .ok ladder)
    (h : interpretSearchLadder ladder t results = .ok 0) :
    (t, true) ∈ ladder.zip results ∧ (t + 1, false) ∈ ladder.zip results := by
  obtain ⟨b, hb, hbis, -⟩ := baseBinaryLadder_ok ht
  have hl' : ladder = b := by
    unfold searchBinaryLadder at hl
    rw [hb] at hl
    simp only [G.ok_bind, G.pure_eq, searchLoop_self] at hl
    rw [← Except.ok.inj hl]; simp
  subst hl'
  have hr := (C20_interpretation ladder t results).1.1 h
  have m1 : t ∈ ladder := (List.mem_filter.1 (List.mem_of_getLast? hbis.lowEnd)).1
  have m2 : t + 1 ∈ ladder := (List.mem_filter.1 (List.mem_of_getLast? hbis.highEnd)).1
  have hz : ladder.zip results = ladder.map (fun v => (v, decide (v ≤ t))) := by
    rw [hr, List.zip_map_right]
    induction ladder with
    | nil => rfl
    | cons a l _ => simp [List.zip_eq_zipWith]
  rw [hz]
  constructor
  · exact List.mem_map.2 ⟨t, m1, by simp⟩
  · exact List.mem_map.2 ⟨t + 1, m2, by simp⟩

/-! ### C21, C22: a whole search session -/

/-- The server's side of a session: it visits the log entries `xs` in order, looking for version `t`;
`gAt x` is the greatest version existing at entry `x` (`-1` if none).  Yields for every visit the
versions proved and the comparison. -/
def serveAll (t : Nat) (gAt : Nat → Int) : Tracker → List Nat → G (List (List Nat × Int) × Tracker)
  | vt, [] => pure ([], vt)
  | vt, x :: xs => do
    let r ← produceLadder vt x t true (gAt x)
    let rest ← serveAll t gAt r.2.2 xs
    pure ((r.1, r.2.1) :: rest.1, rest.2)

/-- The client's side: for every visited entry it receives the inclusion flags `flags x`. -/
def receiveAll (t : Nat) : Tracker → List (Nat × List Bool) → G (List (List Nat × Int) × Tracker)
  | vt, [] => pure ([], vt)
  | vt, (x, flags) :: xs => do
    let r ← receiveLadder vt x t true flags
    let rest ← receiveAll t r.2.2 xs
    pure ((r.1, r.2.1) :: rest.1, rest.2)

/-- A session that a binary search for version `t` can produce on a log whose greatest version never
decreases: the search moves right of an entry only if the greatest version there is at most `t`, and
left of it only if it is at least `t`. -/
structure Session (t : Nat) (gAt : Nat → Int) (xs : List Nat) : Prop where
  mono : ∀ x y, x ≤ y → gAt x ≤ gAt y
  range : ∀ x, gAt x < 2 ^ 32
  dir : xs.Pairwise (fun a b => (a < b → gAt a ≤ t) ∧ (b < a → (t : Int) ≤ gAt a))

/-- what is recorded in a tracker is true -/
def Recorded (gAt : Nat → Int) (done : List Nat) (vt : Tracker) : Prop :=
  (∀ e ∈ vt.inclusion, e.1 ∈ done ∧ ∀ v ∈ e.2, (v : Int) ≤ gAt e.1) ∧
  (∀ e ∈ vt.nonInclusion, e.1 ∈ done ∧ ∀ v ∈ e.2, gAt e.1 < (v : Int))

theorem zip_prefix {w l : List Nat} (f : Nat → Bool) (h : w <+: l) :
    l.zip (w.map f) = w.map (fun v => (v, f v)) := by
  obtain ⟨r, rfl⟩ := h
  induction w with
  | nil => simp
  | cons a w ih => simp only [List.cons_append, List.map_cons, List.zip_cons_cons]; rw [ih]

/-- One visit: whatever true facts the two trackers (which agree) contain, the server proves a prefix
of the client's ladder, the client reads exactly that prefix and gets the true comparison, and the
trackers agree again. -/
theorem visit_agrees {t : Nat} (ht : t < 2 ^ 31 - 1) {gAt : Nat → Int} {done : List Nat} {vt : Tracker} {x : Nat}
    (hrange : gAt x < 2 ^ 32) (hm : ∀ x y, x ≤ y → gAt x ≤ gAt y) (hvt : Recorded gAt done vt)
    (hdir : ∀ a ∈ done, (a < x → gAt a ≤ t) ∧ (x < a → (t : Int) ≤ gAt a)) :
    ∃ w full vt', produceLadder vt x t true (gAt x) = .ok (w, cmp3 (gAt x) t, vt') ∧
      receiveLadder vt x t true (w.map (fun (v : Nat) => decide ((v : Int) ≤ gAt x))) = .ok (w, cmp3 (gAt x) t, vt') ∧
      searchBinaryLadder t t (vt.searchMaps x true).1 (vt.searchMaps x true).2 = .ok full ∧ w <+: full ∧
      Recorded gAt (done ++ [x]) vt' := by
  obtain ⟨b, hb, hbis, -, hh, -⟩ := baseBinaryLadder_ok ht
  generalize hL : (vt.searchMaps x true).1 = L
  generalize hR : (vt.searchMaps x true).2 = R
  have hLm : ∀ v ∈ L, ∃ p ∈ done, p < x ∧ (v : Int) ≤ gAt p := by
    intro v hv
    rw [← hL] at hv
    unfold Tracker.searchMaps at hv
    simp only [Bool.not_true, Bool.false_eq_true, if_false, List.mem_flatMap, List.mem_filter, decide_eq_true_eq] at hv
    obtain ⟨e, ⟨he, hlt⟩, hv⟩ := hv
    exact ⟨e.1, (hvt.1 e he).1, hlt, (hvt.1 e he).2 v hv⟩
  have hRm : ∀ v ∈ R, ∃ p ∈ done, x < p ∧ gAt p < (v : Int) := by
    intro v hv
    rw [← hR] at hv
    unfold Tracker.searchMaps at hv
    simp only [Bool.not_true, Bool.false_eq_true, if_false, List.mem_flatMap, List.mem_filter, decide_eq_true_eq] at hv
    obtain ⟨e, ⟨he, hlt⟩, hv⟩ := hv
    exact ⟨e.1, (hvt.2 e he).1, hlt, (hvt.2 e he).2 v hv⟩
  set om : Nat → Bool := fun v => L.contains v || R.contains v with hom
  have hns : ∀ v, om v = true → stops (gAt x) t v = false := by
    intro v hv
    simp only [hom, Bool.or_eq_true, List.contains_iff_mem] at hv
    unfold stops
    rw [decide_eq_false_iff_not]
    rcases hv with hv | hv
    · obtain ⟨p, hp, hlt, hle⟩ := hLm v hv
      have h1 := (hdir p hp).1 hlt
      have h2 := hm p x (by omega)
      omega
    · obtain ⟨p, hp, hlt, hle⟩ := hRm v hv
      have h1 := (hdir p hp).2 hlt
      have h2 := hm x p (by omega)
      omega
  set w := walk (gAt x) t om b with hw
  have hfull : searchBinaryLadder t t L R = .ok (b.filter (fun v => !om v)) := by
    unfold searchBinaryLadder
    rw [hb]
    simp only [G.ok_bind, G.pure_eq, searchLoop_self]
    rfl
  have hpre : w <+: b.filter (fun v => !om v) := walk_prefix _ _ _ _
  have hprod : producedVersions vt x t true (gAt x) = .ok w := by
    unfold producedVersions
    by_cases hg : gAt x < 0
    · rw [if_pos hg]
      obtain ⟨r, rfl⟩ : ∃ r, b = 0 :: r := by
        cases b with
        | nil => simp at hh
        | cons a r => simp at hh; exact ⟨r, by rw [hh]⟩
      have hom0 : om 0 = false := by
        by_contra hc
        have hc : om 0 = true := by simpa using hc
        have := hns 0 hc
        unfold stops at this
        rw [decide_eq_false_iff_not] at this
        apply this
        right
        constructor
        · exact_mod_cast hg
        · omega
      have hs0 : stops (gAt x) t 0 = true := by
        unfold stops
        rw [decide_eq_true_eq]
        right
        constructor
        · exact_mod_cast hg
        · omega
      rw [hw]
      unfold walk
      simp only [hom0, Bool.false_eq_true, if_false, hs0, if_true]
      rfl
    · rw [if_neg hg]
      simp only [hL, hR]
      unfold searchBinaryLadder
      rw [hb]
      simp only [G.ok_bind, G.pure_eq, searchLoop_walk]
      have : (gAt x).toNat % 2 ^ 32 = (gAt x).toNat := Nat.mod_eq_of_lt (by omega)
      rw [this, Int.toNat_of_nonneg (by omega)]
  set flags := w.map (fun (v : Nat) => decide ((v : Int) ≤ gAt x)) with hflags
  have hlen : ¬ flags.length > (b.filter (fun v => !om v)).length := by
    have := hpre.length_le
    rw [hflags, List.length_map]; omega
  refine ⟨w, b.filter (fun v => !om v), vt.addLadder x true (gAt x) w, ?_, ?_, hfull, hpre, ?_⟩
  · unfold produceLadder
    rw [hprod]
    simp only [G.ok_bind, G.pure_eq, cmp3]
  · unfold receiveLadder
    simp only [hL, hR, hfull, G.ok_bind]
    have hi : interpretSearchLadder (b.filter (fun v => !om v)) t flags = .ok (cmp3 (gAt x) t) := by
      unfold interpretSearchLadder
      rw [if_neg hlen, hflags, hw, interpret_walk _ _ _ _ hns, cmp3_of_bisection hbis]
    rw [hi]
    simp only [G.ok_bind]
    have ha : vt.addResults x true (b.filter (fun v => !om v)) flags = .ok (vt.addLadder x true (gAt x) w) := by
      unfold Tracker.addResults Tracker.addLadder
      simp only [Bool.not_true, Bool.false_eq_true, if_false]
      rw [if_neg hlen, hflags, zip_prefix _ hpre]
      simp only [List.filter_map, List.map_map, G.pure_eq]
      congr 5
      · have : ((fun x : Nat × Bool => x.1) ∘ fun v : Nat => (v, decide ((v : Int) ≤ gAt x))) = id := rfl
        rw [this, List.map_id]; rfl
      · have : ((fun x : Nat × Bool => x.1) ∘ fun v : Nat => (v, decide ((v : Int) ≤ gAt x))) = id := rfl
        rw [this, List.map_id]
        apply List.filter_congr
        intro v _
        by_cases hv : (v : Int) ≤ gAt x
        · simp [hv]
        · have : gAt x < (v : Int) := by omega
          simp [hv, this]
    rw [ha]
    simp only [G.ok_bind, G.pure_eq]
    have : (b.filter (fun v => !om v)).take flags.length = w := by
      rw [hflags, List.length_map]; exact (List.prefix_iff_eq_take.1 hpre).symm
    rw [this]
  · unfold Tracker.addLadder
    simp only [Bool.not_true, Bool.false_eq_true, if_false]
    constructor
    · intro e he
      rcases List.mem_append.1 he with he | he
      · exact ⟨List.mem_append_left _ (hvt.1 e he).1, (hvt.1 e he).2⟩
      · rw [List.mem_singleton] at he
        subst he
        refine ⟨by simp, fun v hv => ?_⟩
        simpa using (List.mem_filter.1 hv).2
    · intro e he
      rcases List.mem_append.1 he with he | he
      · exact ⟨List.mem_append_left _ (hvt.2 e he).1, (hvt.2 e he).2⟩
      · rw [List.mem_singleton] at he
        subst he
        refine ⟨by simp, fun v hv => ?_⟩
        simpa using (List.mem_filter.1 hv).2

/-- C20, C21, C22 for a whole search session with omission of redundant lookups: the client, given the
true inclusion flags of the versions the server chose to prove, reads at every visited entry exactly
those versions, and both sides get the true comparison of the greatest version with the target. -/
theorem C22_session_agrees {t : Nat} (ht : t < 2 ^ 31 - 1) {gAt : Nat → Int} {xs : List Nat}
    (hs : Session t gAt xs) :
    ∃ out vt, serveAll t gAt {} xs = .ok (out, vt) ∧
      out.map (·.2) = xs.map (fun x => cmp3 (gAt x) t) ∧
      receiveAll t {} (xs.zip (List.zipWith (fun x o => o.1.map (fun (v : Nat) => decide ((v : Int) ≤ gAt x))) xs out)) =
        .ok (out, vt) := by
  have key : ∀ (xs done : List Nat) (vt : Tracker), Recorded gAt done vt →
      (done ++ xs).Pairwise (fun a b => (a < b → gAt a ≤ t) ∧ (b < a → (t : Int) ≤ gAt a)) →
      ∃ out vt', serveAll t gAt vt xs = .ok (out, vt') ∧
        out.map (·.2) = xs.map (fun x => cmp3 (gAt x) t) ∧
        receiveAll t vt (xs.zip (List.zipWith (fun x o => o.1.map (fun (v : Nat) => decide ((v : Int) ≤ gAt x))) xs out)) =
          .ok (out, vt') := by
    intro xs
    induction xs with
    | nil => intro done vt _ _; exact ⟨[], vt, rfl, rfl, rfl⟩
    | cons x xs ih =>
      intro done vt hrec hp
      have hdir : ∀ a ∈ done, (a < x → gAt a ≤ t) ∧ (x < a → (t : Int) ≤ gAt a) := by
        intro a ha
        exact (List.pairwise_append.1 hp).2.2 a ha x (by simp)
      obtain ⟨w, full, vt1, hprod, hrecv, -, -, hrec1⟩ := visit_agrees ht (hs.range x) hs.mono hrec hdir
      obtain ⟨out, vt2, h1, h2, h3⟩ := ih (done ++ [x]) vt1 hrec1 (by simpa using hp)
      refine ⟨(w, cmp3 (gAt x) t) :: out, vt2, ?_, ?_, ?_⟩
      · unfold serveAll; rw [hprod]; simp only [G.ok_bind, h1, G.pure_eq]
      · simp [h2]
      · simp only [List.zipWith_cons_cons, List.zip_cons_cons]
        unfold receiveAll
        rw [hrecv]
        simp only [G.ok_bind, h3, G.pure_eq]
  exact key xs [] {} ⟨by simp, by simp⟩ (by simpa using hs.dir)

/-- C22 for a single entry: the versions proved are a prefix of the versions the client expects, of
exactly the length at which the client stops reading. -/
theorem C22_prefix {t : Nat} (ht : t < 2 ^ 31 - 1) {gAt : Nat → Int} {done : List Nat} {vt : Tracker} {x : Nat}
    (hs : Session t gAt (done ++ [x])) (hvt : Recorded gAt done vt) :
    ∃ w full, producedVersions vt x t true (gAt x) = .ok w ∧
      searchBinaryLadder t t (vt.searchMaps x true).1 (vt.searchMaps x true).2 = .ok full ∧ w <+: full ∧
      ∀ flags : List Bool, (∀ p ∈ full.zip flags, p.2 = decide ((p.1 : Int) ≤ gAt x)) →
        (flags.length = w.length ↔ ∃ r, interpretSearchLadder full t flags = .ok r) := by
  have hdir : ∀ a ∈ done, (a < x → gAt a ≤ t) ∧ (x < a → (t : Int) ≤ gAt a) := by
    intro a ha
    exact (List.pairwise_append.1 hs.dir).2.2 a ha x (by simp)
  obtain ⟨w, full, vt', hprod, hrecv, hfull, hpre, -⟩ := visit_agrees ht (hs.range x) hs.mono hvt hdir
  have hp : producedVersions vt x t true (gAt x) = .ok w := by
    unfold produceLadder at hprod
    obtain ⟨a, ha, hb⟩ := G.bind_eq_ok.mp hprod
    rw [ha]
    simp only [G.pure_eq, Except.ok.injEq, Prod.mk.injEq] at hb
    rw [hb.1]
  refine ⟨w, full, hp, hfull, hpre, ?_⟩
  have hi : interpretSearchLadder full t (w.map (fun (v : Nat) => decide ((v : Int) ≤ gAt x))) = .ok (cmp3 (gAt x) t) := by
    unfold receiveLadder at hrecv
    simp only [hfull, G.ok_bind] at hrecv
    obtain ⟨a, ha, hb⟩ := G.bind_eq_ok.mp hrecv
    obtain ⟨c, hc, hd⟩ := G.bind_eq_ok.mp hb
    simp only [G.pure_eq, Except.ok.injEq, Prod.mk.injEq] at hd
    rw [ha, hd.2.1]
  intro flags hflags
  -- truthful flags of at most the ladder's length are determined by their number
  have hdet : flags.length ≤ full.length → flags = (full.take flags.length).map (fun (v : Nat) => decide ((v : Int) ≤ gAt x)) := by
    intro hle
    apply List.ext_getElem
    · simp; omega
    · intro i h1 h2
      have h3 : i < full.length := by omega
      have := hflags (full[i], flags[i]) (by
        rw [List.mem_iff_getElem]
        exact ⟨i, by simp; omega, by simp⟩)
      simpa using this
  have hw : w = full.take w.length := List.prefix_iff_eq_take.1 hpre
  have hwle := hpre.length_le
  -- interpretation succeeds for at most one number of truthful flags
  have uniq : ∀ (l : List Nat) (a b : List Bool) r r', a <+: b → interpretLoop t l a = .ok r →
      interpretLoop t l b = .ok r' → b.length ≤ l.length → a = b := by
    intro l
    induction l with
    | nil => intro a b r r' hab _ _ hb; simp at hb; subst hb; simpa using hab
    | cons v l ih =>
      intro a b r r' hab ha hb hle
      cases a with
      | nil => simp [interpretLoop, goErr] at ha
      | cons y ys =>
        obtain ⟨z, rfl⟩ := hab
        simp only [List.cons_append] at hb ⊢
        unfold interpretLoop at ha hb
        split at ha
        · next hc =>
          rw [if_pos hc] at hb
          have hz : ys ++ z = [] := by
            by_contra hz; rw [if_pos hz] at hb; simp [goErr] at hb
          simp at hz; simp [hz]
        · next hc =>
          rw [if_neg hc] at hb
          split at ha
          · next hc2 =>
            rw [if_pos hc2] at hb
            have hz : ys ++ z = [] := by
              by_contra hz; rw [if_pos hz] at hb; simp [goErr] at hb
            simp at hz; simp [hz]
          · next hc2 =>
            rw [if_neg hc2] at hb
            exact congrArg _ (ih ys (ys ++ z) r r' (List.prefix_append _ _) ha hb (by simpa using hle))
  constructor
  · intro hlen
    have := hdet (by omega)
    rw [hlen, ← hw] at this
    exact ⟨_, this ▸ hi⟩
  · rintro ⟨r, hr⟩
    unfold interpretSearchLadder at hr hi
    split at hr
    · simp [goErr] at hr
    · next hle =>
      split at hi
      · simp [goErr] at hi
      · next hle2 =>
        have hd := hdet (by omega)
        have hwm : w.map (fun (v : Nat) => decide ((v : Int) ≤ gAt x)) =
            (full.take w.length).map (fun (v : Nat) => decide ((v : Int) ≤ gAt x)) := by rw [← hw]
        rcases Nat.le_total flags.length w.length with hcmp | hcmp
        · have : flags <+: w.map (fun (v : Nat) => decide ((v : Int) ≤ gAt x)) := by
            rw [hd, hwm]
            exact (List.take_prefix_take_left hcmp).map _
          have := uniq full _ _ _ _ this hr hi (by omega)
          rw [this]; simp
        · have : w.map (fun (v : Nat) => decide ((v : Int) ≤ gAt x)) <+: flags := by
            rw [hd, hwm]
            exact (List.take_prefix_take_left hcmp).map _
          have := uniq full _ _ _ _ this hi hr (by omega)
          rw [← this]; simp

/-- C21: with or without omission, the interpretation is the same (the true comparison). -/
theorem C21_omission_safe {t : Nat} (ht : t < 2 ^ 31 - 1) {gAt : Nat → Int} {done : List Nat} {vt : Tracker} {x : Nat}
    (hs : Session t gAt (done ++ [x])) (hvt : Recorded gAt done vt) :
    ∃ w w' vt' vt'', produceLadder vt x t true (gAt x) = .ok (w, cmp3 (gAt x) t, vt') ∧
      receiveLadder vt x t true (w.map (fun (v : Nat) => decide ((v : Int) ≤ gAt x))) = .ok (w, cmp3 (gAt x) t, vt') ∧
      produceLadder vt x t false (gAt x) = .ok (w', cmp3 (gAt x) t, vt'') ∧
      receiveLadder vt x t false (w'.map (fun (v : Nat) => decide ((v : Int) ≤ gAt x))) = .ok (w', cmp3 (gAt x) t, vt'') := by
  have hdir : ∀ a ∈ done, (a < x → gAt a ≤ t) ∧ (x < a → (t : Int) ≤ gAt a) := by
    intro a ha
    exact (List.pairwise_append.1 hs.dir).2.2 a ha x (by simp)
  obtain ⟨w, full, vt', h1, h2, -⟩ := visit_agrees ht (hs.range x) hs.mono hvt hdir
  -- without omission: as with an empty tracker
  obtain ⟨w', full', v, h3, h4, -⟩ := visit_agrees (vt := {}) (done := []) (x := x) ht (hs.range x) hs.mono
    ⟨by simp, by simp⟩ (by simp)
  have sm : ∀ vt : Tracker, vt.searchMaps x false = ([], []) := by intro vt; rfl
  have sm' : ({} : Tracker).searchMaps x true = ([], []) := by rfl
  refine ⟨w, w', vt', vt, h1, h2, ?_, ?_⟩
  · unfold produceLadder producedVersions at h3 ⊢
    rw [sm'] at h3
    rw [sm]
    obtain ⟨a, ha, hb⟩ := G.bind_eq_ok.mp h3
    rw [ha]
    simp only [G.ok_bind, G.pure_eq, Except.ok.injEq, Prod.mk.injEq] at hb ⊢
    exact ⟨hb.1, hb.2.1, rfl⟩
  · unfold receiveLadder at h4 ⊢
    rw [sm'] at h4
    rw [sm]
    simp only at h4 ⊢
    obtain ⟨a, ha, h4'⟩ := G.bind_eq_ok.mp h4
    obtain ⟨c, hc, h4''⟩ := G.bind_eq_ok.mp h4'
    obtain ⟨d, hd, hb⟩ := G.bind_eq_ok.mp h4''
    rw [ha]
    simp only [G.ok_bind]
    rw [hc]
    simp only [G.ok_bind, Tracker.addResults, Bool.not_false, if_true, G.pure_eq, Except.ok.injEq, Prod.mk.injEq] at hb ⊢
    exact ⟨hb.1, hb.2.1, trivial⟩

/-- a concrete session: 8 entries, version `k` of the label appears at entry `k`; searching for
version 5 visits 3, 5 -/
example : Session 5 (fun x => (min x 7 : Nat)) [3, 5] ∧
    (serveAll 5 (fun x => (min x 7 : Nat)) {} [3, 5]).toOption.map (·.1) =
      some [([0, 1, 3, 7, 5], -1), ([7, 5, 6], 0)] := by
  refine ⟨⟨?_, ?_, ?_⟩, by decide⟩
  · intro x y h; simp; omega
  · intro x; omega
  · simp

/-- Direction matters: after a visit whose result sends the search to the right, looking to the left of
it makes server and client disagree (the client rejects the server's honest proof). No search does this. -/
example : ∃ vt, (produceLadder {} 7 5 true 4).toOption.map (fun r => (r.1, r.2.2)) = some ([0, 1, 3, 7, 5], vt) ∧
    (produceLadder vt 3 5 true 3).toOption.map (·.1) = some [0, 1, 3] ∧
    Errs (receiveLadder vt 3 5 true [true, true, true]) := by
  refine ⟨{ inclusion := [(7, [0, 1, 3])], nonInclusion := [(7, [7, 5])] }, by decide, by decide, ?_⟩
  exact ⟨"unexpected number of results in prefix proof", by decide⟩

end Katie.Props
