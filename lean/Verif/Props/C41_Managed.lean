import Verif.Spec.Managed
import Mathlib.Tactic.Common

/-
C41: the versions that a service operator signs.
-/

namespace Katie.Props
open Katie Katie.Wire Katie.Managed Katie.ManagedSpec

section helpers

theorem increment_lookup_ne {data : Counters} {l l' : Bytes} (h : l ≠ l') (c : Nat) :
    (increment data l' c).2.lookup l = data.lookup l := by
  unfold increment
  have hb : (l == l') = false := by simpa using h
  cases data.lookup l' with
  | none => simp [List.lookup_cons, hb]
  | some v =>
    simp only [List.lookup_cons, hb]
    induction data with
    | nil => rfl
    | cons e data ih =>
      by_cases he : e.1 = l'
      · rw [List.filter_cons_of_neg (by simpa using he), ih, List.lookup_cons, he, hb]
      · rw [List.filter_cons_of_pos (by simpa using he), List.lookup_cons, List.lookup_cons, ih]

theorem increment_lookup_none {data : Counters} {l : Bytes} (h : data.lookup l = none) (c : Nat) :
    (increment data l c).1 = -1 ∧ (increment data l c).2.lookup l = some (c : Int) := by
  simp [increment, h]

theorem increment_lookup_some {data : Counters} {l : Bytes} {k : Nat} (h : data.lookup l = some (k : Int)) (c : Nat) :
    (increment data l c).1 = k ∧ (increment data l c).2.lookup l = some ((k + c : Nat) : Int) := by
  simp [increment, h]

theorem toU32_small {k : Nat} (h : k < 2 ^ 32) : toU32 (k : Int) = k := by
  unfold toU32; omega

theorem signAll_spec {cfg : Config} {sign : Bytes → G Bytes} {label : Bytes} {prev : Int} :
    ∀ {vs : List Bytes} {i : Nat} {us : List UpdateValue}, signAll cfg sign label prev i vs = .ok us →
      us.length = vs.length ∧ us.map (·.value) = vs ∧
      ∀ j v, us[j]? = some v → ∃ tbs sig, updateTBS cfg label (toU32 (prev + 1 + (i + j : Nat))) v.value = .ok tbs ∧
        sign tbs = .ok sig ∧ v.signature = some sig
  | [], i, us, h => by
    simp only [signAll, G.pure_eq, Except.ok.injEq] at h
    subst h
    simp
  | v :: vs, i, us, h => by
    simp only [signAll, G.bind_eq_ok, G.pure_eq, Except.ok.injEq] at h
    obtain ⟨tbs, h1, sig, h2, rest, h3, rfl⟩ := h
    obtain ⟨ih1, ih2, ih3⟩ := signAll_spec h3
    refine ⟨by simp [ih1], by simp [ih2], ?_⟩
    intro j w hw
    cases j with
    | zero =>
      simp only [List.getElem?_cons_zero, Option.some.injEq] at hw
      subst hw
      exact ⟨tbs, sig, by simpa using h1, h2, rfl⟩
    | succ j =>
      simp only [List.getElem?_cons_succ] at hw
      obtain ⟨t, s, a, b, c⟩ := ih3 j w hw
      refine ⟨t, s, ?_, b, c⟩
      rw [← a]; congr 3; omega

theorem update_spec {cfg : Config} {sign : Bytes → G Bytes} {data data' : Counters} {req : UpdateRequest}
    {r : ManagerUpdateRequest} (h : update cfg sign data req = (.ok r, data')) :
    r.label = req.label ∧ r.values.map (·.value) = req.values ∧
    data' = (increment data req.label req.values.length).2 ∧
    r.signedVersion = toU32 ((increment data req.label req.values.length).1 + 1) ∧
    ∀ j v, r.values[j]? = some v → ∃ tbs sig,
      updateTBS cfg req.label (toU32 ((increment data req.label req.values.length).1 + 1 + (j : Nat))) v.value = .ok tbs ∧
        sign tbs = .ok sig ∧ v.signature = some sig := by
  unfold update at h
  rcases hi : increment data req.label req.values.length with ⟨prev, d⟩
  simp only [hi] at h
  cases hs : signAll cfg sign req.label prev 0 req.values with
  | error e => simp [hs] at h
  | ok us =>
    simp only [hs, Prod.mk.injEq, Except.ok.injEq] at h
    obtain ⟨rfl, rfl⟩ := h
    obtain ⟨h1, h2, h3⟩ := signAll_spec hs
    refine ⟨rfl, h2, rfl, rfl, ?_⟩
    intro j v hv
    simpa using h3 j v hv

theorem map_add_append (a b c : Nat) :
    (List.range a).map (c + ·) ++ (List.range b).map (c + a + ·) = (List.range (a + b)).map (c + ·) := by
  rw [List.range_add, List.map_append, List.map_map]
  simp [Function.comp_def, Nat.add_assoc]

theorem versionsOf_cons (l : Bytes) (r : ManagerUpdateRequest) (rs : List ManagerUpdateRequest) :
    versionsOf l (r :: rs) =
      (if r.label = l then (List.range r.values.length).map (r.signedVersion + ·) else []) ++ versionsOf l rs := by
  unfold versionsOf
  by_cases h : r.label = l <;> simp [h]

theorem batches_cons (l : Bytes) (r : UpdateRequest) (rs : List UpdateRequest) :
    batches l (r :: rs) = if r.label = l then r.values.length :: batches l rs else batches l rs := by
  unfold batches
  by_cases h : r.label = l <;> simp [h]

theorem versions_known {cfg : Config} {sign : Bytes → G Bytes} {l : Bytes} :
    ∀ {reqs : List UpdateRequest} {data : Counters} {rs : List ManagerUpdateRequest} {k : Nat},
      serveAll cfg sign reqs data = .ok rs → data.lookup l = some (k : Int) →
      k + (batches l reqs).sum + 1 < 2 ^ 32 →
      versionsOf l rs = (List.range (batches l reqs).sum).map (k + 1 + ·) ∧
      (∀ r ∈ rs, r.label = l → Signed cfg sign r)
  | [], data, rs, k, h, hl, hb => by
    simp only [serveAll, G.pure_eq, Except.ok.injEq] at h
    subst h; simp [versionsOf, batches]
  | req :: reqs, data, rs, k, h, hl, hb => by
    simp only [serveAll] at h
    rcases hu : update cfg sign data req with ⟨_ | r, data'⟩
    · simp [hu] at h
    simp only [hu, G.bind_eq_ok, G.pure_eq, Except.ok.injEq] at h
    obtain ⟨rs', h1, rfl⟩ := h
    obtain ⟨e1, e2, e3, e4, e5⟩ := update_spec hu
    have elen : r.values.length = req.values.length := by rw [← e2]; simp
    rw [batches_cons] at hb ⊢
    rw [versionsOf_cons, e1]
    by_cases hq : req.label = l
    · simp only [if_pos hq, List.sum_cons] at hb ⊢
      subst hq
      obtain ⟨i1, i2⟩ := increment_lookup_some hl req.values.length
      rw [i1] at e4 e5
      rw [e3] at h1
      obtain ⟨v1, v2⟩ := versions_known h1 i2 (by omega)
      have es : r.signedVersion = k + 1 := by rw [e4]; exact toU32_small (k := k + 1) (by omega)
      refine ⟨?_, ?_⟩
      · rw [v1, es, elen]
        rw [show k + req.values.length + 1 = k + 1 + req.values.length by omega, map_add_append]
      · intro r' hr' hl'
        rcases List.mem_cons.1 hr' with rfl | hr'
        · intro j v hv
          obtain ⟨tbs, sig, a, b, c⟩ := e5 j v hv
          have hj : j < r'.values.length := (List.getElem?_eq_some_iff.1 hv).1
          refine ⟨tbs, sig, ?_, b, c⟩
          rw [e1, es, ← a]; congr 1
          have := toU32_small (k := k + 1 + j) (by omega)
          rw [← this]; norm_cast
        · exact v2 r' hr' hl'
    · simp only [if_neg hq, List.nil_append] at hb ⊢
      rw [e3] at h1
      have := versions_known (l := l) h1 (by rw [increment_lookup_ne (Ne.symm hq)]; exact hl) hb
      refine ⟨this.1, ?_⟩
      intro r' hr' hl'
      rcases List.mem_cons.1 hr' with rfl | hr'
      · exact absurd (e1 ▸ hl') hq
      · exact this.2 r' hr' hl'

theorem versions_new {cfg : Config} {sign : Bytes → G Bytes} {l : Bytes} :
    ∀ {reqs : List UpdateRequest} {data : Counters} {rs : List ManagerUpdateRequest},
      serveAll cfg sign reqs data = .ok rs → data.lookup l = none →
      (batches l reqs).sum + 1 < 2 ^ 32 →
      versionsOf l rs = List.range ((batches l reqs).headD 0) ++
        (List.range (batches l reqs).tail.sum).map ((batches l reqs).headD 0 + 1 + ·) ∧
      (∀ r ∈ rs, r.label = l → Signed cfg sign r)
  | [], data, rs, h, hl, hb => by
    simp only [serveAll, G.pure_eq, Except.ok.injEq] at h
    subst h; simp [versionsOf, batches]
  | req :: reqs, data, rs, h, hl, hb => by
    simp only [serveAll] at h
    rcases hu : update cfg sign data req with ⟨_ | r, data'⟩
    · simp [hu] at h
    simp only [hu, G.bind_eq_ok, G.pure_eq, Except.ok.injEq] at h
    obtain ⟨rs', h1, rfl⟩ := h
    obtain ⟨e1, e2, e3, e4, e5⟩ := update_spec hu
    have elen : r.values.length = req.values.length := by rw [← e2]; simp
    rw [batches_cons] at hb ⊢
    rw [versionsOf_cons, e1]
    by_cases hq : req.label = l
    · simp only [if_pos hq, List.sum_cons, List.headD_cons, List.tail_cons] at hb ⊢
      subst hq
      obtain ⟨i1, i2⟩ := increment_lookup_none hl req.values.length
      rw [i1] at e4 e5
      rw [e3] at h1
      obtain ⟨v1, v2⟩ := versions_known h1 i2 (by omega)
      have es : r.signedVersion = 0 := by rw [e4]; rfl
      refine ⟨by rw [v1, es, elen]; simp, ?_⟩
      intro r' hr' hl'
      rcases List.mem_cons.1 hr' with rfl | hr'
      · intro j v hv
        obtain ⟨tbs, sig, a, b, c⟩ := e5 j v hv
        have hj : j < r'.values.length := (List.getElem?_eq_some_iff.1 hv).1
        refine ⟨tbs, sig, ?_, b, c⟩
        rw [e1, es, ← a]; congr 1
        have := toU32_small (k := j) (by omega)
        simp [this]
      · exact v2 r' hr' hl'
    · simp only [if_neg hq, List.nil_append] at hb ⊢
      rw [e3] at h1
      have := versions_new (l := l) h1 (by rw [increment_lookup_ne (Ne.symm hq)]; exact hl) hb
      refine ⟨this.1, ?_⟩
      intro r' hr' hl'
      rcases List.mem_cons.1 hr' with rfl | hr'
      · exact absurd (e1 ▸ hl') hq
      · exact this.2 r' hr' hl'

end helpers

variable {cfg : Config} {sign : Bytes → G Bytes} {reqs : List UpdateRequest} {rs : List ManagerUpdateRequest}

/-- Which versions are signed, for every sequence of requests about any number of labels: the first batch for a label,
of `k` values, gets the versions from 0 on, and all later ones together the versions from `k + 1` on.  Version `k` is
never signed.  Every value is signed for its version.  (The claim C41 is `versionsOf l rs = List.range (batches l reqs).sum`,
which is refuted by `C41_gap`.) -/
theorem C41_signed_partial (h : serveAll cfg sign reqs [] = .ok rs) (l : Bytes)
    (hb : (batches l reqs).sum + 1 < 2 ^ 32) :
    versionsOf l rs = List.range ((batches l reqs).headD 0) ++
      (List.range (batches l reqs).tail.sum).map ((batches l reqs).headD 0 + 1 + ·) ∧
    ∀ r ∈ rs, r.label = l → Signed cfg sign r :=
  versions_new h rfl hb

/-- Versions are never repeated, they increase. -/
theorem C41_increasing (h : serveAll cfg sign reqs [] = .ok rs) (l : Bytes)
    (hb : (batches l reqs).sum + 1 < 2 ^ 32) : (versionsOf l rs).Pairwise (· < ·) := by
  rw [(C41_signed_partial h l hb).1, List.pairwise_append]
  refine ⟨List.pairwise_lt_range, ?_, ?_⟩
  · rw [List.pairwise_map]
    exact List.pairwise_lt_range.imp (by intros; omega)
  · intro a ha b hb
    simp only [List.mem_range, List.mem_map] at ha hb
    obtain ⟨i, _, rfl⟩ := hb
    omega

/-- The versions are consecutive from 0 on exactly if all values for the label come in its first request. -/
theorem C41_consecutive_iff (h : serveAll cfg sign reqs [] = .ok rs) (l : Bytes)
    (hb : (batches l reqs).sum + 1 < 2 ^ 32) :
    versionsOf l rs = List.range (batches l reqs).sum ↔ (batches l reqs).tail.sum = 0 := by
  rw [(C41_signed_partial h l hb).1]
  cases hB : batches l reqs with
  | nil => simp
  | cons k B =>
    simp only [List.headD_cons, List.tail_cons, List.sum_cons]
    constructor
    · intro he
      by_contra hne
      have h1 : k ∈ List.range (k + B.sum) := by rw [List.mem_range]; omega
      rw [← he, List.mem_append, List.mem_range, List.mem_map] at h1
      rcases h1 with h1 | ⟨i, _, h1⟩ <;> omega
    · intro he
      simp [he]

/-! ### concrete cases -/

/-- an operator's configuration -/
def toyManaged : Config := { mode := 2, leafKey := some [9], sigKey := [1], vrfKey := [2] }

/-- two labels, three requests -/
def toyRequests : List UpdateRequest :=
  [⟨none, [1], none, [[10], [11]]⟩, ⟨none, [2], none, [[20]]⟩, ⟨none, [1], some 1, [[12]]⟩]

/-- what is submitted for them -/
def toySubmitted : List ManagerUpdateRequest :=
  match serveAll toyManaged (fun tbs => .ok tbs) toyRequests [] with
  | .ok rs => rs
  | .error _ => []

theorem toySubmitted_ok : serveAll toyManaged (fun tbs => .ok tbs) toyRequests [] = .ok toySubmitted := by
  decide +kernel

/-- The claim is false: after versions 0 and 1, the next version signed for the label is 3. -/
theorem C41_gap : versionsOf [1] toySubmitted = [0, 1, 3] ∧
    versionsOf [1] toySubmitted ≠ List.range (batches [1] toyRequests).sum := by
  decide +kernel

/-- the hypotheses of `C41_signed_partial` and `C41_increasing` hold for it -/
example : (batches [1] toyRequests).sum + 1 < 2 ^ 32 ∧ batches [1] toyRequests = [2, 1] := by decide +kernel

end Katie.Props
