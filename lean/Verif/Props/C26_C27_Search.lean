import Verif.Lemmas.Search

/-
C26: greatest-version search.  C27: fixed-version search.

Both are stated about a provider that answers from an honest log (`Verif/Spec/HonestLog.lean`): entry `x` has
timestamp `ts x` and `g x` is the greatest version of the label it contains (-1: none).  `GoodTimes`: timestamps do
not decrease; `Grows`: versions are only added.  Further vocabulary: `Verif/Spec/Search.lean`.
-/

namespace Katie.Props
open Katie Katie.SearchSpec Katie.Alg Katie.SearchTree

variable {cfg : Config} {ts : Nat → Nat} {g : Nat → Int} {stop : Nat → Int → Bool} {n : Nat}

/-- Told the right version, the search succeeds at the first entry containing it among the entries of the
frontier that are not left of the rightmost distinguished entry (of the root, if there is none). -/
theorem C26_greatest_version_found (h0 : 0 < n) (ht : GoodTimes ts n) (hg : Grows g n) {v : Nat} (hv : g (n - 1) = v)
    {d : Option Nat} (hd : IsGreatest' (Distinguished (Wide cfg.rmw) ts n) d) :
    ∃ x, (greatestVersionSearch cfg v n).eval (honest ts g stop) = .ok x ∧
      OnFrontier n x ∧ d.getD (rt 0 n) ≤ x ∧ Contains g v x ∧
      ∀ y, OnFrontier n y → d.getD (rt 0 n) ≤ y → y < x → ¬ Contains g v y := by
  obtain ⟨start, anc, lo, ⟨h, e⟩, hs, hev⟩ := greatestVersionSearch_eval (cfg := cfg) (g := g) (stop := stop) (v := v) h0 ht
  have hb := h.bounds
  rw [← e] at hev
  obtain ⟨x, h1, h2, h3, h4, h5⟩ := greatestLoop_right (ts := ts) (stop := stop) hg hv n lo n anc h (by omega) (le_refl _)
  rw [← hs d hd, ← e]
  refine ⟨x, by rw [hev, h1], h2, h3, by unfold Contains; omega, ?_⟩
  intro y hy hy1 hy2 hc
  have := h5 y hy hy1 hy2
  unfold Contains at hc; omega

/-- Told any other version, the search fails; for a label without versions and the version 0 it reports that the
label does not exist. -/
theorem C26_other_version_rejected (h0 : 0 < n) (ht : GoodTimes ts n) (hg : Grows g n) {v : Nat} (hv : g (n - 1) ≠ v) :
    Errs ((greatestVersionSearch cfg v n).eval (honest ts g stop)) ∧
    (v = 0 → g (n - 1) < 0 →
      (greatestVersionSearch cfg v n).eval (honest ts g stop) = .error (.err "requested version of label does not exist")) := by
  obtain ⟨start, anc, lo, ⟨h, e⟩, hs, hev⟩ := greatestVersionSearch_eval (cfg := cfg) (g := g) (stop := stop) (v := v) h0 ht
  have hb := h.bounds
  rw [hev, ← e]
  exact greatestLoop_wrong hg hv n lo n anc none h (by omega) (le_refl _)

/-- versions in the example log: created at entries 1, 2, 2 and 5 -/
def exG (x : Nat) : Int := [-1, 0, 2, 2, 2, 3, 3].getD x 0
/-- timestamps of the example log -/
def exTs2 (x : Nat) : Nat := [5, 10, 40, 41, 90, 120, 121].getD x 0

example : (greatestVersionSearch { rmw := 100 } 3 7).eval (honest exTs2 exG) = .ok 5 := by decide
example : (greatestVersionSearch { rmw := 100 } 2 7).eval (honest exTs2 exG) =
    goErr "log entry not consistent with claimed greatest version of label" := by decide
example : (greatestVersionSearch { rmw := 100 } 4 7).eval (honest exTs2 exG) =
    goErr "rightmost log entry not consistent with claimed greatest version of label" := by decide
example : Grows exG 7 ∧ GoodTimes exTs2 7 := by
  have h1 : ∀ j, j < 7 → ∀ i, i < 7 → i ≤ j → exG i ≤ exG j := by decide
  have h2 : ∀ j, j < 7 → ∀ i, i < 7 → i ≤ j → exTs2 i ≤ exTs2 j := by decide
  have h3 : ∀ i, i < 7 → exTs2 i < 2 ^ 64 := by decide
  exact ⟨fun i j hij hj => h1 j hj i (by omega) hij, fun i j hij hj => h2 j hj i (by omega) hij, h3⟩

/-- A search for the claimed version is rejected or right: what a client is told is the greatest version. -/
theorem C26_accepted_is_greatest (h0 : 0 < n) (ht : GoodTimes ts n) (hg : Grows g n) {v x : Nat}
    (h : (greatestVersionSearch cfg v n).eval (honest ts g stop) = .ok x) :
    (v : Int) = g (n - 1) ∧ x < n ∧ Contains g v x := by
  by_cases hv : g (n - 1) = v
  · obtain ⟨r, h1, h2⟩ := rightmostDistinguished_eval (cfg := cfg) (honest_ts (ts := ts) (g := g) (stop := stop) (n := n))
    have h3 : IsGreatest' (Distinguished (Wide cfg.rmw) ts n) r := by
      cases r with
      | none => exact fun y hy => h2 y ((distinguished_code_iff ht).2 hy)
      | some x => exact ⟨(distinguished_code_iff ht).1 h2.1, fun y hy => h2.2 y ((distinguished_code_iff ht).2 hy)⟩
    obtain ⟨y, h4, ⟨lo, anc, h5, e⟩, -, h6, -⟩ := C26_greatest_version_found (stop := stop) h0 ht hg hv h3
    rw [h] at h4
    cases h4
    have := h5.bounds
    exact ⟨hv.symm, by omega, h6⟩
  · obtain ⟨m, hm⟩ := (C26_other_version_rejected (cfg := cfg) (stop := stop) h0 ht hg hv).1
    rw [h] at hm; cases hm

/-! ### C27 -/

/-- The English claim about expiry: a search for an existing version ends at a terminal entry unless that entry lies to
the left of the leftmost unexpired distinguished entry. -/
def ExpiryClaim (cfg : Config) (ts : Nat → Nat) (g : Nat → Int) (n t : Nat) : Prop :=
  (fixedVersionSearch cfg t n).eval (honest ts g) = goErr errLabelExpired →
    ∃ p, Terminal cfg ts g n t p ∧ ∀ y, y ≤ p → ¬ Live cfg ts n y

/-- The claim is false: here entry 1 is distinguished, unexpired and the only possible terminal entry for version 0,
yet the search reports that the version has expired.  (Version 1, created in the same entry, is found.) -/
theorem C27_expiry_false : ∃ cfg ts g n t, 0 < n ∧ GoodTimes ts n ∧ Grows g n ∧ ¬ ExpiryClaim cfg ts g n t := by
  refine ⟨{ rmw := 30, maxLifetime := 50 }, fun x => [0, 100, 100].getD x 0, fun x => [-1, 1, 1].getD x 0, 3, 0,
    by decide, ?_, ?_, ?_⟩
  · have h2 : ∀ j, j < 3 → ∀ i, i < 3 → i ≤ j → [0, 100, 100].getD i 0 ≤ [0, 100, 100].getD j 0 := by decide
    have h3 : ∀ i, i < 3 → [0, 100, 100].getD i 0 < 2 ^ 64 := by decide
    exact ⟨fun i j hij hj => h2 j hj i (by omega) hij, h3⟩
  · have h1 : ∀ j, j < 3 → ∀ i, i < 3 → i ≤ j → ([-1, 1, 1].getD i 0 : Int) ≤ [-1, 1, 1].getD j 0 := by decide
    exact fun i j hij hj => h1 j hj i (by omega) hij
  · intro h
    obtain ⟨p, ⟨hp, -, hne, -⟩, h2⟩ := h (by decide)
    have h1p : 1 ≤ p := by
      by_contra hc
      have : p = 0 := by omega
      subst this
      exact hne ⟨by decide, by decide⟩
    apply h2 1 h1p
    exact ⟨⟨by decide, .here (by unfold Wide; decide)⟩, by rintro ⟨-, h⟩; revert h; decide⟩

example : (fixedVersionSearch { rmw := 30, maxLifetime := 50 } 1 3).eval
    (honest (fun x => [0, 100, 100].getD x 0) (fun x => [-1, 1, 1].getD x 0)) = .ok 1 := by decide

/-- Every search for a version on an honest log ends in one of three ways.
* It succeeds at a terminal entry (an unexpired entry containing the version; its greatest version is the searched one
  or it is the first such entry), and either no ancestor of it has expired or there is an unexpired distinguished entry at
  or left of it.
* It reports "not found", and then no entry contains the version.
* It reports "expired", and then there is a terminal entry, some entry has expired, and no unexpired distinguished entry
  lies strictly left of the terminal entry (for the full claim: "at or left of").  -/
theorem C27_fixed_version_partial (ht : GoodTimes ts n) (hg : Grows g n) (h0 : 0 < n) (t : Nat) :
    (∃ p, (fixedVersionSearch cfg t n).eval (honest ts g stop) = .ok p ∧ Terminal cfg ts g n t p ∧
      ((∀ lo hi anc, IsNode n p lo hi anc → ∀ y ∈ anc, ¬ Expired cfg ts n y) ∨ ∃ y, y ≤ p ∧ Live cfg ts n y)) ∨
    ((fixedVersionSearch cfg t n).eval (honest ts g stop) = .error (.err "requested version of label does not exist") ∧
      ∀ y, y < n → ¬ Contains g t y) ∨
    ((fixedVersionSearch cfg t n).eval (honest ts g stop) = .error (.err "requested version of label has expired") ∧
      ∃ p, Terminal cfg ts g n t p ∧ Expired cfg ts n 0 ∧ ∀ y, y < p → ¬ Live cfg ts n y) := by
  rcases fixedVersionSearch_eval (cfg := cfg) (stop := stop) ht hg h0 t with h | ⟨h, h2⟩ | h
  · exact Or.inl h
  · refine Or.inr (Or.inl ⟨h, ?_⟩)
    intro y hy hc
    have := hg y (n - 1) (by omega) (by omega)
    unfold Contains at hc; omega
  · exact Or.inr (Or.inr h)

/-- Without a maximum lifetime, an existing version is always found, and where. -/
theorem C27_without_expiry (ht : GoodTimes ts n) (hg : Grows g n) (hl : cfg.maxLifetime = 0) {t y : Nat}
    (hy : y < n) (hc : Contains g t y) :
    ∃ p, (fixedVersionSearch cfg t n).eval (honest ts g stop) = .ok p ∧ p < n ∧ Contains g t p ∧
      (g p = t ∨ ∀ z, z < p → ¬ Contains g t z) := by
  rcases C27_fixed_version_partial (cfg := cfg) (stop := stop) ht hg (by omega) t with
    ⟨p, h1, ⟨h2, h3, -, h4⟩, -⟩ | ⟨-, h⟩ | ⟨-, p, -, h, -⟩
  · refine ⟨p, h1, h2, h3, ?_⟩
    rcases h4 with h4 | h4
    · exact Or.inl h4
    · exact Or.inr fun z hz hcz => (h4 z hz hcz).1 hl
  · exact absurd hc (h y hy)
  · exact absurd hl h.1

-- version 1 was created together with version 2 at entry 2 (found there); version 2 is met at the root, entry 3;
-- version 7 does not exist; with a short lifetime version 0 has expired
example : (fixedVersionSearch { rmw := 30 } 1 7).eval (honest exTs2 exG) = .ok 2 ∧
    (fixedVersionSearch { rmw := 30 } 2 7).eval (honest exTs2 exG) = .ok 3 ∧
    (fixedVersionSearch { rmw := 30 } 7 7).eval (honest exTs2 exG) = goErr errLabelNotFound ∧
    (fixedVersionSearch { rmw := 30, maxLifetime := 40 } 0 7).eval (honest exTs2 exG) = goErr errLabelExpired := by decide

end Katie.Props
