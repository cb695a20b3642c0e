import Verif.Lemmas.Distinguished
import Verif.Spec.HonestLog

/-
C23: `RightmostDistinguished`.  C24: `PreviousRightmost`.  C25: distinguished entries stay distinguished.

Specification: `Verif/Spec/Distinguished.lean`.  `TsOk A ts n`: provider `A` answers a request for the
timestamp of entry `x < n` with `ts x`; nothing else is assumed about it.
-/

namespace Katie.Props
open Katie Katie.SearchSpec Katie.Alg

/-- the timestamps used in the examples -/
def exTs (x : Nat) : Nat := [5, 10, 40, 41, 90, 120, 121].getD x 0

/-- For every timestamps (monotone or not) `RightmostDistinguished` succeeds and returns the greatest entry
that is distinguished with the code's own test of an interval, and nil exactly if there is none. -/
theorem C23_rightmost_distinguished {cfg : Config} {A : (q : Req) → G q.Resp} {ts : Nat → Nat} {n : Nat}
    (hA : TsOk A ts n) : ∃ r, (rightmostDistinguished cfg n).eval A = .ok r ∧
      IsGreatest' (Distinguished (fun l r => cfg.isDistinguished l r = true) ts n) r :=
  rightmostDistinguished_eval hA

/-- For non-decreasing timestamps this is the greatest entry that is distinguished in the plain sense: at
least the monitoring window lies between the bounds of its interval. -/
theorem C23_rightmost_distinguished_window {cfg : Config} {A : (q : Req) → G q.Resp} {ts : Nat → Nat} {n : Nat}
    (hA : TsOk A ts n) (ht : GoodTimes ts n) : ∃ r, (rightmostDistinguished cfg n).eval A = .ok r ∧
      IsGreatest' (Distinguished (Wide cfg.rmw) ts n) r := by
  obtain ⟨r, h1, h2⟩ := rightmostDistinguished_eval (cfg := cfg) hA
  refine ⟨r, h1, ?_⟩
  cases r with
  | none => exact fun y hy => h2 y ((distinguished_code_iff ht).2 hy)
  | some x => exact ⟨(distinguished_code_iff ht).1 h2.1, fun y hy => h2.2 y ((distinguished_code_iff ht).2 hy)⟩

example : TsOk (honest exTs (fun _ => 0)) exTs 7 := fun _ _ => rfl
example : (rightmostDistinguished { rmw := 30 } 7).eval (honest exTs (fun _ => 0)) = .ok (some 5) := by decide
example : Distinguished (Wide 30) exTs 7 5 :=
  ⟨by decide, .right (by unfold Wide; decide) (by decide) (.here (by unfold Wide; decide))⟩

/-- `PreviousRightmost` returns the greatest distinguished entry to the left of the last entry. -/
theorem C24_previous_rightmost {cfg : Config} {A : (q : Req) → G q.Resp} {ts : Nat → Nat} {n : Nat}
    (hA : TsOk A ts n) (ht : GoodTimes ts n) : ∃ r, (previousRightmost cfg n).eval A = .ok r ∧
      IsGreatest' (fun y => Distinguished (Wide cfg.rmw) ts n y ∧ y < n - 1) r :=
  previousRightmost_eval hA ht

-- the last entry is distinguished, and the previous distinguished entry is in its left subtree; its parent
example : (rightmostDistinguished { rmw := 30 } 6).eval (honest exTs (fun _ => 0)) = .ok (some 5) ∧
    (previousRightmost { rmw := 30 } 6).eval (honest exTs (fun _ => 0)) = .ok (some 4) := by decide
example : (rightmostDistinguished { rmw := 30 } 3).eval (honest exTs (fun _ => 0)) = .ok (some 2) ∧
    (previousRightmost { rmw := 30 } 3).eval (honest exTs (fun _ => 0)) = .ok (some 1) := by decide
example : GoodTimes exTs 7 := by
  constructor
  · intro i j hij hj
    have : ∀ j, j < 7 → ∀ i, i < 7 → i ≤ j → exTs i ≤ exTs j := by decide
    exact this j hj i (by omega) hij
  · have : ∀ i, i < 7 → exTs i < 2 ^ 64 := by decide
    exact this

-- Interval widths are computed modulo 2^64: with decreasing timestamps an inverted interval counts as wide.
example : (rightmostDistinguished { rmw := 30 } 3).eval (honest (fun x => [50, 40, 31].getD x 0) (fun _ => 0)) =
    .ok (some 2) := by decide

/-- An entry that is distinguished stays distinguished when entries with later timestamps are added. -/
theorem C25_distinguished_stable {W : Nat} {ts ts' : Nat → Nat} {n n' x : Nat} (hn : n ≤ n')
    (hts : ∀ i, i < n → ts' i = ts i) (ht' : GoodTimes ts' n')
    (h : Distinguished (Wide W) ts n x) : Distinguished (Wide W) ts' n' x := by
  have ht : GoodTimes ts n := by
    refine ⟨fun i j hij hj => ?_, fun i hi => ?_⟩
    · rw [← hts i (by omega), ← hts j hj]; exact ht'.1 i j hij (by omega)
    · rw [← hts i hi]; exact ht'.2 i (by omega)
  have hx := h.lt
  obtain ⟨lo, hi, anc, ha, e⟩ := SearchTree.exists_at n 0 n [] (by omega) (.root h.1) x (by omega) hx
  obtain ⟨lo', hi', anc', ha', e'⟩ :=
    SearchTree.exists_at n' 0 n' [] (by omega) (.root (by have := h.1; omega)) x (by omega) (by omega)
  rw [← e, distinguished_iff ht ha] at h
  rw [← e', distinguished_iff ht' ha']
  obtain ⟨k, i, r⟩ := ha.rng
  obtain ⟨k', i', r'⟩ := ha'.rng
  have hidx : LogMath.idx k i = LogMath.idx k' i' := by rw [← r.rt, ← r'.rt, e, e']
  obtain ⟨rfl, rfl⟩ := LogMath.idx_inj hidx
  have h1 := r.hlo; have h2 := r'.hlo; have h3 := r.hhi; have h4 := r'.hhi
  have hlo : lo = lo' := by omega
  subst hlo
  have hb := ha.bounds
  have hb' := ha'.bounds
  have hl : lb ts' lo = lb ts lo := by
    unfold lb
    split
    · rfl
    · exact hts _ (by omega)
  have hr : rb ts n hi ≤ rb ts' n' hi' := by
    unfold rb
    split_ifs with c1 c2 c2
    · rw [← hts _ (by omega)]; exact ht'.1 _ _ (by omega) (by omega)
    · rw [← hts _ (by omega)]; exact ht'.1 _ _ (by omega) (by omega)
    · rw [← hts _ (by omega)]; exact ht'.1 _ _ (by omega) (by omega)
    · rw [← hts _ (by omega)]; exact ht'.1 _ _ (by omega) (by omega)
  unfold Wide at *
  omega

-- entry 3 is distinguished in the 5-entry log and, by the theorem, in the 7-entry log
example : Distinguished (Wide 30) exTs 5 3 := ⟨by decide, .here (by unfold Wide; decide)⟩

/-- The rightmost distinguished entry never moves to the left. -/
theorem C25_rightmost_monotone {cfg : Config} {A A' : (q : Req) → G q.Resp} {ts ts' : Nat → Nat} {n n' x : Nat}
    (hn : n ≤ n') (hts : ∀ i, i < n → ts' i = ts i) (ht' : GoodTimes ts' n') (hA : TsOk A ts n) (hA' : TsOk A' ts' n')
    (h : (rightmostDistinguished cfg n).eval A = .ok (some x)) :
    ∃ x', (rightmostDistinguished cfg n').eval A' = .ok (some x') ∧ x ≤ x' := by
  have ht : GoodTimes ts n := by
    refine ⟨fun i j hij hj => ?_, fun i hi => ?_⟩
    · rw [← hts i (by omega), ← hts j hj]; exact ht'.1 i j hij (by omega)
    · rw [← hts i hi]; exact ht'.2 i (by omega)
  obtain ⟨r, h1, h2⟩ := C23_rightmost_distinguished_window (cfg := cfg) hA ht
  obtain ⟨r', h1', h2'⟩ := C23_rightmost_distinguished_window (cfg := cfg) hA' ht'
  rw [h] at h1
  cases h1
  have hd := C25_distinguished_stable hn hts ht' h2.1
  cases r' with
  | none => exact absurd hd (h2' x)
  | some x' => exact ⟨x', h1', h2'.2 x hd⟩

end Katie.Props
