import Verif.Lemmas.LogEval
import Verif.Lemmas.LogStore

/-
How many hashes a proof of the log has.
-/

namespace Katie.LogMath
open Katie Katie.LogSpec

theorem ht_right {s : Nat} (hs : 2 ≤ s) : ht (s - half s) + 1 ≤ ht s := by
  have h1 := two_half_eq hs
  have h2 := le_two_pow_ht s
  have h3 : 2 ^ ht s = 2 * 2 ^ (ht s - 1) := by
    have := ht_pos hs
    rw [← pow_succ']; congr 1; omega
  have := ht_le_of_le (s := s - half s) (K := ht s - 1) (by omega)
  have := ht_pos hs
  omega

theorem ht_left {s : Nat} (hs : 2 ≤ s) : ht (half s) + 1 = ht s := by
  rw [half_eq hs, ht_two_pow]
  have := ht_pos hs
  omega

theorem fsList_length : ∀ (s lo : Nat), (fsList lo s).length ≤ ht s + 1 := by
  intro s
  induction s using Nat.strong_induction_on with
  | _ s ih =>
    intro lo
    unfold fsList
    split
    · simp
    · split
      · simp
      · rename_i h _
        have := ih (s - half s) (by have := half_pos s; omega) (lo + half s)
        have := ht_right (s := s) (by omega)
        simp only [List.length_cons]
        omega

theorem fsList_two_pow {s lo : Nat} (h : s = 2 ^ ht s) : fsList lo s = [(lo, s)] := by
  unfold fsList
  split
  · rfl
  · rename_i hs
    rw [if_pos]
    rw [two_half_eq (by omega)]
    exact h

theorem left_nd_one {lo : Nat} : ∃ m, left (nd lo 1) = goPanic m := by
  refine ⟨"leaf node has no children", ?_⟩
  unfold left
  have : level (nd lo 1) = 0 := level_nd (n := lo + 1) (lo := lo) (s := 1) ⟨by omega, by simp [ht], by omega, by simp [ht]⟩
  rw [this]
  rfl

theorem batchCopathAux_length {n : Nat} {incl : List Nat} : ∀ (s lo fuel : Nat) (nodes cop : List Nat), Sub n lo s →
    batchCopathAux fuel (nd lo s) n nodes incl = .ok cop →
    cop.length ≤ (nodes.length + 1) * (ht s + 1) ∧
    (s = 2 ^ ht s → nodes = [] → cop.length ≤ 1) ∧
    (s = 2 ^ ht s → nodes ≠ [] → cop.length ≤ nodes.length * (ht s + 1)) := by
  intro s
  induction s using Nat.strong_induction_on with
  | _ s ih =>
    intro lo fuel nodes cop hsub h
    cases fuel with
    | zero => cases h
    | succ fuel =>
      unfold batchCopathAux at h
      split at h
      · rename_i hn
        subst hn
        rw [fullSubtrees_eq hsub] at h
        cases h
        have := fsList_length s lo
        simp only [List.length_map, List.length_nil]
        refine ⟨by omega, fun hf _ => ?_, fun _ h => absurd rfl h⟩
        rw [fsList_two_pow hf]
        simp
      · rename_i hn
        split at h
        · rename_i hx
          have hc : cop.length ≤ 1 := by
            split at h <;> cases h <;> simp
          rw [hx]
          simp only [List.length_cons, List.length_nil]
          refine ⟨by omega, fun _ h => (by simp at h), fun _ _ => by omega⟩
        · have hs : 2 ≤ s := by
            by_contra hlt
            have := hsub.pos
            have e : s = 1 := by omega
            subst e
            obtain ⟨m, hm⟩ := left_nd_one (lo := lo)
            simp only [hm] at h
            cases h
          have hlt := half_lt hs
          have hpos := half_pos s
          dsimp only at h
          rw [left_nd hsub hs, G.ok_bind] at h
          obtain ⟨a, ha, h⟩ := G.bind_eq_ok.1 h
          rw [right_nd hsub hs, G.ok_bind] at h
          obtain ⟨b, hb, h⟩ := G.bind_eq_ok.1 h
          cases h
          have hl := ih (half s) hlt lo fuel _ a (hsub.left hs) ha
          have hr := ih (s - half s) (by omega) (lo + half s) fuel _ b (hsub.right hs) hb
          have e1 := ht_left hs
          have e2 := ht_right hs
          have hfl : half s = 2 ^ ht (half s) := by rw [half_eq hs, ht_two_pow]
          generalize hA : List.take (binarySearch nodes (nd lo s)).1 nodes = A at hl
          generalize hB : List.drop (if (binarySearch nodes (nd lo s)).2 = true then (binarySearch nodes (nd lo s)).1 + 1 else (binarySearch nodes (nd lo s)).1) nodes = B at hr
          have hAB : A.length + B.length ≤ nodes.length := by
            rw [← hA, ← hB, List.length_take, List.length_drop]
            split <;> omega
          have hk : 0 < nodes.length := List.length_pos_iff.2 hn
          have hr' : (B.length + 1) * (ht (s - half s) + 1) ≤ (B.length + 1) * ht s := Nat.mul_le_mul_left _ e2
          have la : a.length ≤ A.length * ht s + (if A = [] then 1 else 0) := by
            by_cases hA0 : A = []
            · have := hl.2.1 hfl hA0
              rw [if_pos hA0]; omega
            · have := hl.2.2 hfl hA0
              rw [if_neg hA0]; rw [e1] at this; omega
          have hht := ht_pos hs
          rw [List.length_append]
          refine ⟨?_, fun _ h => absurd h hn, fun hfull _ => ?_⟩
          · have m1 : (A.length + B.length + 1) * ht s ≤ (nodes.length + 1) * ht s := Nat.mul_le_mul_right _ (by omega)
            have m2 : (A.length + B.length + 1) * ht s = A.length * ht s + (B.length + 1) * ht s := by ring
            have m3 : (nodes.length + 1) * (ht s + 1) = (nodes.length + 1) * ht s + (nodes.length + 1) := by ring
            split at la <;> omega
          · have hfr : s - half s = 2 ^ ht (s - half s) := by
              have h2 := two_half_eq hs
              have : s - half s = half s := by omega
              rw [this]; exact hfl
            have lb : b.length ≤ B.length * ht s + (if B = [] then 1 else 0) := by
              by_cases hB0 : B = []
              · have := hr.2.1 hfr hB0
                rw [if_pos hB0]; omega
              · have := hr.2.2 hfr hB0
                have m := Nat.mul_le_mul_left B.length e2
                rw [if_neg hB0]; omega
            have m1 : (A.length + B.length) * ht s ≤ nodes.length * ht s := Nat.mul_le_mul_right _ hAB
            have m2 : (A.length + B.length) * ht s = A.length * ht s + B.length * ht s := by ring
            have m3 : nodes.length * (ht s + 1) = nodes.length * ht s + nodes.length := by ring
            by_cases hA0 : A = [] <;> by_cases hB0 : B = []
            · -- only the node itself: then there are at least two nodes, or the list was `[x]`
              have : 2 ≤ nodes.length ∨ (A.length + B.length) * ht s + 1 ≤ nodes.length * ht s := by
                right
                rw [hA0, hB0]
                simp only [List.length_nil, Nat.add_zero, Nat.zero_mul, Nat.zero_add]
                exact Nat.mul_pos hk hht
              rw [if_pos hA0] at la
              rw [if_pos hB0] at lb
              simp only [hA0, hB0, List.length_nil, Nat.zero_mul, Nat.add_zero, Nat.zero_add] at *
              rcases this with h | h <;> omega
            · rw [if_pos hA0] at la; rw [if_neg hB0] at lb; omega
            · rw [if_neg hA0] at la; rw [if_pos hB0] at lb; omega
            · rw [if_neg hA0] at la; rw [if_neg hB0] at lb; omega

theorem insertUniq_length (a : Nat) : ∀ l : List Nat, (sortDedup.insertUniq a l).length ≤ l.length + 1
  | [] => by simp [sortDedup.insertUniq]
  | b :: l => by
    unfold sortDedup.insertUniq
    split
    · simp
    · split
      · simp
      · have := insertUniq_length a l
        simp only [List.length_cons]; omega

theorem sortDedup_length : ∀ l : List Nat, (sortDedup l).length ≤ l.length
  | [] => by simp [sortDedup]
  | a :: l => by
    have h1 := insertUniq_length a (sortDedup l)
    have h2 := sortDedup_length l
    have e : sortDedup (a :: l) = sortDedup.insertUniq a (sortDedup l) := rfl
    rw [e]
    simp only [List.length_cons]; omega

theorem fullSubtrees_length {k n : Nat} (hk : 0 < k) (hkn : k ≤ n) {l : List Nat} (h : fullSubtrees (root k) k = .ok l) : l.length ≤ ht n + 1 := by
  have e : root k = nd 0 k := (root_eq hk)
  rw [e, fullSubtrees_eq (.root hk)] at h
  cases h
  rw [List.length_map]
  have h1 := fsList_length k 0
  have h2 := ht_le_of_le (s := k) (K := ht n) (le_trans hkn (le_two_pow_ht n))
  omega

/-- A proof for some leaves, an old and an audited tree size has at most so many hashes. -/
theorem batchCopath_length {n : Nat} (hn : 0 < n) {leaves : List Nat} {nP m : Option Nat}
    (hnP : ∀ k, nP = some k → 0 < k ∧ k ≤ n) (hm : ∀ k, m = some k → 0 < k ∧ k ≤ n) {cop : List Nat}
    (h : batchCopath leaves n nP m = .ok cop) : cop.length ≤ (leaves.length + 2 * (ht n + 1) + 1) * (ht n + 1) := by
  obtain ⟨fp, fm, l1, l2, h⟩ : ∃ fp fm : List Nat, fp.length ≤ ht n + 1 ∧ fm.length ≤ ht n + 1 ∧
      batchCopathAux (2 * n + 2) (root n) n (sortDedup (leaves.map (2 * ·) ++ fp ++ fm)) fp = .ok cop := by
    unfold batchCopath at h
    cases nP with
    | none =>
      cases m with
      | none => exact ⟨[], [], by simp, by simp, h⟩
      | some j =>
        simp only [G.pure_eq, G.ok_bind] at h
        obtain ⟨fm, hfm, h⟩ := G.bind_eq_ok.1 h
        exact ⟨[], fm, by simp, fullSubtrees_length (hm j rfl).1 (hm j rfl).2 hfm, h⟩
    | some k =>
      obtain ⟨fp, hfp, h⟩ := G.bind_eq_ok.1 h
      have l1 := fullSubtrees_length (hnP k rfl).1 (hnP k rfl).2 hfp
      cases m with
      | none => exact ⟨fp, [], l1, by simp, h⟩
      | some j =>
        obtain ⟨fm, hfm, h⟩ := G.bind_eq_ok.1 h
        exact ⟨fp, fm, l1, fullSubtrees_length (hm j rfl).1 (hm j rfl).2 hfm, h⟩
  rw [root_eq hn] at h
  have h1 := (batchCopathAux_length n 0 _ _ _ (.root hn) h).1
  have h2 := sortDedup_length (leaves.map (2 * ·) ++ fp ++ fm)
  simp only [List.length_append, List.length_map] at h2
  exact le_trans h1 (Nat.mul_le_mul_right _ (by omega))

end Katie.LogMath

namespace Katie.Log
open Katie Katie.LogMath

theorem getAll_length {cs : Suite} {s : ChunkSet} : ∀ {xs : List Nat} {l : List Bytes}, getAll cs s xs = .ok l → l.length = xs.length
  | [], l, h => by cases h; rfl
  | x :: xs, l, h => by
    unfold getAll at h
    obtain ⟨d, -, h⟩ := G.bind_eq_ok.1 h
    obtain ⟨rest, h2, h⟩ := G.bind_eq_ok.1 h
    cases h
    simp [getAll_length h2]

theorem ins_length (a : Nat) : ∀ l : List Nat, (sortNat.ins a l).length = l.length + 1
  | [] => rfl
  | b :: l => by
    unfold sortNat.ins
    split
    · rfl
    · simp [ins_length a l]

theorem sortNat_length : ∀ l : List Nat, (sortNat l).length = l.length
  | [] => rfl
  | a :: l => by
    have e : sortNat (a :: l) = sortNat.ins a (sortNat l) := rfl
    rw [e, ins_length, sortNat_length l, List.length_cons]

theorem getBatch_length {cs : Suite} {st : LStore} {entries : List Nat} {n : Nat} {nP m : Option Nat} {l : List Bytes}
    (h : getBatch cs st entries n nP m = .ok l) : l.length ≤ (entries.length + 2 * (ht n + 1) + 1) * (ht n + 1) := by
  unfold getBatch at h
  split at h
  · cases h
  · rename_i h0
    split at h
    · cases h
    · rename_i h1
      split at h
      · cases h
      · rename_i h2
        dsimp only at h
        split at h
        · cases h
        · split at h
          · cases h
          · obtain ⟨cop, hc, h⟩ := G.bind_eq_ok.1 h
            unfold fetchSpecific at h
            obtain ⟨set, -, h⟩ := G.bind_eq_ok.1 h
            have e1 := getAll_length h
            have e2 := batchCopath_length (by omega)
              (by rintro k rfl; simp at h1; omega) (by rintro k rfl; simp at h2; omega) hc
            rw [sortNat_length] at e2
            omega

end Katie.Log
