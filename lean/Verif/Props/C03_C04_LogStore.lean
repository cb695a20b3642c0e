import Verif.Lemmas.LogStore
import Verif.Props.C02_LogAppend

/-
C03: the stored log (8-wide chunks in a key-value store) agrees with the Merkle tree over the appended
values, for every history of appends.  C04: the batch proofs it produces are accepted by the verifier.

The specification is `merkle`, `rootHash`, `heads` of `Verif/Spec/LogTree.lean`.
-/

namespace Katie.Props
open Katie Katie.Log Katie.LogSpec

/-- A history of calls `Tree.Append(n, x)`, `n` counting from the current size; returns the store and what
each call returned. -/
def storeMany (cs : Suite) : LStore → Nat → List Bytes → G (LStore × List (List Bytes))
  | st, _, [] => pure (st, [])
  | st, n, x :: xs => do
    let (st, out) ← treeAppend cs st n x
    let (st, outs) ← storeMany cs st (n + 1) xs
    pure (st, out :: outs)

theorem storeMany_ok {cs : Suite} (hcs : cs.Good) : ∀ (M L : List Bytes) (st : LStore),
    (∀ v ∈ L ++ M, v.length = cs.hashSize) → (L ++ M).length ≤ LogMath.maxTreeSize → StoreOK cs L st →
    ∃ st', storeMany cs st L.length M = .ok (st', (List.range M.length).map fun i => heads cs.H (L ++ M.take (i + 1))) ∧
      StoreOK cs (L ++ M) st' := by
  intro M
  induction M with
  | nil => intro L st _ _ h; exact ⟨st, rfl, by simpa using h⟩
  | cons x M ih =>
    intro L st hL hmax hst
    have e : L ++ x :: M = (L ++ [x]) ++ M := by simp
    obtain ⟨st1, h1, h2⟩ := treeAppend_ok hcs (L := L) (x := x) (fun v hv => hL v (by
      rw [e]; exact List.mem_append_left _ hv)) (by simp at hmax; omega) hst
    obtain ⟨st2, h3, h4⟩ := ih (L ++ [x]) st1 (by rw [← e]; exact hL) (by rw [← e]; exact hmax) h2
    refine ⟨st2, ?_, by rw [e]; exact h4⟩
    unfold storeMany
    rw [h1, G.ok_bind]
    simp only
    have hl : (L ++ [x]).length = L.length + 1 := by simp
    rw [hl] at h3
    rw [h3, G.ok_bind]
    simp only [G.pure_eq, List.length_cons]
    rw [List.range_succ_eq_map, List.map_cons, List.map_map]
    simp only [List.take_succ_cons, List.take_zero, Function.comp_def, List.append_assoc, List.singleton_append]

/-- C03: every history of appends succeeds, the `i`-th append returns the heads of the first `i+1` values,
and afterwards any complete subtree, of `2^K` leaves from leaf `2^K i` on, reads back as its Merkle hash. -/
theorem C03_stored_log {cs : Suite} (hcs : cs.Good) (L : List Bytes) (hL : ∀ v ∈ L, v.length = cs.hashSize)
    (hmax : L.length ≤ 2 ^ 63) :
    ∃ st, storeMany cs [] 0 L = .ok (st, (List.range L.length).map fun i => heads cs.H (L.take (i + 1))) ∧
      ∀ ps : List (Nat × Nat), (∀ p ∈ ps, 2 ^ p.1 * (p.2 + 1) ≤ L.length) →
        fetchSpecific cs st (ps.map fun p => nd (2 ^ p.1 * p.2) (2 ^ p.1)) =
          .ok (ps.map fun p => (merkle cs.H ((L.drop (2 ^ p.1 * p.2)).take (2 ^ p.1))).value) := by
  have hm : ([] ++ L).length ≤ LogMath.maxTreeSize := by
    unfold LogMath.maxTreeSize; rw [Nat.one_shiftLeft]; simpa using hmax
  obtain ⟨st, h1, h2⟩ := storeMany_ok hcs L [] [] (by simpa using hL) hm storeOK_nil
  simp only [List.nil_append, List.length_nil] at h1 h2
  refine ⟨st, h1, ?_⟩
  intro ps hps
  have := fetchSpecific_ok hcs hL h2 (xs := ps) hps
  have e : (ps.map fun p => nd (2 ^ p.1 * p.2) (2 ^ p.1)) = ps.map fun p => LogMath.idx p.1 p.2 := by
    apply List.map_congr_left
    intro p _
    rw [LogMath.nd_eq_idx p.2 (by rw [LogMath.ht_two_pow]), LogMath.ht_two_pow]
  rw [e, this]
  rfl

/-- C03: no later append changes the value read for a subtree that was complete before. -/
theorem C03_reads_stable {cs : Suite} (hcs : cs.Good) (L M : List Bytes) (hL : ∀ v ∈ L ++ M, v.length = cs.hashSize)
    (hmax : (L ++ M).length ≤ 2 ^ 63) (K i : Nat) (hfull : 2 ^ K * (i + 1) ≤ L.length) :
    ∃ st st' o o', storeMany cs [] 0 L = .ok (st, o) ∧ storeMany cs st L.length M = .ok (st', o') ∧
      ∃ v, fetchSpecific cs st [nd (2 ^ K * i) (2 ^ K)] = .ok [v] ∧ fetchSpecific cs st' [nd (2 ^ K * i) (2 ^ K)] = .ok [v] := by
  have hm : (L ++ M).length ≤ LogMath.maxTreeSize := by
    unfold LogMath.maxTreeSize; rw [Nat.one_shiftLeft]; exact hmax
  have hL' : ∀ v ∈ L, v.length = cs.hashSize := fun v hv => hL v (by simp [hv])
  obtain ⟨st, h1, h2⟩ := storeMany_ok hcs L [] [] (by simpa using hL') (by simp at hm ⊢; omega) storeOK_nil
  simp only [List.nil_append, List.length_nil] at h1 h2
  obtain ⟨st', h3, h4⟩ := storeMany_ok hcs M L st hL hm h2
  refine ⟨st, st', _, _, h1, h3, (val cs.H L K i).value, ?_, ?_⟩
  · have := fetchSpecific_ok hcs hL' h2 (xs := [(K, i)]) (by intro p hp; simp at hp; subst hp; exact hfull)
    rw [LogMath.nd_eq_idx i (by rw [LogMath.ht_two_pow]), LogMath.ht_two_pow]
    simpa using this
  · have := fetchSpecific_ok hcs hL h4 (xs := [(K, i)]) (by
      intro p hp; simp at hp; subst hp; simp only [List.length_append, Full]; omega)
    rw [LogMath.nd_eq_idx i (by rw [LogMath.ht_two_pow]), LogMath.ht_two_pow]
    have e : val cs.H (L ++ M) K i = val cs.H L K i := by
      have hle : 2 ^ K * i + 2 ^ K ≤ L.length := by rw [Nat.mul_add, Nat.mul_one] at hfull; exact hfull
      have := Nat.two_pow_pos K
      unfold val blk
      rw [List.drop_append_of_le_length (by omega), List.take_append_of_le_length (by simp; omega)]
    simpa [e] using this

/-- Ten appends cross a chunk boundary; the chunk over the first eight and the ninth leaf read back. -/
example : ∃ st, (storeMany toySuite [] 0 [[1], [2], [3], [4], [5], [6], [7], [8], [9], [10]]).map Prod.fst = .ok st ∧
    st.length = 10 ∧ fetchSpecific toySuite st [16, 7, 17] = .ok [[9], [31], toySuite.H [0, 9, 0, 10]] := by
  refine ⟨_, rfl, ?_, ?_⟩ <;> decide

/-! ### C04 -/

theorem sorted_ext : ∀ {l l' : List Nat}, l.Pairwise (· < ·) → l'.Pairwise (· < ·) → (∀ x, x ∈ l ↔ x ∈ l') → l = l' := by
  intro l
  induction l with
  | nil =>
    intro l' _ _ h
    cases l' with
    | nil => rfl
    | cons a l' => exact absurd ((h a).mpr (by simp)) (by simp)
  | cons a l ih =>
    intro l' h1 h2 h
    cases l' with
    | nil => exact absurd ((h a).mp (by simp)) (by simp)
    | cons b l' =>
      rw [List.pairwise_cons] at h1 h2
      have hab : a = b := by
        rcases List.mem_cons.mp ((h a).mp (by simp)) with e | e
        · exact e
        rcases List.mem_cons.mp ((h b).mpr (by simp)) with e' | e'
        · exact e'.symm
        have := h2.1 a e
        have := h1.1 b e'
        omega
      subst hab
      congr 1
      refine ih h1.2 h2.2 ?_
      intro x
      constructor
      · intro hx
        have := h1.1 x hx
        rcases List.mem_cons.mp ((h x).mp (by simp [hx])) with e | e
        · omega
        · exact e
      · intro hx
        have := h2.1 x hx
        rcases List.mem_cons.mp ((h x).mpr (by simp [hx])) with e | e
        · omega
        · exact e

theorem sortNat_ins_mem {a x : Nat} {l : List Nat} : x ∈ sortNat.ins a l ↔ x = a ∨ x ∈ l := by
  induction l with
  | nil => simp [sortNat.ins]
  | cons b l ih =>
    unfold sortNat.ins
    split
    · simp
    · rw [List.mem_cons, ih, List.mem_cons]; tauto

theorem sortNat_mem {x : Nat} {l : List Nat} : x ∈ sortNat l ↔ x ∈ l := by
  unfold sortNat
  induction l with
  | nil => simp
  | cons a l ih => rw [List.foldr_cons, sortNat_ins_mem, ih, List.mem_cons]

theorem sortNat_ins_perm {a : Nat} {l : List Nat} : (sortNat.ins a l).Perm (a :: l) := by
  induction l with
  | nil => exact List.Perm.refl _
  | cons b l ih =>
    unfold sortNat.ins
    split
    · exact List.Perm.refl _
    · exact (List.Perm.cons b ih).trans (List.Perm.swap a b l)

theorem sortNat_perm {l : List Nat} : (sortNat l).Perm l := by
  unfold sortNat
  induction l with
  | nil => exact List.Perm.refl _
  | cons a l ih => exact (sortNat_ins_perm).trans (List.Perm.cons a ih)

theorem hasDup_nodup {l : List Nat} (h : l.Nodup) : hasDup l = false := by
  induction l with
  | nil => rfl
  | cons a l ih =>
    cases l with
    | nil => rfl
    | cons b l =>
      unfold hasDup
      rw [List.nodup_cons] at h
      rw [ih h.2]
      have : a ≠ b := fun e => h.1 (by simp [e])
      simp [this]

theorem batchCopath_congr {e e' : List Nat} (h : ∀ x, x ∈ e ↔ x ∈ e') (n : Nat) (nP m : Option Nat) :
    LogMath.batchCopath e n nP m = LogMath.batchCopath e' n nP m := by
  unfold LogMath.batchCopath
  have : ∀ a b : List Nat, LogMath.sortDedup (e.map (2 * ·) ++ a ++ b) = LogMath.sortDedup (e'.map (2 * ·) ++ a ++ b) := by
    intro a b
    refine sorted_ext (LogMath.sortDedup_sorted _) (LogMath.sortDedup_sorted _) ?_
    intro x
    rw [LogMath.sortDedup_mem, LogMath.sortDedup_mem]
    simp only [List.mem_append, List.mem_map]
    constructor
    · rintro ((⟨y, hy, rfl⟩ | h1) | h2)
      · exact Or.inl (Or.inl ⟨y, (h y).mp hy, rfl⟩)
      · exact Or.inl (Or.inr h1)
      · exact Or.inr h2
    · rintro ((⟨y, hy, rfl⟩ | h1) | h2)
      · exact Or.inl (Or.inl ⟨y, (h y).mpr hy, rfl⟩)
      · exact Or.inl (Or.inr h1)
      · exact Or.inr h2
  simp only [this]

/-- The verifier that a client holding the heads of the first `m` entries uses (client side: `NewVerifier`
followed by `Retain`). -/
def verifierFor (cs : Suite) (L : List Bytes) : Option Nat → G Verifier
  | none => pure newVerifier
  | some m => retain cs m (heads cs.H (L.take m))

/-- C04 for a given store: whatever was appended after entry `n`, the stored log produces a proof for any distinct
entries of the first `n`, and a verifier (fresh, or holding the heads of the first `m`) accepts it with the true leaf
values. -/
theorem C04_stored_log {cs : Suite} (hcs : cs.Good) (L M : List Bytes)
    (hL : ∀ v ∈ L ++ M, v.length = cs.hashSize) (hmax : (L ++ M).length ≤ 2 ^ 63) (h0 : 0 < L.length)
    {st : LStore} (h2 : StoreOK cs (L ++ M) st)
    (entries : List Nat) (hnd : entries.Nodup) (he : ∀ x ∈ entries, x < L.length)
    (nP m : Option Nat) (hnP : ∀ k, nP = some k → 0 < k ∧ k ≤ L.length) (hm : ∀ k, m = some k → 0 < k ∧ k ≤ L.length) :
    ∃ proof v res, getBatch cs st entries L.length nP m = .ok proof ∧
      verifierFor cs L m = .ok v ∧
      evaluate cs v entries L.length nP (entries.map fun x => L.getD x []) proof = .ok res ∧
      res.fullSubtrees = heads cs.H L ∧
      root cs L.length res.fullSubtrees = .ok (rootHash cs.H L) ∧
      (∀ k, nP = some k → res.additional = heads cs.H (L.take k) ∧ root cs k res.additional = .ok (rootHash cs.H (L.take k))) := by
  have hmx : (L ++ M).length ≤ LogMath.maxTreeSize := by
    unfold LogMath.maxTreeSize; rw [Nat.one_shiftLeft]; exact hmax
  have hL' : ∀ v ∈ L, v.length = cs.hashSize := fun v hv => hL v (by simp [hv])
  have hLm : L.length ≤ LogMath.maxTreeSize := by simp at hmx; omega
  obtain ⟨cop, res, e1, e2, e3, e4, e5⟩ := evaluate_complete hcs hL' h0 hLm he hnP hm
  -- reading the copath
  obtain ⟨ps, ep, hps⟩ := exists_pairs (P := fun p => Full L p.1 p.2) cop (by
    intro y hy
    obtain ⟨lo, s, a, b, rfl⟩ := e2 y hy
    obtain ⟨i, hi, hx⟩ := a.idx
    refine ⟨(LogMath.ht s, i), ?_, hx⟩
    unfold Full
    simp only
    rw [Nat.mul_add, Nat.mul_one, ← hi, ← b]; exact a.le)
  have hread := fetchSpecific_ok hcs hL h2 (xs := ps) (by
    intro p hp
    have := hps p hp
    unfold Full at *
    simp only [List.length_append]; omega)
  have hval : (ps.map fun p => (val cs.H (L ++ M) p.1 p.2).value) = cop.map (trueAt cs.H L) := by
    rw [ep, List.map_map]
    apply List.map_congr_left
    intro p hp
    have hf := hps p hp
    have hle := hf.le
    have hsub : LogMath.Sub L.length (2 ^ p.1 * p.2) (2 ^ p.1) :=
      ⟨Nat.two_pow_pos _, by rw [LogMath.ht_two_pow]; exact ⟨_, rfl⟩, hle, Or.inl (by rw [LogMath.ht_two_pow])⟩
    have hnd' : nd (2 ^ p.1 * p.2) (2 ^ p.1) = LogMath.idx p.1 p.2 := by
      rw [LogMath.nd_eq_idx p.2 (by rw [LogMath.ht_two_pow]), LogMath.ht_two_pow]
    simp only [Function.comp_apply]
    rw [← hnd', trueAt_nd hsub (by rw [LogMath.ht_two_pow])]
    have := Nat.two_pow_pos p.1
    unfold val toND blk
    rw [List.drop_append_of_le_length (by omega), List.take_append_of_le_length (by simp; omega)]
  rw [← ep, hval] at hread
  have hbatch : getBatch cs st entries L.length nP m = .ok (cop.map (trueAt cs.H L)) := by
    unfold getBatch
    rw [if_neg (by omega), if_neg, if_neg]
    · simp only
      rw [if_neg, hasDup_nodup ((sortNat_perm).nodup_iff.mpr hnd), batchCopath_congr (fun x => sortNat_mem), e1]
      · simpa using hread
      · simp only [List.any_eq_true, sortNat_mem, decide_eq_true_eq, not_exists, not_and]
        intro x hx
        have := he x hx
        omega
    · cases m with
      | none => simp
      | some k => have := hm k rfl; simp; omega
    · cases nP with
      | none => simp
      | some k => have := hnP k rfl; simp; omega
  have hv : verifierFor cs L m = .ok (honestVerifier cs.H L m) := by
    cases m with
    | none => rfl
    | some k =>
      obtain ⟨hk0, hk⟩ := hm k rfl
      have hs := LogMath.Sub.root (n := k) hk0
      unfold verifierFor retain honestVerifier
      simp only
      rw [if_neg (by omega), LogMath.root_eq hk0, LogMath.fullSubtrees_eq hs, G.ok_bind, if_neg, if_neg]
      · rfl
      · rw [not_not, List.all_eq_true]
        intro v hv
        rw [heads_take _ _ hk0 hk] at hv
        obtain ⟨p, hp, rfl⟩ := List.mem_map.mp hv
        obtain ⟨a, b, c, d⟩ := fsList_mem _ _ hs p hp
        have := blk_len hcs hL' a.pos (lo := p.1) (by omega)
        simpa using this
      · rw [heads_take _ _ hk0 hk]; simp
  refine ⟨_, _, res, hbatch, hv, e3, e4, ?_, ?_⟩
  · rw [e4]; exact root_heads hcs hL' h0 hLm
  · intro k hk
    obtain ⟨hk0, hkl⟩ := hnP k hk
    refine ⟨e5 k hk, ?_⟩
    rw [e5 k hk]
    have hlen : (L.take k).length = k := by simp; omega
    have := root_heads hcs (L := L.take k) (fun v hv => hL' v (List.mem_of_mem_take hv)) (by omega) (by omega)
    rwa [hlen] at this

/-- C04: whatever was appended after entry `n`, the stored log produces a proof for any distinct entries of
the first `n`, and a verifier (fresh, or holding the heads of the first `m`) accepts it with the true leaf
values in any order of the entries; the result is the heads of the first `n` values, whose combination is
the true root, and the heads of the first `n'` values if asked for. -/
theorem C04_honest_proof_verifies {cs : Suite} (hcs : cs.Good) (L M : List Bytes)
    (hL : ∀ v ∈ L ++ M, v.length = cs.hashSize) (hmax : (L ++ M).length ≤ 2 ^ 63) (h0 : 0 < L.length)
    (entries : List Nat) (hnd : entries.Nodup) (he : ∀ x ∈ entries, x < L.length)
    (nP m : Option Nat) (hnP : ∀ k, nP = some k → 0 < k ∧ k ≤ L.length) (hm : ∀ k, m = some k → 0 < k ∧ k ≤ L.length) :
    ∃ st o proof v res, storeMany cs [] 0 (L ++ M) = .ok (st, o) ∧
      getBatch cs st entries L.length nP m = .ok proof ∧
      verifierFor cs L m = .ok v ∧
      evaluate cs v entries L.length nP (entries.map fun x => L.getD x []) proof = .ok res ∧
      res.fullSubtrees = heads cs.H L ∧
      root cs L.length res.fullSubtrees = .ok (rootHash cs.H L) ∧
      (∀ k, nP = some k → res.additional = heads cs.H (L.take k) ∧ root cs k res.additional = .ok (rootHash cs.H (L.take k))) := by
  have hmx : (L ++ M).length ≤ LogMath.maxTreeSize := by
    unfold LogMath.maxTreeSize; rw [Nat.one_shiftLeft]; exact hmax
  obtain ⟨st, h1, h2⟩ := storeMany_ok hcs (L ++ M) [] [] (by simpa using hL) (by simpa using hmx) storeOK_nil
  simp only [List.nil_append, List.length_nil] at h1 h2
  obtain ⟨proof, v, res, h⟩ := C04_stored_log hcs L M hL hmax h0 h2 entries hnd he nP m hnP hm
  exact ⟨st, _, proof, v, res, h1, h⟩

/-- Proof for entries 4 and 1 of a 6-entry log inside a 10-entry store, for a client that knows the first 3. -/
example : (do
    let (st, _) ← storeMany toySuite [] 0 [[1], [2], [3], [4], [5], [6], [7], [8], [9], [10]]
    let proof ← getBatch toySuite st [4, 1] 6 (some 5) (some 3)
    let v ← retain toySuite 3 [toySuite.H [0, 1, 0, 2], [3]]
    let res ← evaluate toySuite v [4, 1] 6 (some 5) [[5], [2]] proof
    pure (proof, res.fullSubtrees.length, res.additional.length) : G _) = .ok ([[1], [4], [5], [6]], 2, 2) := by decide

end Katie.Props
