import Verif.Props.C03_C04_LogStore

/-
Reading the stored log while it grows: every chunk may be read at a different moment.
-/

namespace Katie.Log
open Katie Katie.LogMath Katie.LogSpec

variable {cs : Suite} {L : List Bytes}

/-- every chunk of the store is the chunk of some log that continues `L` -/
def TornOK (cs : Suite) (L : List Bytes) (st : LStore) : Prop :=
  ∀ q c, ∃ M, (∀ v ∈ M, v.length = cs.hashSize) ∧
    st.lookup (ck q c) = if 0 < cnt (L ++ M) q c then some (cdata cs.H (L ++ M) q c) else none

theorem StoreOK.torn {st : LStore} (h : StoreOK cs L st) : TornOK cs L st := by
  intro q c
  refine ⟨[], by simp, ?_⟩
  rw [List.append_nil]
  exact h q c

theorem Full.appendAll {M : List Bytes} {k i : Nat} (h : Full L k i) : Full (L ++ M) k i := by
  unfold Full at *
  simp only [List.length_append]
  omega

theorem val_appendAll {M : List Bytes} {k i : Nat} (h : Full L k i) : val cs.H (L ++ M) k i = val cs.H L k i := by
  have := h.le
  have := Nat.two_pow_pos k
  unfold val toND blk
  rw [List.drop_append_of_le_length (by omega), List.take_append_of_le_length (by simp; omega)]

section
variable {M : Nat → Nat → List Bytes}

theorem torn_getAll (hcs : cs.Good) (hL : ∀ q c, ∀ v ∈ L ++ M q c, v.length = cs.hashSize) :
    ∀ (xs : List (Nat × Nat)) (s : ChunkSet), (∀ q c ch, s.chunks.lookup (ck q c) = some ch → Rep cs (L ++ M q c) q c ch) →
    (∀ p ∈ xs, Full L p.1 p.2 ∧ Has s (p.1 / 4) (p.2 / 2 ^ (3 - p.1 % 4))) →
    getAll cs s (xs.map fun p => idx p.1 p.2) = .ok (xs.map fun p => (val cs.H L p.1 p.2).value) := by
  intro xs
  induction xs with
  | nil => intro s _ _; rfl
  | cons p xs ih =>
    intro s hs hp
    obtain ⟨K, i⟩ := p
    obtain ⟨hf, hh⟩ := hp (K, i) (by simp)
    obtain ⟨q, k, j, c, hk, hj, hK, hi, hq, hc⟩ := node_split K i
    simp only at hf hh
    rw [← hq, ← hc] at hh
    obtain ⟨ch, hch⟩ := Option.isSome_iff_exists.mp hh
    subst hK hi
    obtain ⟨ch', e, r⟩ := ChunkSet.get_at hcs (hL q c) hk hj (hf.appendAll (M := M q c)) hch (hs q c ch hch)
    simp only [List.map_cons, getAll]
    rw [e, G.ok_bind, val_appendAll hf]
    simp only
    rw [ih]
    · rfl
    · intro q' c' ch'' h
      simp only at h
      rw [lookup_cons'] at h
      split at h
      · rename_i he
        obtain ⟨rfl, rfl⟩ := ck_inj he
        cases h; exact r
      · exact hs q' c' ch'' h
    · intro p' hp'
      obtain ⟨h1, h2⟩ := hp p' (by simp [hp'])
      refine ⟨h1, ?_⟩
      unfold Has at *
      simp only
      rw [lookup_cons']
      split
      · rfl
      · exact h2

theorem torn_newChunkSet (hcs : cs.Good) (hL : ∀ q c, ∀ v ∈ L ++ M q c, v.length = cs.hashSize) :
    ∀ (ids : List (Nat × Nat)),
    ∃ chunks, (ids.map fun p => (ck p.1 p.2, cdata cs.H (L ++ M p.1 p.2) p.1 p.2)).mapM (fun p => do
      let c ← newChunk cs p.1 p.2
      pure (p.1, c)) = (.ok chunks : G _) ∧
      (∀ q c ch, chunks.lookup (ck q c) = some ch → Rep cs (L ++ M q c) q c ch) ∧
      (∀ q c, (chunks.lookup (ck q c)).isSome ↔ (q, c) ∈ ids) := by
  intro ids
  induction ids with
  | nil => exact ⟨[], rfl, by simp, by simp⟩
  | cons p ids ih =>
    obtain ⟨chunks, h1, h2, h3⟩ := ih
    obtain ⟨ch, e, r⟩ := newChunk_rep hcs (hL p.1 p.2) p.1 p.2
    refine ⟨(ck p.1 p.2, ch) :: chunks, ?_, ?_, ?_⟩
    · rw [List.map_cons, List.mapM_cons]
      simp only
      rw [e, G.ok_bind, G.pure_eq, G.ok_bind, h1]; rfl
    · intro q c ch' h
      rw [lookup_cons'] at h
      split at h
      · rename_i he
        obtain ⟨rfl, rfl⟩ := ck_inj he
        cases h; exact r
      · exact h2 q c ch' h
    · intro q c
      rw [lookup_cons', List.mem_cons, ← h3]
      split
      · rename_i he
        obtain ⟨rfl, rfl⟩ := ck_inj he
        simp
      · rename_i hne
        constructor
        · exact Or.inr
        · rintro (h | h)
          · subst h; exact absurd rfl hne
          · exact h

end

theorem cnt_append_pos {M : List Bytes} {p : Nat × Nat} (h : Full L p.1 p.2) : 0 < cnt (L ++ M) (chunkOf p).1 (chunkOf p).2 :=
  full_chunkOf (h.appendAll (M := M))

/-- Reading complete nodes from a torn store returns their true values. -/
theorem torn_fetchSpecific (hcs : cs.Good) (hL : ∀ v ∈ L, v.length = cs.hashSize) {st : LStore} (hst : TornOK cs L st)
    {xs : List (Nat × Nat)} (hx : ∀ p ∈ xs, Full L p.1 p.2) :
    fetchSpecific cs st (xs.map fun p => idx p.1 p.2) = .ok (xs.map fun p => (val cs.H L p.1 p.2).value) := by
  choose M hM hst using hst
  have hL' : ∀ q c, ∀ v ∈ L ++ M q c, v.length = cs.hashSize := by
    intro q c v hv
    rcases List.mem_append.1 hv with h | h
    · exact hL v h
    · exact hM q c v h
  unfold fetchSpecific
  have hm : (xs.map fun p => idx p.1 p.2).mapM chunk = (.ok ((xs.map chunkOf).map fun p => ck p.1 p.2) : G _) := by
    rw [List.mapM_map, List.map_map]
    exact mapM_ok (fun p _ => chunk_chunkOf p)
  have hpos : ∀ p ∈ xs.map chunkOf, 0 < cnt (L ++ M p.1 p.2) p.1 p.2 := by
    intro p hp
    obtain ⟨p', hp', rfl⟩ := List.mem_map.mp hp
    exact cnt_append_pos (hx p' hp')
  have hfetch : ∃ s, fetch cs st (xs.map fun p => idx p.1 p.2) = .ok s ∧
      (∀ q c ch, s.chunks.lookup (ck q c) = some ch → Rep cs (L ++ M q c) q c ch) ∧ (∀ q c, Has s q c ↔ (q, c) ∈ xs.map chunkOf) := by
    revert hm hpos
    generalize xs.map chunkOf = cids
    intro hc hpos
    unfold fetch
    rw [hc, G.ok_bind]
    simp only
    have hex : ∀ l : List Nat, (∀ x ∈ l, x ∈ cids.map fun p => ck p.1 p.2) →
        ∃ ps : List (Nat × Nat), l = ps.map (fun p => ck p.1 p.2) ∧ ∀ p ∈ ps, p ∈ cids := by
      intro l
      induction l with
      | nil => intro _; exact ⟨[], rfl, by simp⟩
      | cons x l ih =>
        intro h
        obtain ⟨ps, h1, h2⟩ := ih (fun y hy => h y (by simp [hy]))
        obtain ⟨p, hp, rfl⟩ := List.mem_map.mp (h x (by simp))
        refine ⟨p :: ps, by simp [h1], ?_⟩
        intro p' hp'
        rcases List.mem_cons.mp hp' with rfl | h
        · exact hp
        · exact h2 _ h
    obtain ⟨ps, e1, e2⟩ := hex _ (fun x hx => sortDedup_mem.mp hx)
    have hlook : ∀ p ∈ ps, st.lookup (ck p.1 p.2) = some (cdata cs.H (L ++ M p.1 p.2) p.1 p.2) := by
      intro p hp
      rw [hst, if_pos (hpos p (e2 p hp))]
    have hany : (sortDedup (cids.map fun p => ck p.1 p.2)).any (fun id => (st.lookup id).isNone) = false := by
      rw [e1, List.any_eq_false]
      intro x hx
      obtain ⟨p, hp, rfl⟩ := List.mem_map.mp hx
      rw [hlook p hp]; simp
    have hdata : (sortDedup (cids.map fun p => ck p.1 p.2)).filterMap (fun id => (st.lookup id).map fun b => (id, b)) =
        ps.map fun p => (ck p.1 p.2, cdata cs.H (L ++ M p.1 p.2) p.1 p.2) := by
      rw [e1]
      clear e1 hany hc
      induction ps with
      | nil => rfl
      | cons p ps ih =>
        rw [List.map_cons, List.filterMap_cons, hlook p (by simp)]
        simp only [Option.map_some, List.map_cons]
        rw [ih (fun p' hp' => e2 p' (by simp [hp'])) (fun p' hp' => hlook p' (by simp [hp']))]
    rw [if_neg (by rw [hany]; simp), hdata]
    unfold newChunkSet
    obtain ⟨chunks, h1, h2, h3⟩ := torn_newChunkSet hcs hL' ps
    rw [h1, G.ok_bind]
    refine ⟨_, rfl, h2, ?_⟩
    intro q c
    unfold Has
    simp only
    rw [h3]
    constructor
    · exact e2 _
    · intro h
      have : ck q c ∈ sortDedup (cids.map fun p => ck p.1 p.2) := sortDedup_mem.mpr (List.mem_map.mpr ⟨(q, c), h, rfl⟩)
      rw [e1] at this
      obtain ⟨p, hp, he⟩ := List.mem_map.mp this
      obtain ⟨h1, h2⟩ := ck_inj he
      have : p = (q, c) := by cases p; simp_all
      rw [← this]; exact hp
  obtain ⟨s, h1, h3, h4⟩ := hfetch
  rw [h1, G.ok_bind]
  refine torn_getAll hcs hL' xs s h3 ?_
  intro p hp
  refine ⟨hx p hp, ?_⟩
  rw [h4]
  exact List.mem_map.mpr ⟨p, hp, rfl⟩

/-- A batch proof for the tree over `L` is the same, whatever was appended to each chunk after it. -/
theorem getBatch_torn (hcs : cs.Good) (hL : ∀ v ∈ L, v.length = cs.hashSize) {st st' : LStore} (h : TornOK cs L st)
    (h' : TornOK cs L st') (entries : List Nat) (nP m : Option Nat) :
    getBatch cs st' entries L.length nP m = getBatch cs st entries L.length nP m := by
  unfold getBatch
  by_cases h0 : L.length = 0 ∨ L.length > maxTreeSize
  · rw [if_pos h0, if_pos h0]
  rw [if_neg h0, if_neg h0]
  by_cases h1 : (nP.any fun k => k = 0 ∨ k > L.length ∨ k > maxTreeSize) = true
  · rw [if_pos h1, if_pos h1]
  rw [if_neg h1, if_neg h1]
  by_cases h2 : (m.any fun k => k = 0 ∨ k > L.length ∨ k > maxTreeSize) = true
  · rw [if_pos h2, if_pos h2]
  rw [if_neg h2, if_neg h2]
  simp only
  by_cases h3 : (sortNat entries).any (fun x => x ≥ L.length) = true
  · rw [if_pos h3, if_pos h3]
  rw [if_neg h3, if_neg h3]
  split
  · rfl
  have hbound : ∀ o : Option Nat, ¬ (o.any fun k => k = 0 ∨ k > L.length ∨ k > maxTreeSize) = true →
      ∀ k, o = some k → 0 < k ∧ k ≤ L.length := by
    rintro o ho k rfl
    simp at ho
    omega
  obtain ⟨cop, res, e1, e2, -⟩ := evaluate_complete (entries := sortNat entries) hcs hL (by omega) (by omega) (by
    intro x hx
    by_contra hc
    exact h3 (List.any_eq_true.2 ⟨x, hx, by simpa using hc⟩)) (hbound nP h1) (hbound m h2)
  rw [e1, G.ok_bind, G.ok_bind]
  obtain ⟨ps, ep, hps⟩ := exists_pairs (P := fun p => Full L p.1 p.2) cop (by
    intro y hy
    obtain ⟨lo, s, a, b, rfl⟩ := e2 y hy
    obtain ⟨i, hi, hx⟩ := a.idx
    refine ⟨(LogMath.ht s, i), ?_, hx⟩
    unfold Full
    simp only
    rw [Nat.mul_add, Nat.mul_one, ← hi, ← b]; exact a.le)
  rw [ep, torn_fetchSpecific hcs hL h hps, torn_fetchSpecific hcs hL h' hps]

end Katie.Log
