import Verif.Lemmas.LogChunk
import Verif.Lemmas.LogSpine

/-
The stored log: every append keeps the chunk store equal to the tree over the appended values.
-/

namespace Katie.Log
open Katie Katie.LogMath Katie.LogSpec

variable {cs : Suite} {L : List Bytes}

/-- id of chunk `(q, c)` -/
abbrev ck (q c : Nat) : Nat := idx (4 * q + 3) c

theorem ck_inj {q c q' c' : Nat} (h : ck q c = ck q' c') : q = q' ∧ c = c' := by
  obtain ⟨h1, h2⟩ := idx_inj h
  exact ⟨by omega, h2⟩

theorem chunk_ck (q c : Nat) : chunk (ck q c) = .ok (ck q c) := by
  unfold ck
  rw [chunk_idx, show 3 - (4 * q + 3) % 4 = 0 by omega]; simp

theorem chunk_at {q k j c i : Nat} (hk : k ≤ 3) (hj : j < 2 ^ (3 - k)) (hi : i = 2 ^ (3 - k) * c + j) :
    chunk (idx (4 * q + k) i) = .ok (ck q c) := by
  rw [chunk_idx, show (4 * q + k) % 4 = k by omega, show 4 * q + k + (3 - k) = 4 * q + 3 by omega, hi,
    Nat.mul_add_div (Nat.two_pow_pos _), Nat.div_eq_of_lt hj]
  rfl

/-- every node lies in a chunk -/
theorem node_split (K i : Nat) : ∃ q k j c, k ≤ 3 ∧ j < 2 ^ (3 - k) ∧ K = 4 * q + k ∧ i = 2 ^ (3 - k) * c + j ∧
    q = K / 4 ∧ c = i / 2 ^ (3 - K % 4) := by
  refine ⟨K / 4, K % 4, i % 2 ^ (3 - K % 4), i / 2 ^ (3 - K % 4), by omega, Nat.mod_lt _ (Nat.two_pow_pos _), by omega,
    (Nat.div_add_mod _ _).symm, rfl, rfl⟩

/-- a complete node lies in a populated chunk -/
theorem full_cnt {q k j c : Nat} (hk : k ≤ 3) (hj : j < 2 ^ (3 - k)) (h : Full L (4 * q + k) (2 ^ (3 - k) * c + j)) :
    0 < cnt L q c := by
  have hf := full_pos hk h
  have hb : 2 ^ k * (j + 1) - 1 < 8 := by
    have : ∀ k ≤ 3, ∀ i < 2 ^ (3 - k), 2 ^ k * (i + 1) - 1 < 8 := by decide
    exact this k hk j hj
  have := (full_iff_cnt hb).mp hf
  omega

/-- the chunks of a set are right for the log `L` -/
def SetOK (cs : Suite) (L : List Bytes) (s : ChunkSet) : Prop :=
  ∀ q c ch, s.chunks.lookup (ck q c) = some ch → Rep cs L q c ch

def Has (s : ChunkSet) (q c : Nat) : Prop := (s.chunks.lookup (ck q c)).isSome

theorem lookup_cons' {α : Type} {M : List (Nat × α)} {x y : Nat} {v : α} :
    List.lookup y ((x, v) :: M) = if y = x then some v else M.lookup y := by
  rw [List.lookup_cons]
  by_cases h : y = x
  · subst h; simp
  · have : (y == x) = false := by simpa using h
    rw [this, if_neg h]

theorem ChunkSet.get_at (hcs : cs.Good) (hL : ∀ v ∈ L, v.length = cs.hashSize) {s : ChunkSet} {q c : Nat} {k j : Nat}
    (hk : k ≤ 3) (hj : j < 2 ^ (3 - k)) (hfull : Full L (4 * q + k) (2 ^ (3 - k) * c + j))
    {ch : NodeChunk} (hch : s.chunks.lookup (ck q c) = some ch) (hrep : Rep cs L q c ch) :
    ∃ ch', s.get cs (idx (4 * q + k) (2 ^ (3 - k) * c + j)) =
      .ok (val cs.H L (4 * q + k) (2 ^ (3 - k) * c + j), { s with chunks := (ck q c, ch') :: s.chunks }) ∧ Rep cs L q c ch' := by
  unfold ChunkSet.get
  rw [chunk_at hk hj rfl, G.ok_bind, hch]
  simp only
  obtain ⟨ch', h1, h2⟩ := Rep.get hcs hL k j (level (idx (4 * q + k) (2 ^ (3 - k) * c + j)) + 1) ch hk hj (by rw [level_idx]; omega) hrep hfull
  rw [h1, G.ok_bind]
  exact ⟨ch', rfl, h2⟩

theorem getAll_ok (hcs : cs.Good) (hL : ∀ v ∈ L, v.length = cs.hashSize) :
    ∀ (xs : List (Nat × Nat)) (s : ChunkSet), SetOK cs L s →
    (∀ p ∈ xs, Full L p.1 p.2 ∧ Has s (p.1 / 4) (p.2 / 2 ^ (3 - p.1 % 4))) →
    getAll cs s (xs.map fun p => idx p.1 p.2) = .ok (xs.map fun p => (val cs.H L p.1 p.2).value) := by
  intro xs
  induction xs with
  | nil => intro s _ _; rfl
  | cons p xs ih =>
    intro s hs hp
    obtain ⟨K, i⟩ := p
    obtain ⟨hf, hh⟩ := hp (K, i) (by simp)
    obtain ⟨q, k, j, c, hk, hj, hK, hi, hq, hc⟩ := node_split K i
    simp only at hf hh
    rw [← hq, ← hc] at hh
    obtain ⟨ch, hch⟩ := Option.isSome_iff_exists.mp hh
    subst hK hi
    obtain ⟨ch', e, r⟩ := ChunkSet.get_at hcs hL hk hj hf hch (hs q c ch hch)
    simp only [List.map_cons, getAll]
    rw [e, G.ok_bind]
    simp only
    rw [ih]
    · rfl
    · intro q' c' ch'' h
      simp only at h
      rw [lookup_cons'] at h
      split at h
      · rename_i he
        obtain ⟨rfl, rfl⟩ := ck_inj he
        cases h; exact r
      · exact hs q' c' ch'' h
    · intro p' hp'
      obtain ⟨h1, h2⟩ := hp p' (by simp [hp'])
      refine ⟨h1, ?_⟩
      unfold Has at *
      simp only
      rw [lookup_cons']
      split
      · rfl
      · exact h2

/-- The store holds exactly the populated chunks of the tree over `L`. -/
def StoreOK (cs : Suite) (L : List Bytes) (st : LStore) : Prop :=
  ∀ q c, st.lookup (ck q c) = if 0 < cnt L q c then some (cdata cs.H L q c) else none

theorem newChunkSet_ok (hcs : cs.Good) (hL : ∀ v ∈ L, v.length = cs.hashSize) :
    ∀ (ids : List (Nat × Nat)),
    ∃ chunks, (ids.map fun p => (ck p.1 p.2, cdata cs.H L p.1 p.2)).mapM (fun p => do
      let c ← newChunk cs p.1 p.2
      pure (p.1, c)) = (.ok chunks : G _) ∧
      (∀ q c ch, chunks.lookup (ck q c) = some ch → Rep cs L q c ch) ∧
      (∀ q c, (chunks.lookup (ck q c)).isSome ↔ (q, c) ∈ ids) := by
  intro ids
  induction ids with
  | nil => exact ⟨[], rfl, by simp, by simp⟩
  | cons p ids ih =>
    obtain ⟨chunks, h1, h2, h3⟩ := ih
    obtain ⟨ch, e, r⟩ := newChunk_rep hcs hL p.1 p.2
    refine ⟨(ck p.1 p.2, ch) :: chunks, ?_, ?_, ?_⟩
    · rw [List.map_cons, List.mapM_cons]
      simp only
      rw [e, G.ok_bind, G.pure_eq, G.ok_bind, h1]; rfl
    · intro q c ch' h
      rw [lookup_cons'] at h
      split at h
      · rename_i he
        obtain ⟨rfl, rfl⟩ := ck_inj he
        cases h; exact r
      · exact h2 q c ch' h
    · intro q c
      rw [lookup_cons', List.mem_cons, ← h3]
      split
      · rename_i he
        obtain ⟨rfl, rfl⟩ := ck_inj he
        simp
      · rename_i hne
        constructor
        · exact Or.inr
        · rintro (h | h)
          · subst h; exact absurd rfl hne
          · exact h

theorem fetch_ok (hcs : cs.Good) (hL : ∀ v ∈ L, v.length = cs.hashSize) {st : LStore} (hst : StoreOK cs L st)
    {nodes : List Nat} {cids : List (Nat × Nat)} (hc : nodes.mapM chunk = (.ok (cids.map fun p => ck p.1 p.2) : G _))
    (hpos : ∀ p ∈ cids, 0 < cnt L p.1 p.2) :
    ∃ s, fetch cs st nodes = .ok s ∧ s.modified = [] ∧ SetOK cs L s ∧ (∀ q c, Has s q c ↔ (q, c) ∈ cids) := by
  unfold fetch
  rw [hc, G.ok_bind]
  simp only
  -- the ids of the chunks, as pairs
  have hex : ∀ l : List Nat, (∀ x ∈ l, x ∈ cids.map fun p => ck p.1 p.2) →
      ∃ ps : List (Nat × Nat), l = ps.map (fun p => ck p.1 p.2) ∧ ∀ p ∈ ps, p ∈ cids := by
    intro l
    induction l with
    | nil => intro _; exact ⟨[], rfl, by simp⟩
    | cons x l ih =>
      intro h
      obtain ⟨ps, h1, h2⟩ := ih (fun y hy => h y (by simp [hy]))
      obtain ⟨p, hp, rfl⟩ := List.mem_map.mp (h x (by simp))
      refine ⟨p :: ps, by simp [h1], ?_⟩
      intro p' hp'
      rcases List.mem_cons.mp hp' with rfl | h
      · exact hp
      · exact h2 _ h
  obtain ⟨ps, e1, e2⟩ := hex _ (fun x hx => sortDedup_mem.mp hx)
  have hlook : ∀ p ∈ ps, st.lookup (ck p.1 p.2) = some (cdata cs.H L p.1 p.2) := by
    intro p hp
    rw [hst, if_pos (hpos p (e2 p hp))]
  have hany : (sortDedup (cids.map fun p => ck p.1 p.2)).any (fun id => (st.lookup id).isNone) = false := by
    rw [e1, List.any_eq_false]
    intro x hx
    obtain ⟨p, hp, rfl⟩ := List.mem_map.mp hx
    rw [hlook p hp]; simp
  have hdata : (sortDedup (cids.map fun p => ck p.1 p.2)).filterMap (fun id => (st.lookup id).map fun b => (id, b)) =
      ps.map fun p => (ck p.1 p.2, cdata cs.H L p.1 p.2) := by
    rw [e1]
    clear e1 hany hc
    induction ps with
    | nil => rfl
    | cons p ps ih =>
      rw [List.map_cons, List.filterMap_cons, hlook p (by simp)]
      simp only [Option.map_some, List.map_cons]
      rw [ih (fun p' hp' => e2 p' (by simp [hp'])) (fun p' hp' => hlook p' (by simp [hp']))]
  rw [if_neg (by rw [hany]; simp), hdata]
  unfold newChunkSet
  obtain ⟨chunks, h1, h2, h3⟩ := newChunkSet_ok hcs hL ps
  rw [h1, G.ok_bind]
  refine ⟨_, rfl, rfl, h2, ?_⟩
  intro q c
  unfold Has
  simp only
  rw [h3]
  constructor
  · exact e2 _
  · intro h
    have : ck q c ∈ sortDedup (cids.map fun p => ck p.1 p.2) := sortDedup_mem.mpr (List.mem_map.mpr ⟨(q, c), h, rfl⟩)
    rw [e1] at this
    obtain ⟨p, hp, he⟩ := List.mem_map.mp this
    obtain ⟨h1, h2⟩ := ck_inj he
    have : p = (q, c) := by cases p; simp_all
    rw [← this]; exact hp

theorem mapM_ok {α β : Type} {f : α → G β} {g : α → β} : ∀ {l : List α}, (∀ x ∈ l, f x = .ok (g x)) → l.mapM f = .ok (l.map g) := by
  intro l
  induction l with
  | nil => intro _; rfl
  | cons a l ih =>
    intro h
    rw [List.mapM_cons, h a (by simp), G.ok_bind, ih (fun x hx => h x (by simp [hx]))]; rfl

/-- chunk of a node, as a pair -/
def chunkOf (p : Nat × Nat) : Nat × Nat := (p.1 / 4, p.2 / 2 ^ (3 - p.1 % 4))

theorem chunk_chunkOf (p : Nat × Nat) : chunk (idx p.1 p.2) = .ok (ck (chunkOf p).1 (chunkOf p).2) := by
  obtain ⟨q, k, j, c, hk, hj, hK, hi, hq, hc⟩ := node_split p.1 p.2
  unfold chunkOf
  simp only
  rw [← hq, ← hc, hK]
  exact chunk_at hk hj hi

theorem full_chunkOf {p : Nat × Nat} (h : Full L p.1 p.2) : 0 < cnt L (chunkOf p).1 (chunkOf p).2 := by
  obtain ⟨q, k, j, c, hk, hj, hK, hi, hq, hc⟩ := node_split p.1 p.2
  unfold chunkOf
  simp only
  rw [← hq, ← hc]
  rw [hK, hi] at h
  exact full_cnt hk hj h

/-- Reading complete nodes from a correct store returns their true values. -/
theorem fetchSpecific_ok (hcs : cs.Good) (hL : ∀ v ∈ L, v.length = cs.hashSize) {st : LStore} (hst : StoreOK cs L st)
    {xs : List (Nat × Nat)} (hx : ∀ p ∈ xs, Full L p.1 p.2) :
    fetchSpecific cs st (xs.map fun p => idx p.1 p.2) = .ok (xs.map fun p => (val cs.H L p.1 p.2).value) := by
  unfold fetchSpecific
  have hm : (xs.map fun p => idx p.1 p.2).mapM chunk = (.ok ((xs.map chunkOf).map fun p => ck p.1 p.2) : G _) := by
    rw [List.mapM_map, List.map_map]
    exact mapM_ok (fun p _ => chunk_chunkOf p)
  obtain ⟨s, h1, _, h3, h4⟩ := fetch_ok hcs hL hst hm (by
    intro p hp
    obtain ⟨p', hp', rfl⟩ := List.mem_map.mp hp
    exact full_chunkOf (hx p' hp'))
  rw [h1, G.ok_bind]
  refine getAll_ok hcs hL xs s h3 ?_
  intro p hp
  refine ⟨hx p hp, ?_⟩
  rw [h4]
  exact List.mem_map.mpr ⟨p, hp, rfl⟩

/-! ### append -/

/-- a chunk that did not receive a new bottom node -/
theorem cnt_same {x : Bytes} {q c : Nat} (h : ¬ (2 ^ (4 * q) ∣ L.length + 1 ∧ c = L.length / 2 ^ (4 * q + 3))) :
    cnt (L ++ [x]) q c = cnt L q c := by
  unfold cnt
  simp only [List.length_append, List.length_singleton]
  by_cases hd : 2 ^ (4 * q) ∣ L.length + 1
  · have hc : c ≠ L.length / 2 ^ (4 * q + 3) := fun h' => h ⟨hd, h'⟩
    rw [pow_add, ← Nat.div_div_eq_div_mul] at hc
    have := (last_idx (N := L.length + 1) rfl hd).2
    have e : (L.length + 1) / 2 ^ (4 * q) = L.length / 2 ^ (4 * q) + 1 := by
      conv_lhs => rw [this]
      rw [Nat.mul_div_cancel_left _ (Nat.two_pow_pos _)]
    rw [e]
    generalize L.length / 2 ^ (4 * q) = i at *
    omega
  · have : (L.length + 1) / 2 ^ (4 * q) = L.length / 2 ^ (4 * q) := Nat.succ_div_of_not_dvd hd
    rw [this]

theorem cdata_same {x : Bytes} {q c : Nat} (h : ¬ (2 ^ (4 * q) ∣ L.length + 1 ∧ c = L.length / 2 ^ (4 * q + 3))) :
    cdata cs.H (L ++ [x]) q c = cdata cs.H L q c := by
  unfold cdata
  rw [cnt_same h]
  rw [List.flatMap_def, List.flatMap_def]
  congr 1
  apply List.map_congr_left
  intro i hi
  rw [List.mem_range] at hi
  have : cnt L q c ≤ 8 := by unfold cnt; omega
  rw [val_append ((full_iff_cnt (by omega)).mpr hi)]

theorem Rep.extend' {q c : Nat} {ch : NodeChunk} {x : Bytes} (h : Rep cs L q c ch)
    (hn : ¬ (2 ^ (4 * q) ∣ L.length + 1 ∧ c = L.length / 2 ^ (4 * q + 3))) : Rep cs (L ++ [x]) q c ch := by
  refine h.extend ?_
  intro j hj hf
  rw [full_iff_cnt hj] at hf ⊢
  rwa [cnt_same hn] at hf

/-- state of the chunk set while the levels `4q`, `q < q0`, have been updated -/
structure Mid (cs : Suite) (L : List Bytes) (x : Bytes) (q0 : Nat) (s : ChunkSet) : Prop where
  ok : ∀ q c ch, s.chunks.lookup (ck q c) = some ch → if q < q0 then Rep cs (L ++ [x]) q c ch else Rep cs L q c ch
  mod : s.modified = (List.range q0).map fun q => ck q (L.length / 2 ^ (4 * q + 3))

theorem Mid.put {x : Bytes} {q0 q c : Nat} {s : ChunkSet} {ch : NodeChunk} (h : Mid cs L x q0 s) (hq : q < q0)
    (hr : Rep cs (L ++ [x]) q c ch) : Mid cs L x q0 { s with chunks := (ck q c, ch) :: s.chunks } := by
  refine ⟨?_, h.mod⟩
  intro q' c' ch' hl
  simp only at hl
  rw [lookup_cons'] at hl
  split at hl
  · rename_i he
    obtain ⟨rfl, rfl⟩ := ck_inj he
    cases hl
    rw [if_pos hq]; exact hr
  · exact h.ok q' c' ch' hl

theorem Has.cons {s : ChunkSet} {q c q' c' : Nat} {ch : NodeChunk} (h : Has s q c) :
    Has { s with chunks := (ck q' c', ch) :: s.chunks } q c := by
  unfold Has at *
  simp only
  rw [lookup_cons']
  split
  · rfl
  · exact h

/-- storing the new node of level `4 q0` -/
theorem Mid.set (hcs : cs.Good) {x : Bytes} (hL : ∀ v ∈ L ++ [x], v.length = cs.hashSize) {q0 : Nat} {s : ChunkSet}
    (h : Mid cs L x q0 s) (hd : 2 ^ (4 * q0) ∣ L.length + 1) (hh : Has s q0 (L.length / 2 ^ (4 * q0 + 3))) :
    ∃ s', s.set (idx (4 * q0) (L.length / 2 ^ (4 * q0))) (val cs.H (L ++ [x]) (4 * q0) (L.length / 2 ^ (4 * q0))) = .ok s' ∧
      Mid cs L x (q0 + 1) s' ∧ ∀ q c, Has s q c → Has s' q c := by
  set i := L.length / 2 ^ (4 * q0) with hi
  have hc : L.length / 2 ^ (4 * q0 + 3) = i / 8 := by rw [pow_add, ← Nat.div_div_eq_div_mul]; rfl
  obtain ⟨ch, hch⟩ := Option.isSome_iff_exists.mp hh
  have hrep := h.ok _ _ _ hch
  rw [if_neg (by omega)] at hrep
  have hN := (last_idx (N := L.length + 1) rfl hd).2
  rw [← hi] at hN
  have hdiv : (L ++ [x]).length / 2 ^ (4 * q0) = i + 1 := by
    simp only [List.length_append, List.length_singleton]
    conv_lhs => rw [hN]
    rw [Nat.mul_div_cancel_left _ (Nat.two_pow_pos _)]
  have e8 : 8 * (i / 8) + i % 8 = i := Nat.div_add_mod i 8
  rw [hc] at hrep hch hh
  obtain ⟨ch', h1, h2⟩ := hrep.set (i := i % 8) hcs hL (by omega) (by
      rw [full_iff_cnt (by omega)]; unfold cnt; rw [hdiv]; omega) (by
      intro j hj hne hf
      rw [full_iff_cnt hj] at hf ⊢
      unfold cnt at *
      rw [hdiv] at hf
      rw [← hi]
      omega)
  rw [e8] at h1
  have hchunk : chunk (idx (4 * q0) i) = .ok (ck q0 (i / 8)) :=
    chunk_at (q := q0) (k := 0) (j := i % 8) (c := i / 8) (by omega) (by simp; omega) (by simp; omega)
  unfold ChunkSet.set
  rw [hchunk, G.ok_bind, hch]
  simp only
  rw [h1, G.ok_bind]
  have hnm : ck q0 (i / 8) ∉ s.modified := by
    rw [h.mod]
    intro hm
    obtain ⟨q, hq, he⟩ := List.mem_map.mp hm
    have := (ck_inj he).1
    rw [List.mem_range] at hq
    omega
  refine ⟨_, rfl, ⟨?_, ?_⟩, ?_⟩
  · intro q c ch'' hl
    simp only at hl
    rw [lookup_cons'] at hl
    split at hl
    · rename_i he
      obtain ⟨rfl, rfl⟩ := ck_inj he
      cases hl
      rw [if_pos (by omega)]; exact h2
    · rename_i hne
      have := h.ok q c ch'' hl
      by_cases hq : q < q0
      · rw [if_pos hq] at this; rw [if_pos (by omega)]; exact this
      · rw [if_neg hq] at this
        split
        · have : q = q0 := by omega
          subst this
          refine Rep.extend' (by assumption) ?_
          rintro ⟨_, h6⟩
          rw [hc] at h6
          exact hne (by rw [h6])
        · exact this
  · simp only
    rw [if_neg hnm, h.mod, List.range_succ, List.map_append, ← hc]; rfl
  · intro q c hqc
    exact Has.cons hqc

/-- one round of the loop updating stored intermediate nodes, repeated -/
theorem updatePath_ok (hcs : cs.Good) {x : Bytes} (hL : ∀ v ∈ L ++ [x], v.length = cs.hashSize) :
    ∀ (d q0 : Nat) (s : ChunkSet), Mid cs L x (q0 + 1) s →
    (∀ q ≤ q0 + d, 2 ^ (4 * q) ∣ L.length + 1 ∧ Has s q (L.length / 2 ^ (4 * q + 3))) →
    (∀ q, q + 1 ≤ q0 + d → Has s q (L.length / 2 ^ (4 * q + 3) - 1)) →
    ∃ s', updatePath cs s ((List.range' (q0 + 1) d).map fun q => idx (4 * q) (L.length / 2 ^ (4 * q))) = .ok s' ∧
      Mid cs L x (q0 + 1 + d) s' ∧ ∀ q c, Has s q c → Has s' q c := by
  intro d
  induction d with
  | zero => intro q0 s h _ _; exact ⟨s, rfl, by simpa using h, fun _ _ h => h⟩
  | succ d ih =>
    intro q0 s h hp hc
    rw [List.range'_succ, List.map_cons]
    set i := L.length / 2 ^ (4 * (q0 + 1)) with hi
    have hd := (hp (q0 + 1) (by omega)).1
    have hN := (last_idx (N := L.length + 1) rfl hd).2
    rw [← hi] at hN
    have hlen : (L ++ [x]).length = L.length + 1 := by simp
    -- children
    have e3 : 4 * (q0 + 1) = (4 * q0 + 3) + 1 := by ring
    have hl : left (idx (4 * (q0 + 1)) i) = .ok (idx (4 * q0 + 3) (2 * i)) := by rw [e3, left_idx]
    have hr : rightStep (idx (4 * (q0 + 1)) i) = .ok (idx (4 * q0 + 3) (2 * i + 1)) := by rw [e3, rightStep_idx]
    have hfull : Full (L ++ [x]) (4 * q0 + 3 + 1) i := by
      unfold Full; rw [hlen, ← e3, ← hN]
    obtain ⟨f1, f2⟩ := hfull.down
    have hidx : L.length / 2 ^ (4 * q0 + 3) = 2 * i + 1 := by
      have hp2 := Nat.two_pow_pos (4 * q0 + 3)
      rw [Nat.div_eq_iff hp2]
      rw [e3, pow_succ] at hN
      have : (2 * i + 1) * 2 ^ (4 * q0 + 3) + 2 ^ (4 * q0 + 3) = 2 ^ (4 * q0 + 3) * 2 * (i + 1) := by ring
      omega
    have hR : Has s q0 (2 * i + 1) := by rw [← hidx]; exact (hp q0 (by omega)).2
    have hLf : Has s q0 (2 * i) := by
      have := hc q0 (by omega)
      rw [hidx] at this; simpa using this
    unfold updatePath
    rw [hl, G.ok_bind, hr, G.ok_bind]
    obtain ⟨ch1, hch1⟩ := Option.isSome_iff_exists.mp hLf
    have r1 := h.ok _ _ _ hch1
    rw [if_pos (by omega)] at r1
    obtain ⟨ch1', g1, r1'⟩ := ChunkSet.get_at hcs hL (k := 3) (j := 0) (by omega) (by simp) (by simpa using f1) hch1 r1
    simp only [Nat.sub_self, pow_zero, Nat.one_mul, Nat.add_zero] at g1
    rw [g1, G.ok_bind]
    simp only
    have m1 := h.put (by omega) r1'
    have hR' : Has { s with chunks := (ck q0 (2 * i), ch1') :: s.chunks } q0 (2 * i + 1) := hR.cons
    obtain ⟨ch2, hch2⟩ := Option.isSome_iff_exists.mp hR'
    have r2 := m1.ok _ _ _ hch2
    rw [if_pos (by omega)] at r2
    obtain ⟨ch2', g2, r2'⟩ := ChunkSet.get_at hcs hL (k := 3) (j := 0) (by omega) (by simp) (by simpa using f2) hch2 r2
    simp only [Nat.sub_self, pow_zero, Nat.one_mul, Nat.add_zero] at g2
    rw [g2, G.ok_bind]
    simp only
    have m2 := m1.put (by omega) r2'
    rw [treeHash_val hcs hL hfull, G.ok_bind, ← e3]
    obtain ⟨s3, g3, m3, k3⟩ := m2.set hcs hL hd ((hp (q0 + 1) (by omega)).2.cons.cons)
    rw [← hi] at g3
    rw [g3, G.ok_bind]
    have keep : ∀ q c, Has s q c → Has s3 q c := fun q c hq => k3 q c hq.cons.cons
    obtain ⟨s', g4, m4, k4⟩ := ih (q0 + 1) s3 m3
      (fun q hq => ⟨(hp q (by omega)).1, keep _ _ (hp q (by omega)).2⟩)
      (fun q hq => keep _ _ (hc q (by omega)))
    refine ⟨s', g4, by rw [show q0 + 1 + (d + 1) = q0 + 1 + 1 + d by ring]; exact m4, fun q c hq => k4 q c (keep q c hq)⟩

theorem addChunks_ok (hcs : cs.Good) (hL : ∀ v ∈ L, v.length = cs.hashSize) : ∀ (ps : List (Nat × Nat)) (s : ChunkSet),
    SetOK cs L s → s.modified = [] → ps.Nodup → (∀ p ∈ ps, cnt L p.1 p.2 = 0 ∧ ¬ Has s p.1 p.2) →
    ∃ s', addChunks cs s (ps.map fun p => ck p.1 p.2) = .ok s' ∧ SetOK cs L s' ∧ s'.modified = [] ∧
      (∀ q c, Has s' q c ↔ Has s q c ∨ (q, c) ∈ ps) := by
  intro ps
  induction ps with
  | nil => intro s h1 h2 _ _; exact ⟨s, rfl, h1, h2, by simp⟩
  | cons p ps ih =>
    intro s h1 h2 hnd h3
    obtain ⟨hz, hnh⟩ := h3 p (by simp)
    have hnone : s.chunks.lookup (ck p.1 p.2) = none := by
      unfold Has at hnh; exact Option.not_isSome_iff_eq_none.mp hnh
    obtain ⟨ch, e, r⟩ := newChunk_rep hcs hL p.1 p.2
    have hcd : cdata cs.H L p.1 p.2 = [] := by unfold cdata; rw [hz]; rfl
    rw [hcd] at e
    rw [List.map_cons]
    unfold addChunks ChunkSet.add
    rw [chunk_ck, G.ok_bind, hnone]
    simp only
    rw [e]
    simp only [G.ok_bind, G.pure_eq]
    rw [List.nodup_cons] at hnd
    obtain ⟨s', g1, g2, g3, g4⟩ := ih { s with chunks := (ck p.1 p.2, ch) :: s.chunks } (by
        intro q c ch' hl
        simp only at hl
        rw [lookup_cons'] at hl
        split at hl
        · rename_i he
          obtain ⟨rfl, rfl⟩ := ck_inj he
          cases hl; exact r
        · exact h1 q c ch' hl) h2 hnd.2 (by
        intro p' hp'
        refine ⟨(h3 p' (by simp [hp'])).1, ?_⟩
        unfold Has
        simp only
        rw [lookup_cons', if_neg]
        · exact (h3 p' (by simp [hp'])).2
        · intro he
          obtain ⟨e1, e2⟩ := ck_inj he
          have : p' = p := by cases p; cases p'; simp_all
          subst this; exact hnd.1 hp')
    refine ⟨s', g1, g2, g3, ?_⟩
    intro q c
    rw [g4, List.mem_cons]
    unfold Has
    simp only
    rw [lookup_cons']
    split
    · rename_i he
      obtain ⟨rfl, rfl⟩ := ck_inj he
      simp
    · rename_i hne
      constructor
      · rintro (h | h)
        · exact Or.inl h
        · exact Or.inr (Or.inr h)
      · rintro (h | h | h)
        · exact Or.inl h
        · subst h; exact absurd rfl hne
        · exact Or.inr h

theorem marshal_ok (hcs : cs.Good) {s : ChunkSet} (hL : ∀ v ∈ L, v.length = cs.hashSize) {ps : List (Nat × Nat)}
    (hm : s.modified = ps.map fun p => ck p.1 p.2)
    (hr : ∀ p ∈ ps, ∃ ch, s.chunks.lookup (ck p.1 p.2) = some ch ∧ Rep cs L p.1 p.2 ch) :
    s.marshal = .ok (ps.map fun p => (ck p.1 p.2, cdata cs.H L p.1 p.2)) := by
  unfold ChunkSet.marshal
  rw [hm, List.mapM_map]
  refine mapM_ok ?_
  intro p hp
  obtain ⟨ch, h1, h2⟩ := hr p hp
  simp only [Function.comp_apply]
  rw [h1]
  simp only
  rw [h2.marshal hcs hL, G.ok_bind]; rfl

/-- every node of the list is `idx` of a pair -/
theorem exists_pairs {P : Nat × Nat → Prop} : ∀ l : List Nat, (∀ y ∈ l, ∃ p, P p ∧ y = idx p.1 p.2) →
    ∃ ps : List (Nat × Nat), l = ps.map (fun p => idx p.1 p.2) ∧ ∀ p ∈ ps, P p := by
  intro l
  induction l with
  | nil => intro _; exact ⟨[], rfl, by simp⟩
  | cons y l ih =>
    intro h
    obtain ⟨ps, h1, h2⟩ := ih (fun z hz => h z (by simp [hz]))
    obtain ⟨p, hp, he⟩ := h y (by simp)
    refine ⟨p :: ps, by simp [← h1, he], ?_⟩
    intro p' hp'
    rcases List.mem_cons.mp hp' with rfl | h'
    · exact hp
    · exact h2 _ h'

theorem ck_mem {aps : List (Nat × Nat)} (p : Nat × Nat) : ck p.1 p.2 ∈ (aps.map fun p => ck p.1 p.2) ↔ p ∈ aps := by
  constructor
  · intro h
    obtain ⟨p', hp', he⟩ := List.mem_map.mp h
    obtain ⟨h1, h2⟩ := ck_inj he
    have : p' = p := by cases p; cases p'; simp_all
    rw [← this]; exact hp'
  · intro h; exact List.mem_map.mpr ⟨p, h, rfl⟩

/-- sorted chunk ids, as pairs -/
theorem sortDedup_ck (aps : List (Nat × Nat)) : ∃ ps : List (Nat × Nat),
    sortDedup (aps.map fun p => ck p.1 p.2) = ps.map (fun p => ck p.1 p.2) ∧ (∀ p, p ∈ ps ↔ p ∈ aps) ∧ ps.Nodup := by
  have hex : ∀ l : List Nat, (∀ y ∈ l, ∃ p, p ∈ aps ∧ ck p.1 p.2 = y) →
      ∃ ps : List (Nat × Nat), l = ps.map (fun p => ck p.1 p.2) ∧ ∀ p ∈ ps, p ∈ aps := by
    intro l
    induction l with
    | nil => intro _; exact ⟨[], rfl, by simp⟩
    | cons y l ih =>
      intro h
      obtain ⟨ps, h1, h2⟩ := ih (fun z hz => h z (by simp [hz]))
      obtain ⟨p, a, he⟩ := h y (by simp)
      refine ⟨p :: ps, by simp [← h1, he], ?_⟩
      intro p' hp'
      rcases List.mem_cons.mp hp' with rfl | h'
      · exact a
      · exact h2 _ h'
  obtain ⟨ps, h1, h2⟩ := hex (sortDedup (aps.map fun p => ck p.1 p.2)) (fun y hy => by
    obtain ⟨p, hp, he⟩ := List.mem_map.mp (sortDedup_mem.mp hy)
    exact ⟨p, hp, he⟩)
  refine ⟨ps, h1, ?_, ?_⟩
  · intro p
    constructor
    · exact h2 p
    · intro h
      have : ck p.1 p.2 ∈ sortDedup (aps.map fun p => ck p.1 p.2) := sortDedup_mem.mpr ((ck_mem p).mpr h)
      rw [h1] at this
      exact (ck_mem p).mp this
  · have hs := sortDedup_sorted (aps.map fun p => ck p.1 p.2)
    rw [h1] at hs
    have : (ps.map fun p => ck p.1 p.2).Nodup := hs.imp (fun h => Nat.ne_of_lt h)
    exact this.of_map

/-- a chunk on the path that already holds nodes holds a copath node -/
theorem low_bit {n q : Nat} (hne : n / 2 ^ (4 * q) % 8 ≠ 0) :
    ∃ K, n.testBit K = true ∧ chunkOf (K, n / 2 ^ K - 1) = (q, n / 2 ^ (4 * q + 3)) := by
  have h8 : ∀ m : Nat, m < 8 → m ≠ 0 → ∃ b < 3, m.testBit b = true := by decide
  obtain ⟨b, hb, htb⟩ := h8 (n / 2 ^ (4 * q) % 8) (by omega) hne
  have htb' : n.testBit (4 * q + b) = true := by
    have := Nat.testBit_mod_two_pow (n / 2 ^ (4 * q)) 3 b
    rw [show (2 : Nat) ^ 3 = 8 by norm_num, htb] at this
    have h2 : (n / 2 ^ (4 * q)).testBit b = true := by simpa [hb] using this.symm
    rw [← Nat.shiftRight_eq_div_pow, Nat.testBit_shiftRight] at h2; exact h2
  refine ⟨4 * q + b, htb', ?_⟩
  unfold chunkOf
  simp only
  have e1 : (4 * q + b) / 4 = q := by omega
  have e2 : (4 * q + b) % 4 = b := by omega
  rw [e1, e2]
  congr 1
  have hodd : n / 2 ^ (4 * q + b) % 2 = 1 := by
    rw [Nat.testBit_eq_decide_div_mod_eq] at htb'; simpa using htb'
  have e3 : 2 ^ (4 * q + 3) = 2 ^ (4 * q + b) * 2 * 2 ^ (2 - b) := by
    rw [mul_assoc, ← pow_succ', ← pow_add]; congr 1; omega
  have e4 : 2 ^ (3 - b) = 2 * 2 ^ (2 - b) := by rw [← pow_succ']; congr 1; omega
  rw [e3, e4, ← Nat.div_div_eq_div_mul, ← Nat.div_div_eq_div_mul, ← Nat.div_div_eq_div_mul]
  congr 1
  generalize n / 2 ^ (4 * q + b) = m at *
  omega

theorem fsList_pairs (N : Nat) (hN : 0 < N) : ∀ p ∈ fsList 0 N, ∃ K, p.2 = 2 ^ K ∧ p.1 = 2 ^ K * (N / 2 ^ K - 1) ∧ N.testBit K = true := by
  intro p hp
  have hlt : N < 2 ^ N := Nat.lt_two_pow_self
  rw [fsList_bits N 0 N hN hlt] at hp
  obtain ⟨K, _, h2⟩ := List.mem_filterMap.mp hp
  unfold bitBlk at h2
  split at h2
  · rename_i hb
    have := Option.some.inj h2
    exact ⟨K, by rw [← this], by rw [← this]; simp, hb⟩
  · cases h2

theorem lookup_puts {f : Nat → Nat → Bytes} (q c : Nat) : ∀ (ps : List (Nat × Nat)) (st : LStore), ps.Nodup →
    (((ps.map fun p => (ck p.1 p.2, f p.1 p.2))).reverse ++ st).lookup (ck q c) =
    if (q, c) ∈ ps then some (f q c) else st.lookup (ck q c) := by
  intro ps
  induction ps with
  | nil => intro st _; simp
  | cons p ps ih =>
    intro st hnd
    rw [List.nodup_cons] at hnd
    rw [List.map_cons, List.reverse_cons, List.append_assoc, List.singleton_append, ih _ hnd.2]
    by_cases h : (q, c) ∈ ps
    · rw [if_pos h, if_pos (by simp [h])]
    · rw [if_neg h, lookup_cons']
      by_cases he : (q, c) = p
      · subst he; simp
      · rw [if_neg, if_neg (by simp [h, he])]
        intro hc
        obtain ⟨h1, h2⟩ := ck_inj hc
        exact he (by cases p; simp_all)

theorem treeAppend_ok (hcs : cs.Good) {x : Bytes} (hL : ∀ v ∈ L ++ [x], v.length = cs.hashSize) (hmax : L.length < maxTreeSize)
    {st : LStore} (hst : StoreOK cs L st) :
    ∃ st', treeAppend cs st L.length x = .ok (st', heads cs.H (L ++ [x])) ∧ StoreOK cs (L ++ [x]) st' := by
  have hL0 : ∀ v ∈ L, v.length = cs.hashSize := fun v hv => hL v (by simp [hv])
  have hx : x.length = cs.hashSize := hL x (by simp)
  set n := L.length with hn
  have hlen : (L ++ [x]).length = n + 1 := by simp [hn]
  obtain ⟨t, p0, cop, hd, hnd, hat, hp0, hcop⟩ := last_path (N := n + 1) rfl
  have hleaf : 2 * n = nd n 1 := (nd_leaf n).symm
  have hdp := directPath_eq (by omega) hat
  have hcp := copath_eq (by omega) hat
  -- the pairs of the copath
  obtain ⟨cps, ecop, hcps⟩ := exists_pairs (P := fun p => n.testBit p.1 = true ∧ p.2 = n / 2 ^ p.1 - 1) cop (by
    intro y hy
    obtain ⟨K, h1, h2⟩ := (hcop y).mp hy
    exact ⟨(K, n / 2 ^ K - 1), ⟨h1, rfl⟩, h2⟩)
  have cmem : ∀ K, n.testBit K = true → (K, n / 2 ^ K - 1) ∈ cps := by
    intro K hK
    have : idx K (n / 2 ^ K - 1) ∈ cop := (hcop _).mpr ⟨K, hK, rfl⟩
    rw [ecop] at this
    obtain ⟨p, hp, he⟩ := List.mem_map.mp this
    obtain ⟨h1, h2⟩ := idx_inj he
    have : p = (K, n / 2 ^ K - 1) := by cases p; simp_all
    rw [← this]; exact hp
  have cfull : ∀ p ∈ cps, Full L p.1 p.2 := by
    intro p hp
    obtain ⟨h1, h2⟩ := hcps p hp
    have hge := Nat.ge_two_pow_of_testBit h1
    have : 1 ≤ n / 2 ^ p.1 := by rw [Nat.one_le_div_iff (Nat.two_pow_pos _)]; exact hge
    unfold Full
    rw [h2, show n / 2 ^ p.1 - 1 + 1 = n / 2 ^ p.1 by omega]
    exact Nat.mul_div_le _ _
  -- the stored nodes above the leaf
  set Q := t / 4 with hQ
  have hpath : ((List.range' 1 t).map (fun K => idx K (n / 2 ^ K)) ++ p0).filter
      (fun y => isFullSubtree y (n + 1) && level y % 4 == 0) = (List.range' 1 Q).map fun q => idx (4 * q) (n / 2 ^ (4 * q)) := by
    rw [List.filter_append, List.filter_map]
    have h1 : p0.filter (fun y => isFullSubtree y (n + 1) && level y % 4 == 0) = [] := by
      rw [List.filter_eq_nil_iff]
      intro y hy
      simp [hp0 y hy]
    have h2 : (List.range' 1 t).filter ((fun y => isFullSubtree y (n + 1) && level y % 4 == 0) ∘ fun K => idx K (n / 2 ^ K)) =
        (List.range' 1 t).filter (fun K => K % 4 == 0) := by
      apply List.filter_congr
      intro K hK
      rw [List.mem_range'_1] at hK
      have hdK : 2 ^ K ∣ n + 1 := dvd_trans (pow_dvd_pow _ (by omega)) hd
      have hle := Nat.le_of_dvd (by omega) hdK
      have hlast := last_idx (N := n + 1) (n := n) rfl hdK
      have hsub : Sub (n + 1) (2 ^ K * (n / 2 ^ K)) (2 ^ K) := ⟨Nat.two_pow_pos _, by rw [ht_two_pow]; exact ⟨_, rfl⟩,
        by rw [← hlast.1]; omega, Or.inl (by rw [ht_two_pow])⟩
      have he : nd (2 ^ K * (n / 2 ^ K)) (2 ^ K) = idx K (n / 2 ^ K) := by
        have := nd_eq_idx (lo := 2 ^ K * (n / 2 ^ K)) (s := 2 ^ K) (n / 2 ^ K) (by rw [ht_two_pow])
        rw [this, ht_two_pow]
      have hfull : isFullSubtree (idx K (n / 2 ^ K)) (n + 1) = true := by
        rw [← he]; exact (isFull_nd hsub).mpr (by rw [ht_two_pow])
      simp only [Function.comp_apply, hfull, level_idx, Bool.true_and]
    rw [h1, h2, filter_mod4, List.append_nil, List.map_map, ← hQ, List.range'_eq_map_range, List.map_map]
    apply List.map_congr_left
    intro q _
    simp only [Function.comp_apply]
    rw [Nat.add_comm 1 q]
  -- chunks of the path
  have hdq : ∀ q ≤ Q, 2 ^ (4 * q) ∣ n + 1 := fun q hq => dvd_trans (pow_dvd_pow _ (by omega)) hd
  have hndq : ∀ q, 2 ^ (4 * q) ∣ n + 1 → q ≤ Q := by
    intro q hq
    by_contra hc
    exact hnd (dvd_trans (pow_dvd_pow _ (by omega)) hq)
  let pc : Nat → Nat × Nat := fun q => (q, n / 2 ^ (4 * q + 3))
  have hpcs : (2 * n :: (List.range' 1 Q).map fun q => idx (4 * q) (n / 2 ^ (4 * q))).mapM chunk =
      (.ok ((List.range (Q + 1)).map fun q => ck (pc q).1 (pc q).2) : G _) := by
    have : (2 * n :: (List.range' 1 Q).map fun q => idx (4 * q) (n / 2 ^ (4 * q))) =
        (List.range (Q + 1)).map fun q => idx (4 * q) (n / 2 ^ (4 * q)) := by
      rw [List.range_eq_range', List.range'_succ, List.map_cons]
      simp [idx]
    rw [this, List.mapM_map]
    refine mapM_ok ?_
    intro q _
    simp only [Function.comp_apply]
    rw [show idx (4 * q) (n / 2 ^ (4 * q)) = idx (4 * q, n / 2 ^ (4 * q)).1 (4 * q, n / 2 ^ (4 * q)).2 from rfl, chunk_chunkOf]
    unfold chunkOf pc
    simp only [Nat.mul_mod_right, Nat.sub_zero]
    rw [Nat.mul_div_cancel_left _ (by norm_num), Nat.div_div_eq_div_mul, ← pow_add]
  -- chunks of the copath
  set aps := cps.map chunkOf with haps
  have hae : cop.mapM chunk = (.ok (aps.map fun p => ck p.1 p.2) : G _) := by
    rw [ecop, List.mapM_map, haps, List.map_map]
    exact mapM_ok (fun p _ => chunk_chunkOf p)
  have hmemck := ck_mem (aps := aps)
  -- start
  unfold treeAppend
  rw [if_neg (by omega), if_neg (by omega)]
  simp only
  rw [hleaf, hdp, G.ok_bind, hpath]
  have hcop' : appendCopath n = .ok cop := by
    unfold appendCopath
    rw [hleaf]
    split
    · exact hcp
    · rename_i h0
      have h0 : n = 0 := by omega
      have : cop = [] := by
        rw [List.eq_nil_iff_forall_not_mem]
        intro y hy
        obtain ⟨K, h1, _⟩ := (hcop y).mp hy
        rw [h0] at h1; simp at h1
      rw [this]; rfl
  rw [hcop', G.ok_bind, hae, G.ok_bind, ← hleaf, hpcs, G.ok_bind]
  -- fetching
  obtain ⟨sps, esd, hsps, _⟩ := sortDedup_ck aps
  set pcs := (List.range (Q + 1)).map pc with hpcsdef
  have epcs : ((List.range (Q + 1)).map fun q => ck (pc q).1 (pc q).2) = pcs.map fun p => ck p.1 p.2 := by
    rw [hpcsdef, List.map_map]; rfl
  have hcont : ∀ p : Nat × Nat, (aps.map fun p => ck p.1 p.2).contains (ck p.1 p.2) = decide (p ∈ aps) := by
    intro p
    rw [Bool.eq_iff_iff, List.contains_iff_mem, hmemck p]; simp
  have f1 : (pcs.map fun p => ck p.1 p.2).filter (fun x => (aps.map fun p => ck p.1 p.2).contains x) =
      (pcs.filter fun p => decide (p ∈ aps)).map fun p => ck p.1 p.2 := by
    rw [List.filter_map]
    congr 1
    apply List.filter_congr
    intro p _
    exact hcont p
  have f2 : (pcs.map fun p => ck p.1 p.2).filter (fun x => !(aps.map fun p => ck p.1 p.2).contains x) =
      (pcs.filter fun p => !decide (p ∈ aps)).map fun p => ck p.1 p.2 := by
    rw [List.filter_map]
    congr 1
    apply List.filter_congr
    intro p _
    simp only [Function.comp_apply, hcont]
  rw [epcs, f1, f2, esd, ← List.map_append]
  have hfm : (((pcs.filter fun p => decide (p ∈ aps)) ++ sps).map fun p => ck p.1 p.2).mapM chunk =
      (.ok (((pcs.filter fun p => decide (p ∈ aps)) ++ sps).map fun p => ck p.1 p.2) : G _) := by
    rw [List.mapM_map]
    refine mapM_ok ?_
    intro p _
    exact chunk_ck _ _
  have hfmem : ∀ p, p ∈ (pcs.filter fun p => decide (p ∈ aps)) ++ sps ↔ p ∈ aps := by
    intro p
    rw [List.mem_append, hsps, List.mem_filter]
    constructor
    · rintro (⟨_, h⟩ | h)
      · simpa using h
      · exact h
    · exact Or.inr
  obtain ⟨s1, g1, m1, ok1, has1⟩ := fetch_ok hcs hL0 hst hfm (by
    intro p hp
    obtain ⟨p', hp', rfl⟩ := List.mem_map.mp ((hfmem p).mp hp)
    exact full_chunkOf (cfull p' hp'))
  rw [g1, G.ok_bind]
  -- creating
  have pcnodup : pcs.Nodup := by
    rw [hpcsdef]
    refine List.Nodup.map ?_ List.nodup_range
    intro a b h
    exact congrArg Prod.fst h
  obtain ⟨nps, enew, hnps', nnd⟩ := sortDedup_ck (pcs.filter fun p => !decide (p ∈ aps))
  have hnps : ∀ p, p ∈ nps ↔ p ∈ pcs ∧ p ∉ aps := by
    intro p; rw [hnps', List.mem_filter]; simp
  rw [enew]
  obtain ⟨s2, g2, ok2, m2, has2⟩ := addChunks_ok hcs hL0 nps s1 ok1 m1 nnd (by
    intro p hp
    obtain ⟨h1, h2⟩ := (hnps p).mp hp
    refine ⟨?_, by rw [has1, hfmem]; exact h2⟩
    obtain ⟨q, hq, rfl⟩ := List.mem_map.mp h1
    rw [List.mem_range] at hq
    by_contra hc
    apply h2
    -- some lower bit of the index is set
    unfold cnt at hc
    simp only [pc] at hc
    rw [pow_add, ← Nat.div_div_eq_div_mul, ← hn] at hc
    have hne : n / 2 ^ (4 * q) % 8 ≠ 0 := by
      have : n / 2 ^ (4 * q) / 2 ^ 3 = n / 2 ^ (4 * q) / 8 := rfl
      omega
    obtain ⟨K, h5, h6⟩ := low_bit hne
    rw [haps, List.mem_map]
    exact ⟨_, cmem _ h5, h6⟩)
  rw [g2, G.ok_bind]
  -- presence
  have hasP : ∀ q ≤ Q, Has s2 q (n / 2 ^ (4 * q + 3)) := by
    intro q hq
    rw [has2, has1, hfmem, hnps]
    by_cases h : (q, n / 2 ^ (4 * q + 3)) ∈ aps
    · exact Or.inl h
    · exact Or.inr ⟨List.mem_map.mpr ⟨q, List.mem_range.mpr (by omega), rfl⟩, h⟩
  have hasC : ∀ p ∈ cps, Has s2 (p.1 / 4) (p.2 / 2 ^ (3 - p.1 % 4)) := by
    intro p hp
    rw [has2, has1, hfmem]
    exact Or.inl (List.mem_map.mpr ⟨p, hp, rfl⟩)
  -- the leaf
  have mid0 : Mid cs L x 0 s2 := ⟨by intro q c ch h; rw [if_neg (by omega)]; exact ok2 q c ch h, by rw [m2]; rfl⟩
  have hv0 : val cs.H (L ++ [x]) 0 n = ⟨true, x⟩ := by
    unfold val toND
    rw [pow_zero, Nat.one_mul, blk_one _ (by simp [hn])]
    simp [hn]
  obtain ⟨s3, g3, mid1, k3⟩ := mid0.set hcs hL (by simp) (by simpa using hasP 0 (by omega))
  simp only [Nat.mul_zero, pow_zero, Nat.div_one, ← hn] at g3
  rw [hv0, show idx 0 n = 2 * n by simp [idx]] at g3
  rw [g3, G.ok_bind]
  obtain ⟨s4, g4, mid2, k4⟩ := updatePath_ok hcs hL Q 0 s3 mid1
    (fun q hq => ⟨hdq q (by omega), k3 _ _ (hasP q (by omega))⟩)
    (by
      intro q hq
      have hb : n.testBit (4 * q + 3) = true := by
        have hdd : 2 ^ (4 * q + 3 + 1) ∣ n + 1 := dvd_trans (pow_dvd_pow _ (by omega)) hd
        have h1 := (last_idx (N := n + 1) rfl hdd).2
        rw [Nat.testBit_eq_decide_div_mod_eq]
        have : n / 2 ^ (4 * q + 3) = 2 * (n / 2 ^ (4 * q + 3 + 1)) + 1 := by
          rw [Nat.div_eq_iff (Nat.two_pow_pos _)]
          generalize n / 2 ^ (4 * q + 3 + 1) = j at *
          rw [pow_succ] at h1
          have : (2 * j + 1) * 2 ^ (4 * q + 3) + 2 ^ (4 * q + 3) = 2 ^ (4 * q + 3) * 2 * (j + 1) := by ring
          have := Nat.two_pow_pos (4 * q + 3)
          omega
        rw [this]; simp
      have := hasC _ (cmem _ hb)
      simp only at this
      rw [show (4 * q + 3) / 4 = q by omega, show 3 - (4 * q + 3) % 4 = 0 by omega] at this
      exact k3 _ _ (by simpa using this))
  rw [← hn, Nat.zero_add] at g4
  rw [g4, G.ok_bind]
  -- everything now represents the longer log
  have ok4 : SetOK cs (L ++ [x]) s4 := by
    intro q c ch h
    have := mid2.ok q c ch h
    split at this
    · exact this
    · rename_i hq
      refine this.extend' ?_
      rintro ⟨h1, _⟩
      have := hndq q h1
      omega
  have mod4 : s4.modified = ((List.range (Q + 1)).map pc).map fun p => ck p.1 p.2 := by
    rw [mid2.mod, List.map_map, ← hn, show 0 + 1 + Q = Q + 1 by ring]; rfl
  have hm := marshal_ok hcs hL mod4 (by
    intro p hp
    obtain ⟨q, hq, rfl⟩ := List.mem_map.mp hp
    rw [List.mem_range] at hq
    have := k4 _ _ (k3 _ _ (hasP q (by omega)))
    obtain ⟨ch, hch⟩ := Option.isSome_iff_exists.mp this
    exact ⟨ch, hch, ok4 _ _ _ hch⟩)
  rw [hm, G.ok_bind]
  have hsubN := Sub.root (n := n + 1) (by omega)
  rw [root_eq (by omega), fullSubtrees_eq hsubN, G.ok_bind]
  -- the returned values
  have hfs := fsList_pairs (n + 1) (by omega)
  have efs : ((fsList 0 (n + 1)).map fun p => nd p.1 p.2) = ((fsList 0 (n + 1)).map fun p => (ht p.2, p.1 / p.2)).map fun p => idx p.1 p.2 := by
    rw [List.map_map]
    apply List.map_congr_left
    intro p hp
    obtain ⟨K, h1, h2, _⟩ := hfs p hp
    simp only [Function.comp_apply]
    have hdiv : p.1 / p.2 = (n + 1) / 2 ^ K - 1 := by rw [h1, h2, Nat.mul_div_cancel_left _ (Nat.two_pow_pos _)]
    rw [nd_eq_idx ((n + 1) / 2 ^ K - 1) (by rw [h1, ht_two_pow]; exact h2), hdiv]
  rw [efs, getAll_ok hcs hL _ s4 ok4 (by
    intro pr hpr
    obtain ⟨p, hp, rfl⟩ := List.mem_map.mp hpr
    obtain ⟨K, h1, h2, h3⟩ := hfs p hp
    simp only
    have hdiv : p.1 / p.2 = (n + 1) / 2 ^ K - 1 := by rw [h1, h2, Nat.mul_div_cancel_left _ (Nat.two_pow_pos _)]
    rw [hdiv, h1, ht_two_pow]
    have hge := Nat.ge_two_pow_of_testBit h3
    have h1' : 1 ≤ (n + 1) / 2 ^ K := by rw [Nat.one_le_div_iff (Nat.two_pow_pos _)]; exact hge
    constructor
    · unfold Full
      rw [hlen, show (n + 1) / 2 ^ K - 1 + 1 = (n + 1) / 2 ^ K by omega]
      exact Nat.mul_div_le _ _
    · by_cases hdK : 2 ^ K ∣ n + 1
      · -- the new node
        have hl := (last_idx (N := n + 1) rfl hdK).2
        have : (n + 1) / 2 ^ K - 1 = n / 2 ^ K := by
          conv_lhs => rw [hl]
          rw [Nat.mul_div_cancel_left _ (Nat.two_pow_pos _)]; rfl
        rw [this, Nat.div_div_eq_div_mul, ← pow_add]
        have hK : K ≤ t := by
          by_contra hc
          exact hnd (dvd_trans (pow_dvd_pow _ (by omega)) hdK)
        have := hasP (K / 4) (Nat.div_le_div_right hK)
        rw [show K + (3 - K % 4) = 4 * (K / 4) + 3 by omega]
        exact k4 _ _ (k3 _ _ this)
      · have he : (n + 1) / 2 ^ K = n / 2 ^ K := Nat.succ_div_of_not_dvd hdK
        rw [he]
        have hb : n.testBit K = true := by
          rw [Nat.testBit_eq_decide_div_mod_eq] at h3 ⊢
          rw [← he]; exact h3
        have hcc := hasC (K, n / 2 ^ K - 1) (cmem K hb)
        exact k4 _ _ (k3 _ _ hcc)), G.ok_bind]
  refine ⟨_, by
    rw [G.pure_eq]
    congr 2
    rw [heads_eq _ _ (by rw [hlen]; omega), hlen, List.map_map]
    apply List.map_congr_left
    intro p hp
    obtain ⟨K, h1, h2, _⟩ := hfs p hp
    simp only [Function.comp_apply]
    have hdiv : p.1 / p.2 = (n + 1) / 2 ^ K - 1 := by rw [h1, h2, Nat.mul_div_cancel_left _ (Nat.two_pow_pos _)]
    rw [hdiv, h1, ht_two_pow]
    unfold val toND
    rw [← h2], ?_⟩
  -- the new store
  intro q c
  rw [lookup_puts _ _ _ _ pcnodup]
  by_cases h : (q, c) ∈ pcs
  · rw [if_pos h]
    obtain ⟨q', hq', he⟩ := List.mem_map.mp h
    rw [List.mem_range] at hq'
    have h1 : q' = q := congrArg Prod.fst he
    have h2 : n / 2 ^ (4 * q' + 3) = c := congrArg Prod.snd he
    subst h1
    rw [if_pos]
    unfold cnt
    have hdv := hdq q' (by omega)
    have hl := (last_idx (N := n + 1) rfl hdv).2
    have hdiv : (n + 1) / 2 ^ (4 * q') = n / 2 ^ (4 * q') + 1 := by
      conv_lhs => rw [hl]
      rw [Nat.mul_div_cancel_left _ (Nat.two_pow_pos _)]
    rw [hlen, hdiv, ← h2, pow_add, ← Nat.div_div_eq_div_mul]
    have : n / 2 ^ (4 * q') / 2 ^ 3 = n / 2 ^ (4 * q') / 8 := rfl
    omega
  · rw [if_neg h, hst]
    have hn' : ¬ (2 ^ (4 * q) ∣ L.length + 1 ∧ c = L.length / 2 ^ (4 * q + 3)) := by
      rintro ⟨h1, h2⟩
      apply h
      have := hndq q h1
      exact List.mem_map.mpr ⟨q, List.mem_range.mpr (by omega), by rw [h2]⟩
    rw [cnt_same hn', cdata_same hn']

theorem storeOK_nil : StoreOK cs [] [] := by
  intro q c
  simp [cnt]

end Katie.Log
