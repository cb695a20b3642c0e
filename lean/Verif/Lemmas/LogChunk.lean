import Verif.Model.LogStore
import Verif.Lemmas.LogComplete
import Mathlib.Data.List.Nodup

/-
Chunks: representation invariant.
-/

namespace Katie.Log
open Katie Katie.LogMath Katie.LogSpec

variable {cs : Suite} {L : List Bytes}

/-- true value of the node at level `K`, index `i` -/
def val (H : Bytes → Bytes) (L : List Bytes) (K i : Nat) : NodeData := toND (blk H L (2 ^ K * i) (2 ^ K))

/-- the node at level `K`, index `i` is complete -/
def Full (L : List Bytes) (K i : Nat) : Prop := 2 ^ K * (i + 1) ≤ L.length

theorem Full.down {K i : Nat} (h : Full L (K + 1) i) : Full L K (2 * i) ∧ Full L K (2 * i + 1) := by
  unfold Full at *
  rw [pow_succ] at h
  have : 2 ^ K * 2 * (i + 1) = 2 ^ K * (2 * i + 1 + 1) := by ring
  have : 2 ^ K * (2 * i + 1) ≤ 2 ^ K * (2 * i + 1 + 1) := Nat.mul_le_mul_left _ (by omega)
  constructor <;> omega

theorem Full.le {K i : Nat} (h : Full L K i) : 2 ^ K * i + 2 ^ K ≤ L.length := by
  unfold Full at h; rw [Nat.mul_add, Nat.mul_one] at h; exact h

theorem val_len (hcs : cs.Good) (hL : ∀ v ∈ L, v.length = cs.hashSize) {K i : Nat} (h : Full L K i) :
    (val cs.H L K i).value.length = cs.hashSize :=
  blk_len hcs hL (Nat.two_pow_pos K) h.le

theorem val_ne (hcs : cs.Good) (hL : ∀ v ∈ L, v.length = cs.hashSize) {K i : Nat} (h : Full L K i) :
    (val cs.H L K i).value ≠ [] := by
  intro he
  have := val_len hcs hL h
  rw [he] at this
  have := hcs.pos
  simp at *; omega

theorem treeHash_val (hcs : cs.Good) (hL : ∀ v ∈ L, v.length = cs.hashSize) {K i : Nat} (h : Full L (K + 1) i) :
    treeHash cs (val cs.H L K (2 * i)) (val cs.H L K (2 * i + 1)) = .ok (val cs.H L (K + 1) i) := by
  have h2 : 2 ≤ 2 ^ (K + 1) := by rw [pow_succ]; have := Nat.one_le_two_pow (n := K); omega
  have := treeHash_blk hcs hL (lo := 2 ^ (K + 1) * i) h2 h.le
  rw [half_two_pow] at this
  have e1 : 2 ^ (K + 1) - 2 ^ K = 2 ^ K := by rw [pow_succ]; omega
  have e2 : 2 ^ (K + 1) * i = 2 ^ K * (2 * i) := by rw [pow_succ]; ring
  have e3 : 2 ^ K * (2 * i) + 2 ^ K = 2 ^ K * (2 * i + 1) := by ring
  rw [e1, e2, e3] at this
  unfold val
  rw [this, e2]

theorem val_leaf {K i : Nat} (h : Full L K i) : (val cs.H L K i).leaf = decide (K = 0) := by
  unfold val toND
  simp only
  rw [blk_leaf _ (Nat.two_pow_pos K) h.le]
  congr 1
  rw [eq_iff_iff]
  constructor
  · intro h1
    by_contra hK
    obtain ⟨k, rfl⟩ : ∃ k, K = k + 1 := ⟨K - 1, by omega⟩
    rw [pow_succ] at h1
    have := Nat.one_le_two_pow (n := k)
    omega
  · rintro rfl; simp

theorem val_append {x : Bytes} {K i : Nat} (h : Full L K i) : val cs.H (L ++ [x]) K i = val cs.H L K i := by
  unfold val; rw [blk_append _ h.le]

theorem Full.append {x : Bytes} {K i : Nat} (h : Full L K i) : Full (L ++ [x]) K i := by
  unfold Full at *; simp; omega

/-! ### node ids of a chunk -/

/-- ids of the nodes of the chunk rooted at level `4q+3`, index `c` -/
def cid (q c j : Nat) : Nat := 2 ^ (4 * q) * (16 * c + j + 1) - 1

def cids (q c : Nat) : List Nat := (List.range 15).map (cid q c)

theorem cid_inj {q c j j' : Nat} (h : cid q c j = cid q c j') : j = j' := by
  unfold cid at h
  have hp := Nat.two_pow_pos (4 * q)
  have h1 : 0 < 2 ^ (4 * q) * (16 * c + j + 1) := by positivity
  have h2 : 0 < 2 ^ (4 * q) * (16 * c + j' + 1) := by positivity
  have : 2 ^ (4 * q) * (16 * c + j + 1) = 2 ^ (4 * q) * (16 * c + j' + 1) := by omega
  have := Nat.eq_of_mul_eq_mul_left hp this
  omega

/-- position `idx k i` of the chunk holds the node at level `4q+k`, index `2^(3-k) c + i` -/
theorem cid_idx {q c k i : Nat} (hk : k ≤ 3) : cid q c (idx k i) = idx (4 * q + k) (2 ^ (3 - k) * c + i) := by
  unfold cid idx
  have hp := Nat.two_pow_pos (4 * q)
  have e1 : 2 ^ (4 * q + k) = 2 ^ (4 * q) * 2 ^ k := by rw [pow_add]
  have e2 : 2 ^ (4 * q + k + 1) = 2 ^ (4 * q) * 2 ^ k * 2 := by rw [pow_succ, e1]
  have e3 : 2 ^ k * 2 ^ (3 - k) = 8 := by
    rw [← pow_add]; have : k + (3 - k) = 3 := by omega
    rw [this]; norm_num
  have hk1 := Nat.two_pow_pos k
  rw [e1, e2]
  have h1 : 2 ^ (4 * q) * (16 * c + (2 ^ (k + 1) * i + (2 ^ k - 1)) + 1) =
      2 ^ (4 * q) * 2 ^ k * 2 * (2 ^ (3 - k) * c + i) + 2 ^ (4 * q) * 2 ^ k := by
    have : 16 * c + (2 ^ (k + 1) * i + (2 ^ k - 1)) + 1 = 2 * (2 ^ k * 2 ^ (3 - k)) * c + 2 * 2 ^ k * i + 2 ^ k := by
      rw [e3, pow_succ]
      have : 2 ^ k * 2 * i = 2 * 2 ^ k * i := by ring
      omega
    rw [this]; ring
  rw [h1]
  have : 0 < 2 ^ (4 * q) * 2 ^ k := by positivity
  omega

theorem newChunk_ids (q c : Nat) (data : Bytes) :
    newChunk cs (idx (4 * q + 3) c) data = (do
      let nodes ← parseNodes cs.hashSize (level (idx (4 * q + 3) c) == 3) (data.length + 1) [] data
      if nodes.length > 15 then goErr "unable to parse chunk"
      else pure ⟨cids q c, nodes ++ ((cids q c).drop nodes.length).map fun x => ⟨isLeaf x, []⟩⟩) := by
  have l : ∀ K i, left (idx (K + 1) i) = .ok (idx K (2 * i)) := fun K i => left_idx K i
  have r : ∀ K i, rightStep (idx (K + 1) i) = .ok (idx K (2 * i + 1)) := fun K i => rightStep_idx K i
  unfold newChunk
  simp only [l, r, G.ok_bind]
  have e : cids q c = [idx (4 * q) (2 * (2 * (2 * c))), idx (4 * q + 1) (2 * (2 * c)), idx (4 * q) (2 * (2 * (2 * c)) + 1),
    idx (4 * q + 2) (2 * c), idx (4 * q) (2 * (2 * (2 * c) + 1)), idx (4 * q + 1) (2 * (2 * c) + 1),
    idx (4 * q) (2 * (2 * (2 * c) + 1) + 1), idx (4 * q + 3) c, idx (4 * q) (2 * (2 * (2 * c + 1))),
    idx (4 * q + 1) (2 * (2 * c + 1)), idx (4 * q) (2 * (2 * (2 * c + 1)) + 1), idx (4 * q + 2) (2 * c + 1),
    idx (4 * q) (2 * (2 * (2 * c + 1) + 1)), idx (4 * q + 1) (2 * (2 * c + 1) + 1),
    idx (4 * q) (2 * (2 * (2 * c + 1) + 1) + 1)] := by
    have hp := Nat.two_pow_pos (4 * q)
    unfold cids
    rw [show List.range 15 = [0, 1, 2, 3, 4, 5, 6, 7, 8, 9, 10, 11, 12, 13, 14] from rfl]
    simp only [List.map_cons, List.map_nil, List.cons.injEq, and_true]
    have k0 : ∀ i m, i = m → cid q c (idx 0 i) = idx (4 * q) (8 * c + m) := by
      rintro i _ rfl; have := cid_idx (q := q) (c := c) (k := 0) (i := i) (by norm_num); simpa using this
    have k1 : ∀ i, cid q c (idx 1 i) = idx (4 * q + 1) (4 * c + i) := by
      intro i; have := cid_idx (q := q) (c := c) (k := 1) (i := i) (by norm_num); simpa using this
    have k2 : ∀ i, cid q c (idx 2 i) = idx (4 * q + 2) (2 * c + i) := by
      intro i; have := cid_idx (q := q) (c := c) (k := 2) (i := i) (by norm_num); simpa using this
    have k3 : ∀ i, cid q c (idx 3 i) = idx (4 * q + 3) (c + i) := by
      intro i; have := cid_idx (q := q) (c := c) (k := 3) (i := i) (by norm_num); simpa using this
    refine ⟨?_, ?_, ?_, ?_, ?_, ?_, ?_, ?_, ?_, ?_, ?_, ?_, ?_, ?_, ?_⟩
    · rw [show 0 = idx 0 0 from rfl, k0 0 0 rfl]; congr 1; ring
    · rw [show 1 = idx 1 0 from rfl, k1]; congr 1; ring
    · have := k0 1 1 rfl
      rw [show idx 0 1 = 2 from rfl] at this
      rw [this]; congr 1; ring
    · rw [show 3 = idx 2 0 from rfl, k2]; congr 1
    · rw [show 4 = idx 0 2 from rfl, k0 2 2 rfl]; congr 1; ring
    · rw [show 5 = idx 1 1 from rfl, k1]; congr 1; ring
    · rw [show 6 = idx 0 3 from rfl, k0 3 3 rfl]; congr 1; ring
    · rw [show 7 = idx 3 0 from rfl, k3]; congr 1
    · rw [show 8 = idx 0 4 from rfl, k0 4 4 rfl]; congr 1; ring
    · rw [show 9 = idx 1 2 from rfl, k1]; congr 1; ring
    · rw [show 10 = idx 0 5 from rfl, k0 5 5 rfl]; congr 1; ring
    · rw [show 11 = idx 2 1 from rfl, k2]
    · rw [show 12 = idx 0 6 from rfl, k0 6 6 rfl]; congr 1; ring
    · rw [show 13 = idx 1 3 from rfl, k1]; congr 1; ring
    · rw [show 14 = idx 0 7 from rfl, k0 7 7 rfl]; congr 1; ring
  rw [e]

/-- positions of a chunk -/
theorem idx_lt15 {k i : Nat} (hk : k ≤ 3) (hi : i < 2 ^ (3 - k)) : idx k i < 15 := by
  have : ∀ k ≤ 3, ∀ i < 2 ^ (3 - k), idx k i < 15 := by decide
  exact this k hk i hi

/-- Representation invariant of a chunk of the tree over `L`: every node is empty or true, and the bottom
row is populated exactly as far as the tree reaches. -/
structure Rep (cs : Suite) (L : List Bytes) (q c : Nat) (ch : NodeChunk) : Prop where
  ids : ch.ids = cids q c
  len : ch.nodes.length = 15
  node : ∀ k ≤ 3, ∀ i < 2 ^ (3 - k), ∃ d, ch.nodes[idx k i]? = some d ∧
    (d.value = [] ∨ (Full L (4 * q + k) (2 ^ (3 - k) * c + i) ∧ d = val cs.H L (4 * q + k) (2 ^ (3 - k) * c + i))) ∧
    (k = 0 → Full L (4 * q + k) (2 ^ (3 - k) * c + i) → d.value ≠ [])

theorem Rep.find {q c : Nat} {ch : NodeChunk} (h : Rep cs L q c ch) {k i : Nat} (hk : k ≤ 3) (hi : i < 2 ^ (3 - k)) :
    ch.findIndex (idx (4 * q + k) (2 ^ (3 - k) * c + i)) = .ok (idx k i) := by
  have hlt := idx_lt15 hk hi
  have key : (cids q c).idxOf (cid q c (idx k i)) = idx k i := by
    have hnd : (cids q c).Nodup := by
      unfold cids
      exact List.Nodup.map (fun a b h => cid_inj h) List.nodup_range
    have := hnd.idxOf_getElem (idx k i) (by simp [cids]; exact hlt)
    simpa [cids] using this
  unfold NodeChunk.findIndex
  rw [h.ids, ← cid_idx hk, key]
  rw [if_pos (by simp [cids]; exact hlt)]; rfl

theorem getElem?_set_idx {l : List NodeData} {k i k' i' : Nat} {d : NodeData} (hlen : l.length = 15)
    (hk : k ≤ 3) (hi : i < 2 ^ (3 - k)) :
    (l.set (idx k i) d)[idx k' i']? = if k' = k ∧ i' = i then some d else l[idx k' i']? := by
  have := idx_lt15 hk hi
  rw [List.getElem?_set]
  by_cases h : k' = k ∧ i' = i
  · obtain ⟨rfl, rfl⟩ := h
    simp [hlen, this]
  · rw [if_neg h, if_neg]
    intro he
    obtain ⟨h1, h2⟩ := idx_inj he
    exact h ⟨h1.symm, h2.symm⟩

theorem Rep.get (hcs : cs.Good) (hL : ∀ v ∈ L, v.length = cs.hashSize) {q c : Nat} :
    ∀ (k i fuel : Nat) (ch : NodeChunk), k ≤ 3 → i < 2 ^ (3 - k) → k < fuel → Rep cs L q c ch →
    Full L (4 * q + k) (2 ^ (3 - k) * c + i) →
    ∃ ch', ch.get cs fuel (idx (4 * q + k) (2 ^ (3 - k) * c + i)) = .ok (val cs.H L (4 * q + k) (2 ^ (3 - k) * c + i), ch') ∧
      Rep cs L q c ch' := by
  intro k
  induction k with
  | zero =>
    intro i fuel ch hk hi hf h hfull
    obtain ⟨f, rfl⟩ : ∃ f, fuel = f + 1 := ⟨fuel - 1, by omega⟩
    obtain ⟨d, hd, h1, h2⟩ := h.node 0 hk i hi
    have hne := h2 rfl hfull
    have hv := (h1.resolve_left hne).2
    refine ⟨ch, ?_, h⟩
    unfold NodeChunk.get
    rw [h.find hk hi, G.ok_bind, hd]
    simp only
    rw [if_pos (Or.inr hne), hv]; rfl
  | succ k ih =>
    intro i fuel ch hk hi hf h hfull
    obtain ⟨f, rfl⟩ : ∃ f, fuel = f + 1 := ⟨fuel - 1, by omega⟩
    obtain ⟨d, hd, h1, h2⟩ := h.node (k + 1) hk i hi
    by_cases hne : d.value = []
    · unfold NodeChunk.get
      rw [h.find hk hi, G.ok_bind, hd]
      simp only
      have hodd : isLeaf (idx (4 * q + (k + 1)) (2 ^ (3 - (k + 1)) * c + i)) = false := by
        by_contra hc
        have := (isLeaf_iff _).mp (by simpa using hc)
        rw [idx, ← Nat.add_assoc (4 * q) k 1] at this
        have e : 2 ^ (4 * q + k + 1 + 1) = 2 * (2 ^ (4 * q + k + 1)) := by rw [pow_succ]; ring
        have e2 : 2 ^ (4 * q + k + 1) = 2 * 2 ^ (4 * q + k) := by rw [pow_succ]; ring
        have hp := Nat.two_pow_pos (4 * q + k)
        rw [e, Nat.mul_assoc] at this
        omega
      rw [if_neg (by rw [hodd]; simp [hne])]
      have e3 : 2 ^ (3 - k) = 2 * 2 ^ (3 - (k + 1)) := by
        rw [show 3 - k = (3 - (k + 1)) + 1 by omega, pow_succ]; ring
      have hl : left (idx (4 * q + (k + 1)) (2 ^ (3 - (k + 1)) * c + i)) = .ok (idx (4 * q + k) (2 ^ (3 - k) * c + 2 * i)) := by
        rw [← Nat.add_assoc, left_idx, e3]; congr 2; ring_nf
      have hr : rightStep (idx (4 * q + (k + 1)) (2 ^ (3 - (k + 1)) * c + i)) = .ok (idx (4 * q + k) (2 ^ (3 - k) * c + (2 * i + 1))) := by
        rw [← Nat.add_assoc, rightStep_idx, e3]; congr 2; ring
      have hf' := Full.down (K := 4 * q + k) (i := 2 ^ (3 - (k + 1)) * c + i) hfull
      have f1 : Full L (4 * q + k) (2 ^ (3 - k) * c + 2 * i) := by
        rw [e3]; convert hf'.1 using 1; ring
      have f2 : Full L (4 * q + k) (2 ^ (3 - k) * c + (2 * i + 1)) := by
        rw [e3]; convert hf'.2 using 1; ring
      obtain ⟨c1, g1, r1⟩ := ih (2 * i) f ch (by omega) (by omega) (by omega) h f1
      obtain ⟨c2, g2, r2⟩ := ih (2 * i + 1) f c1 (by omega) (by omega) (by omega) r1 f2
      rw [hl, G.ok_bind, hr, G.ok_bind, g1, G.ok_bind]
      simp only
      rw [g2, G.ok_bind]
      simp only
      have ht := treeHash_val hcs hL (K := 4 * q + k) (i := 2 ^ (3 - (k + 1)) * c + i) hfull
      have a1 : 2 * (2 ^ (3 - (k + 1)) * c + i) = 2 ^ (3 - k) * c + 2 * i := by rw [e3]; ring
      have a2 : 2 ^ (3 - k) * c + 2 * i + 1 = 2 ^ (3 - k) * c + (2 * i + 1) := by ring
      rw [a1, a2] at ht
      rw [ht, G.ok_bind]
      refine ⟨_, rfl, ⟨r2.ids, by simp [r2.len], ?_⟩⟩
      intro k' hk' i' hi'
      simp only
      rw [getElem?_set_idx r2.len hk hi]
      split
      · rename_i he
        obtain ⟨rfl, rfl⟩ := he
        exact ⟨_, rfl, Or.inr ⟨hfull, rfl⟩, by intro h; omega⟩
      · exact r2.node k' hk' i' hi'
    · refine ⟨ch, ?_, h⟩
      unfold NodeChunk.get
      rw [h.find hk hi, G.ok_bind, hd]
      simp only
      rw [if_pos (Or.inr hne), (h1.resolve_left hne).2]; rfl

/-- clearing cached hashes keeps the invariant -/
theorem Rep.clear {q c : Nat} {ids : List Nat} : ∀ (d fuel k i : Nat) (nodes : List NodeData), k ≤ 3 → 3 - k = d → i < 2 ^ (3 - k) → d < fuel →
    Rep cs L q c ⟨ids, nodes⟩ → ∃ nodes', clearUp fuel (idx k i) nodes = .ok nodes' ∧ Rep cs L q c ⟨ids, nodes'⟩ := by
  intro d
  induction d with
  | zero =>
    intro fuel k i nodes hk hd hi hf h
    obtain ⟨f, rfl⟩ : ∃ f, fuel = f + 1 := ⟨fuel - 1, by omega⟩
    have : k = 3 := by omega
    subst this
    have : i = 0 := by simpa using hi
    subst this
    refine ⟨nodes, ?_, h⟩
    unfold clearUp
    rw [if_neg (by decide)]; rfl
  | succ d ih =>
    intro fuel k i nodes hk hd hi hf h
    obtain ⟨f, rfl⟩ : ∃ f, fuel = f + 1 := ⟨fuel - 1, by omega⟩
    have h7 : idx k i ≠ 7 := by
      rw [show 7 = idx 3 0 from rfl]
      intro he
      have := (idx_inj he).1
      omega
    have hi2 : i / 2 < 2 ^ (3 - (k + 1)) := by
      rw [show 3 - k = 3 - (k + 1) + 1 by omega, pow_succ] at hi
      omega
    obtain ⟨e, he, h1, h2⟩ := h.node (k + 1) (by omega) (i / 2) hi2
    unfold clearUp
    rw [if_pos h7, parentStep_idx]
    simp only at he ⊢
    rw [he]
    refine ih f (k + 1) (i / 2) _ (by omega) (by omega) hi2 (by omega) ⟨h.ids, by simpa using h.len, ?_⟩
    intro k' hk' i' hi'
    simp only
    rw [getElem?_set_idx h.len (by omega) hi2]
    split
    · rename_i he
      exact ⟨_, rfl, Or.inl rfl, by intro h; omega⟩
    · exact h.node k' hk' i' hi'

/-- populating the new bottom node -/
theorem Rep.set {q c i : Nat} {ch : NodeChunk} {x : Bytes} (hcs : cs.Good) (hL : ∀ v ∈ L ++ [x], v.length = cs.hashSize)
    (h : Rep cs L q c ch) (hi : i < 8)
    (hnew : Full (L ++ [x]) (4 * q) (8 * c + i))
    (hold : ∀ j < 8, j ≠ i → Full (L ++ [x]) (4 * q) (8 * c + j) → Full L (4 * q) (8 * c + j)) :
    ∃ ch', ch.set (idx (4 * q) (8 * c + i)) (val cs.H (L ++ [x]) (4 * q) (8 * c + i)) = .ok ch' ∧
      Rep cs (L ++ [x]) q c ch' := by
  have hi' : i < 2 ^ (3 - 0) := by simpa using hi
  have hf := h.find (k := 0) (by omega) hi'
  simp only [Nat.sub_zero, Nat.add_zero] at hf
  norm_num at hf
  unfold NodeChunk.set
  rw [hf, G.ok_bind]
  have hrep : Rep cs (L ++ [x]) q c ⟨ch.ids, ch.nodes.set (idx 0 i) (val cs.H (L ++ [x]) (4 * q) (8 * c + i))⟩ := by
    refine ⟨h.ids, by simpa using h.len, ?_⟩
    intro k' hk' i' hi''
    simp only
    rw [getElem?_set_idx h.len (by omega) hi']
    split
    · rename_i he
      obtain ⟨rfl, rfl⟩ := he
      refine ⟨_, rfl, Or.inr ⟨by simpa using hnew, by simp⟩, fun _ _ => val_ne hcs hL hnew⟩
    · rename_i hne
      obtain ⟨d, hd, h1, h2⟩ := h.node k' hk' i' hi''
      refine ⟨d, hd, ?_, ?_⟩
      · rcases h1 with h1 | ⟨h1, h3⟩
        · exact Or.inl h1
        · exact Or.inr ⟨h1.append, by rw [h3, val_append h1]⟩
      · rintro rfl hfull
        refine h2 rfl ?_
        have : i' ≠ i := fun h => hne ⟨rfl, h⟩
        have := hold i' (by simpa using hi'') this (by simpa using hfull)
        simpa using this
  obtain ⟨nodes', h1, h2⟩ := Rep.clear 3 16 0 i _ (by omega) rfl hi' (by omega) hrep
  rw [h1, G.ok_bind]
  exact ⟨_, rfl, h2⟩

/-- a chunk that gets no new node represents the longer log as well -/
theorem Rep.extend {q c : Nat} {ch : NodeChunk} {x : Bytes} (h : Rep cs L q c ch)
    (hold : ∀ j < 8, Full (L ++ [x]) (4 * q) (8 * c + j) → Full L (4 * q) (8 * c + j)) :
    Rep cs (L ++ [x]) q c ch := by
  refine ⟨h.ids, h.len, ?_⟩
  intro k hk i hi
  obtain ⟨d, hd, h1, h2⟩ := h.node k hk i hi
  refine ⟨d, hd, ?_, ?_⟩
  · rcases h1 with h1 | ⟨h1, h3⟩
    · exact Or.inl h1
    · exact Or.inr ⟨h1.append, by rw [h3, val_append h1]⟩
  · rintro rfl hfull
    refine h2 rfl ?_
    have := hold i (by simpa using hi) (by simpa using hfull)
    simpa using this

/-! ### marshalling -/

/-- number of populated bottom nodes of the chunk -/
def cnt (L : List Bytes) (q c : Nat) : Nat := min 8 (L.length / 2 ^ (4 * q) - 8 * c)

theorem full_iff_cnt {q c i : Nat} (hi : i < 8) : Full L (4 * q) (8 * c + i) ↔ i < cnt L q c := by
  unfold Full cnt
  have hp := Nat.two_pow_pos (4 * q)
  rw [Nat.mul_comm, ← Nat.le_div_iff_mul_le hp]
  omega

/-- stored bytes of a chunk -/
def cdata (H : Bytes → Bytes) (L : List Bytes) (q c : Nat) : Bytes :=
  (List.range (cnt L q c)).flatMap fun i => (val H L (4 * q) (8 * c + i)).value

theorem drop_two {l : List NodeData} {i : Nat} (h : i + 1 < l.length) :
    l.drop i = l[i] :: l[i + 1] :: l.drop (i + 2) := by
  rw [List.drop_eq_getElem_cons (by omega), List.drop_eq_getElem_cons (by omega)]

theorem idx_cover : ∀ p < 15, ∃ k ≤ 3, ∃ i < 2 ^ (3 - k), idx k i = p := by decide

theorem full_pos {q c k i : Nat} (hk : k ≤ 3) (h : Full L (4 * q + k) (2 ^ (3 - k) * c + i)) :
    Full L (4 * q) (8 * c + (2 ^ k * (i + 1) - 1)) := by
  unfold Full at *
  have hk1 := Nat.two_pow_pos k
  have e3 : 2 ^ k * 2 ^ (3 - k) = 8 := by
    rw [← pow_add]; have : k + (3 - k) = 3 := by omega
    rw [this]; norm_num
  have : 2 ^ (4 * q + k) * (2 ^ (3 - k) * c + i + 1) = 2 ^ (4 * q) * (8 * c + (2 ^ k * (i + 1) - 1) + 1) := by
    have h1 : 0 < 2 ^ k * (i + 1) := by positivity
    have : 8 * c + (2 ^ k * (i + 1) - 1) + 1 = (2 ^ k * 2 ^ (3 - k)) * c + 2 ^ k * (i + 1) := by rw [e3]; omega
    rw [this, pow_add]; ring
  omega

theorem Rep.marshal (hcs : cs.Good) (hL : ∀ v ∈ L, v.length = cs.hashSize) {q c : Nat} {ch : NodeChunk} (h : Rep cs L q c ch) :
    ch.marshal = .ok (cdata cs.H L q c) := by
  have hlen := h.len
  have hm8 : cnt L q c ≤ 8 := by unfold cnt; omega
  -- bottom nodes
  have bot : ∀ i < 8, ∃ d, ch.nodes[2 * i]? = some d ∧ (i < cnt L q c → d.value ≠ [] ∧ d = val cs.H L (4 * q) (8 * c + i)) ∧
      (cnt L q c ≤ i → d.value = []) := by
    intro i hi
    obtain ⟨d, hd, h1, h2⟩ := h.node 0 (by omega) i (by simpa using hi)
    have e : idx 0 i = 2 * i := by simp [idx]
    rw [e] at hd
    refine ⟨d, hd, ?_, ?_⟩
    · intro hlt
      have hfull := (full_iff_cnt (L := L) (q := q) (c := c) hi).mpr hlt
      have hne := h2 rfl (by simpa using hfull)
      exact ⟨hne, by simpa using (h1.resolve_left hne).2⟩
    · intro hge
      rcases h1 with h1 | ⟨h1, _⟩
      · exact h1
      · have := (full_iff_cnt (L := L) (q := q) (c := c) hi).mp (by simpa using h1)
        omega
  -- everything from the first empty bottom node on is empty
  have emp : ∀ p, 2 * cnt L q c ≤ p → ∀ hp : p < ch.nodes.length, (ch.nodes[p]).value = [] := by
    intro p hp1 hp2
    obtain ⟨k, hk, i, hi, rfl⟩ := idx_cover p (by omega)
    obtain ⟨d, hd, h1, h2⟩ := h.node k hk i hi
    rw [List.getElem?_eq_getElem hp2] at hd
    rw [Option.some.inj hd]
    rcases h1 with h1 | ⟨h1, _⟩
    · exact h1
    · exfalso
      have hf := full_pos hk h1
      have hb : 2 ^ k * (i + 1) - 1 < 8 := by
        have : ∀ k ≤ 3, ∀ i < 2 ^ (3 - k), 2 ^ k * (i + 1) - 1 < 8 := by decide
        exact this k hk i hi
      have hcn := (full_iff_cnt hb).mp hf
      unfold idx at hp1
      rw [pow_succ] at hp1
      have e : 2 ^ k * (i + 1) = 2 ^ k * i + 2 ^ k := by ring
      have e2 : 2 ^ k * 2 * i = 2 * (2 ^ k * i) := by ring
      have := Nat.two_pow_pos k
      rw [e] at hcn
      omega
  have key : ∀ d i, i + d = 8 → marshalNodes (ch.nodes.drop (2 * i)) =
      .ok ((List.range' i (cnt L q c - i)).flatMap fun i => (val cs.H L (4 * q) (8 * c + i)).value) := by
    intro d
    induction d with
    | zero =>
      intro i hi
      have : i = 8 := by omega
      subst this
      rw [List.drop_eq_nil_of_le (by omega), show cnt L q c - 8 = 0 by omega]
      rfl
    | succ d ih =>
      intro i hi
      obtain ⟨e, he, h1, h2⟩ := bot i (by omega)
      have hlt : 2 * i < ch.nodes.length := by omega
      rw [List.getElem?_eq_getElem hlt] at he
      have he := Option.some.inj he
      by_cases hlast : i = 7
      · subst hlast
        rw [List.drop_eq_getElem_cons (by omega), List.drop_eq_nil_of_le (by omega), he]
        by_cases hc : 7 < cnt L q c
        · rw [show cnt L q c - 7 = 1 by omega]
          simp [marshalNodes, (h1 hc).2]
        · rw [show cnt L q c - 7 = 0 by omega]
          simp [marshalNodes, h2 (by omega)]
      · rw [drop_two (by omega)]
        unfold marshalNodes
        rw [he]
        by_cases hc : i < cnt L q c
        · rw [if_pos (h1 hc).1]
          have := ih (i + 1) (by omega)
          rw [show 2 * i + 2 = 2 * (i + 1) by ring, this, G.ok_bind,
            show cnt L q c - i = (cnt L q c - (i + 1)) + 1 by omega, List.range'_succ, List.flatMap_cons, ← (h1 hc).2]
          rfl
        · rw [if_neg (by simp [h2 (by omega)]), if_pos, show cnt L q c - i = 0 by omega]
          · rfl
          · rw [← he, ← drop_two (by omega), List.all_eq_true]
            intro y hy
            obtain ⟨j, hj, rfl⟩ := List.getElem_of_mem hy
            rw [List.getElem_drop]
            simp only [decide_eq_true_eq]
            exact emp _ (by omega) _
  have := key 8 0 rfl
  unfold NodeChunk.marshal cdata
  rw [List.range_eq_range']
  simpa using this

/-! ### parsing -/

/-- result of the parse loop -/
structure Parsed (lc : Bool) (vs : List Bytes) (nodes : List NodeData) : Prop where
  len : nodes.length = 2 * vs.length - 1
  even : ∀ i, (h : i < vs.length) → nodes[2 * i]? = some ⟨lc, vs[i]⟩
  odd : ∀ i, 2 * i + 1 < nodes.length → nodes[2 * i + 1]? = some ⟨false, []⟩

theorem parseNodes_ok {hs : Nat} {lc : Bool} (hpos : 0 < hs) : ∀ (ws : List Bytes) (fuel : Nat) (vs : List Bytes) (nodes : List NodeData),
    (∀ w ∈ ws, w.length = hs) → ws.length < fuel → Parsed lc vs nodes →
    ∃ nodes', parseNodes hs lc fuel nodes ws.flatten = .ok nodes' ∧ Parsed lc (vs ++ ws) nodes' := by
  intro ws
  induction ws with
  | nil =>
    intro fuel vs nodes _ hf hp
    obtain ⟨f, rfl⟩ : ∃ f, fuel = f + 1 := ⟨fuel - 1, by simp at hf; omega⟩
    exact ⟨nodes, by unfold parseNodes; simp, by simpa using hp⟩
  | cons w ws ih =>
    intro fuel vs nodes hw hf hp
    obtain ⟨f, rfl⟩ : ∃ f, fuel = f + 1 := ⟨fuel - 1, by simp at hf; omega⟩
    have hwl := hw w (by simp)
    unfold parseNodes
    rw [List.flatten_cons, if_neg, if_neg, List.take_append_of_le_length (by omega), List.take_of_length_le (by omega),
      List.drop_append_of_le_length (by omega), List.drop_of_length_le (by omega), List.nil_append]
    · have := ih f (vs ++ [w]) ((if nodes.length > 0 then nodes ++ [⟨false, []⟩] else nodes) ++ [⟨lc, w⟩])
        (fun w' h' => hw w' (by simp [h'])) (by simp at hf; omega) ?_
      · simpa using this
      · have hl := hp.len
        by_cases h0 : vs.length = 0
        · have hn : nodes = [] := List.length_eq_zero_iff.mp (by omega)
          have hv : vs = [] := List.length_eq_zero_iff.mp h0
          subst hn hv
          refine ⟨by simp, ?_, ?_⟩
          · intro i hi
            have : i = 0 := by simpa using hi
            subst this
            simp
          · intro i hi; simp at hi
        · rw [if_pos (by omega)]
          refine ⟨by simp; omega, ?_, ?_⟩
          · intro i hi
            simp only [List.length_append, List.length_singleton] at hi
            by_cases hlt : i < vs.length
            · rw [List.append_assoc, List.getElem?_append_left (by omega), hp.even i hlt]
              congr 2
              rw [List.getElem_append_left hlt]
            · have : i = vs.length := by omega
              subst this
              rw [List.getElem?_append_right (by simp; omega)]
              simp only [List.length_append, List.length_singleton, hl]
              rw [show 2 * vs.length - (2 * vs.length - 1 + 1) = 0 by omega]
              simp
          · intro i hi
            simp only [List.length_append, List.length_singleton] at hi
            by_cases hlt : 2 * i + 1 < nodes.length
            · rw [List.append_assoc, List.getElem?_append_left hlt, hp.odd i hlt]
            · have : 2 * i + 1 = nodes.length := by omega
              rw [List.append_assoc, List.getElem?_append_right (by omega), this]
              simp
    · simp; omega
    · simp
      intro hwe
      rw [hwe] at hwl
      simp at hwl; omega

theorem newChunk_rep (hcs : cs.Good) (hL : ∀ v ∈ L, v.length = cs.hashSize) (q c : Nat) :
    ∃ ch, newChunk cs (idx (4 * q + 3) c) (cdata cs.H L q c) = .ok ch ∧ Rep cs L q c ch := by
  have hm8 : cnt L q c ≤ 8 := by unfold cnt; omega
  set vs := (List.range (cnt L q c)).map fun i => (val cs.H L (4 * q) (8 * c + i)).value with hvs
  have hvl : vs.length = cnt L q c := by simp [hvs]
  have hd : cdata cs.H L q c = vs.flatten := by rw [hvs, cdata, List.flatMap_def]
  have hw : ∀ w ∈ vs, w.length = cs.hashSize := by
    intro w hw
    rw [hvs, List.mem_map] at hw
    obtain ⟨i, hi, rfl⟩ := hw
    rw [List.mem_range] at hi
    exact val_len hcs hL ((full_iff_cnt (by omega)).mpr hi)
  have hfl : vs.length ≤ vs.flatten.length := by
    have : ∀ ws : List Bytes, (∀ w ∈ ws, w.length = cs.hashSize) → ws.length ≤ ws.flatten.length := by
      intro ws
      induction ws with
      | nil => intro _; simp
      | cons w ws ih =>
        intro h
        have := h w (by simp)
        have := ih (fun w' h' => h w' (by simp [h']))
        have := hcs.pos
        simp only [List.flatten_cons, List.length_append, List.length_cons]
        omega
    exact this vs hw
  obtain ⟨nodes, e1, p⟩ := parseNodes_ok (lc := level (idx (4 * q + 3) c) == 3) hcs.pos vs (vs.flatten.length + 1) [] [] hw (by omega)
    ⟨by simp, by simp, by simp⟩
  rw [List.nil_append] at p
  have hnl := p.len
  rw [newChunk_ids, hd, e1, G.ok_bind, if_neg (by omega)]
  refine ⟨_, rfl, rfl, ?_, ?_⟩
  · simp [cids]; omega
  · intro k hk i hi
    have hlt := idx_lt15 hk hi
    simp only
    -- a padded node
    have pad : nodes.length ≤ idx k i → ∃ d : NodeData, (nodes ++ ((cids q c).drop nodes.length).map fun x => ⟨isLeaf x, []⟩)[idx k i]? = some d ∧ d.value = [] := by
      intro hge
      rw [List.getElem?_append_right hge, List.getElem?_map, List.getElem?_drop]
      have : nodes.length + (idx k i - nodes.length) = idx k i := by omega
      rw [this, List.getElem?_eq_getElem (by simp [cids]; exact hlt)]
      exact ⟨_, rfl, rfl⟩
    by_cases hk0 : k = 0
    · subst hk0
      have hi8 : i < 8 := by simpa using hi
      have e0 : idx 0 i = 2 * i := by simp [idx]
      by_cases hc : i < cnt L q c
      · have hfull := (full_iff_cnt (L := L) (q := q) (c := c) hi8).mpr hc
        have hev := p.even i (by omega)
        have hin : 2 * i < nodes.length := by
          by_contra hge
          rw [List.getElem?_eq_none (by omega)] at hev
          cases hev
        refine ⟨val cs.H L (4 * q) (8 * c + i), ?_, Or.inr ⟨by simpa using hfull, by simp⟩, fun _ _ => val_ne hcs hL hfull⟩
        rw [e0, List.getElem?_append_left hin, hev]
        congr 1
        have hl := val_leaf (cs := cs) hfull
        have hv : vs[i]'(by omega) = (val cs.H L (4 * q) (8 * c + i)).value := by simp [hvs]
        rw [hv]
        have hlc : (level (idx (4 * q + 3) c) == 3) = (val cs.H L (4 * q) (8 * c + i)).leaf := by
          rw [hl, level_idx]
          by_cases hq : q = 0
          · simp [hq]
          · have : ¬ (4 * q + 3 = 3) := by omega
            have : ¬ (4 * q = 0) := by omega
            simp [hq]
        rw [hlc]
      · obtain ⟨d, h1, h2⟩ := pad (by omega)
        refine ⟨d, h1, Or.inl h2, ?_⟩
        intro _ hfull
        have := (full_iff_cnt (L := L) (q := q) (c := c) hi8).mp (by simpa using hfull)
        omega
    · have hodd : ∃ p, idx k i = 2 * p + 1 := by
        obtain ⟨k', rfl⟩ : ∃ k', k = k' + 1 := ⟨k - 1, by omega⟩
        refine ⟨2 ^ (k' + 1) * i + 2 ^ k' - 1, ?_⟩
        unfold idx
        rw [pow_succ, pow_succ]
        have : 2 ^ k' * 2 * 2 * i = 2 * (2 ^ k' * 2 * i) := by ring
        have := Nat.two_pow_pos k'
        omega
      obtain ⟨p', hp'⟩ := hodd
      by_cases hin : idx k i < nodes.length
      · refine ⟨⟨false, []⟩, ?_, Or.inl rfl, by intro h; omega⟩
        rw [List.getElem?_append_left hin, hp', p.odd p' (by omega)]
      · obtain ⟨d, h1, h2⟩ := pad (by omega)
        exact ⟨d, h1, Or.inl h2, by intro h; omega⟩

end Katie.Log
