import Verif.Lemmas.LogMath64
import Verif.Props.C01_LogMath

/-
C01 for the 64-bit arithmetic of the code: trees of up to `MaxTreeSize` = 2^63 leaves.
`At n lo s p c` (`Spec/LogTree.lean`): the leaves `lo … lo+s-1` are the leaves of a node of the tree with `n` leaves, `p` and `c` are
the numbers of the nodes of its path and copath; `nd lo s` is its number.
-/

namespace Katie.Props
open Katie Katie.LogSpec Katie.LogMath

/-- **C01, 64-bit.**  For every tree of at most `MaxTreeSize` leaves and every node of it, no overflow in any of the functions:
level, children, parent, sibling, direct path, copath, completeness are those of the recursive definition. -/
theorem C01_uint64 {n x : BitVec 64} {lo s : Nat} {p c : List Nat} (hn0 : 0 < n.toNat) (hn : n.toNat ≤ maxTreeSize)
    (h : At n.toNat lo s p c) (hx : x.toNat = nd lo s) :
    (root64 n).toNat = nd 0 n.toNat ∧
    (2 ≤ s → (left64 x).map BitVec.toNat = .ok (nd lo (half s)) ∧
      (right64 x n).map BitVec.toNat = .ok (nd (lo + half s) (s - half s))) ∧
    (s = 1 → Panics (left64 x) ∧ Panics (right64 x n)) ∧
    (∀ q, p.head? = some q → (parent64 x n).map BitVec.toNat = .ok q) ∧
    (∀ q, c.head? = some q → (sibling64 x n).map BitVec.toNat = .ok q) ∧
    (s = n.toNat → Panics (parent64 x n)) ∧
    (directPath64 x n).map (List.map BitVec.toNat) = .ok p ∧
    (copath64 x n).map (List.map BitVec.toNat) = .ok c ∧
    (isFullSubtree64 x n = true ↔ ∃ k, s = 2 ^ k) := by
  have hn' : n.toNat ≤ 2 ^ 63 := hn
  have hsub := h.sub hn0
  have hlt : x.toNat < 2 ^ 64 - 1 := by
    have := nd_lt (lo := lo) hsub.pos
    have := hsub.le
    omega
  have key : ∀ {α β : Type} {f : α → β} {y : G α} {b : β}, (∃ a, y = .ok a ∧ f a = b) → y.map f = .ok b := by
    rintro α β f y b ⟨a, rfl, rfl⟩; rfl
  refine ⟨by rw [root64_eq hn', root_eq hn0], ?_, ?_, ?_, ?_, ?_, ?_, ?_, ?_⟩
  · intro hs
    rw [left64_eq, right64_eq hlt hn', hx]
    exact ⟨left_nd hsub hs, right_nd hsub hs⟩
  · rintro rfl
    have := C01_leaf_no_children lo n.toNat
    rw [← hx, ← left64_eq, ← right64_eq hlt hn'] at this
    constructor
    · cases hl : left64 x with
      | ok a => rw [hl] at this; exact absurd this.1 (by simp [Panics, Except.map])
      | error e => rw [hl] at this; simpa [Panics, Except.map] using this.1
    · cases hl : right64 x n with
      | ok a => rw [hl] at this; exact absurd this.2 (by simp [Panics, Except.map])
      | error e => rw [hl] at this; simpa [Panics, Except.map] using this.2
  · intro q hq
    have : parent x.toNat n.toNat = .ok q := by
      rw [hx]
      cases h with
      | root => cases hq
      | left h' hs => cases hq; exact parent_left (h'.sub hn0) hs
      | right h' hs => cases hq; exact parent_right (h'.sub hn0) hs
    obtain ⟨y, h1, h2, -⟩ := parent64_ok hn' this
    exact key ⟨y, h1, h2⟩
  · intro q hq
    have : sibling x.toNat n.toNat = .ok q := by
      rw [hx]
      cases h with
      | root => cases hq
      | left h' hs => cases hq; exact sibling_left (h'.sub hn0) hs
      | right h' hs => cases hq; exact sibling_right (h'.sub hn0) hs
    exact key (sibling64_ok hn' this)
  · intro hs
    have hlo : lo = 0 := by have := hsub.le; omega
    have e : x = root64 n := BitVec.eq_of_toNat_eq (by rw [hx, root64_eq hn', root_eq hn0, hs, hlo])
    unfold parent64
    rw [if_pos e]
    simp [Panics, goPanic]
  · exact key (directPath64_ok hn' (by rw [hx]; exact directPath_eq hn0 h))
  · exact key (copath64_ok hn' (by rw [hx]; exact copath_eq hn0 h))
  · rw [isFullSubtree64_eq hlt hn0 hn', hx]
    exact (C01_full_subtrees hn0).1 lo s p c h

/-- The lists of full subtrees and of copath nodes of a batch are computed without overflow, whenever all sizes are at most
`MaxTreeSize` and the leaves are smaller than it. -/
theorem C01_uint64_batch {leaves : List (BitVec 64)} {n : BitVec 64} {nP m : Option (BitVec 64)} (hn0 : 0 < n.toNat)
    (hn : n.toNat ≤ maxTreeSize) (hl : ∀ x ∈ leaves, x.toNat < maxTreeSize)
    (hP : ∀ k, nP = some k → 0 < k.toNat ∧ k.toNat ≤ maxTreeSize) (hm : ∀ k, m = some k → 0 < k.toNat ∧ k.toNat ≤ maxTreeSize) :
    (∀ l, fullSubtrees (root n.toNat) n.toNat = .ok l → (fullSubtrees64 (root64 n) n).map (List.map BitVec.toNat) = .ok l) ∧
    (∀ l, batchCopath (leaves.map BitVec.toNat) n.toNat (nP.map BitVec.toNat) (m.map BitVec.toNat) = .ok l →
      (batchCopath64 leaves n nP m).map (List.map BitVec.toNat) = .ok l) := by
  have hn' : n.toNat ≤ 2 ^ 63 := hn
  constructor
  · intro l h
    rw [← root64_eq hn'] at h
    obtain ⟨l', h1, rfl⟩ := fullSubtrees64_ok (by rw [root64_eq hn']; exact root_lt hn0 hn') hn0 hn' h
    rw [h1]; rfl
  · intro l h
    obtain ⟨l', h1, rfl⟩ := batchCopath64_ok hn0 hn' hl hP hm h
    rw [h1]; rfl

/-- Chunk numbers do not overflow either. -/
theorem C01_uint64_chunk {x : BitVec 64} (hx : x.toNat < 2 ^ 64 - 1) :
    ∃ y, chunk64 x = .ok y ∧ chunk x.toNat = .ok y.toNat := by
  obtain ⟨K, i, e⟩ := exists_idx x.toNat
  obtain ⟨y, h1, h2⟩ := chunkLoop64_ok 4 x _ hx (by rw [e]; exact chunk_idx K i)
  exact ⟨y, h1, by rw [h2, e]; exact chunk_idx K i⟩

/-- `MaxTreeSize` can not be raised: with one leaf more the width of the tree wraps around, and the root is taken to be leaf 0. -/
theorem C01_uint64_sharp : nodeWidth64 (BitVec.ofNat 64 (maxTreeSize + 1)) = 1#64 ∧ root64 (BitVec.ofNat 64 (maxTreeSize + 1)) = 0#64 := by
  decide +kernel

-- the last leaf of the greatest tree, and a node of a tree of seven leaves
example : ∃ p c, At (BitVec.ofNat 64 maxTreeSize).toNat (2 ^ 63 - 1) 1 p c := C01_leaf (by decide)
example : directPath64 10#64 7#64 = .ok [9#64, 11#64, 7#64] ∧ copath64 10#64 7#64 = .ok [8#64, 12#64, 3#64] := by decide +kernel
example : batchCopath64 [2#64, 5#64] 7#64 (some 3#64) (some 2#64) = .ok ((batchCopath [2, 5] 7 (some 3) (some 2)).toOption.get!.map (BitVec.ofNat 64)) := by
  decide +kernel
example : fullSubtrees64 (root64 7#64) 7#64 = .ok [3#64, 9#64, 12#64] := by decide +kernel

end Katie.Props
