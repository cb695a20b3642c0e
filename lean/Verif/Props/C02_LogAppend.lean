import Verif.Lemmas.LogAppend

/-
C02: appending to the log yields the Merkle tree of all entries.  The specification is `merkle`,
`rootHash` and `heads` of `Verif/Spec/LogTree.lean`.
-/

namespace Katie.Props
open Katie Katie.Log Katie.LogSpec

/-- Fold of the stateless `log.Append` over a list of leaf hashes, as its callers use it: the result of
one call is the input of the next, with the tree size counted along. -/
def appendMany (cs : Suite) : Nat → List Bytes → List Bytes → G (List Bytes)
  | _, fs, [] => pure fs
  | n, fs, x :: xs => do
    let fs' ← append cs n fs x
    appendMany cs (n + 1) fs' xs

/-- One append, from any log. -/
theorem C02_append_step {cs : Suite} (hcs : cs.Good) (L : List Bytes) (x : Bytes)
    (hL : ∀ v ∈ L ++ [x], v.length = cs.hashSize) :
    append cs L.length (heads cs.H L) x = .ok (heads cs.H (L ++ [x])) :=
  append_heads hcs hL

/-- After appending any sequence of leaf hashes to the empty log, the heads are those of the recursive
Merkle tree over the sequence and `Root` of the heads is its Merkle tree hash. -/
theorem C02_append_is_merkle {cs : Suite} (hcs : cs.Good) (L : List Bytes)
    (hL : ∀ v ∈ L, v.length = cs.hashSize) :
    appendMany cs 0 [] L = .ok (heads cs.H L) ∧
    (0 < L.length → L.length ≤ 2 ^ 63 → root cs L.length (heads cs.H L) = .ok (rootHash cs.H L)) := by
  constructor
  · have gen : ∀ (M L : List Bytes), (∀ v ∈ L, v.length = cs.hashSize) → (∀ v ∈ M, v.length = cs.hashSize) →
        appendMany cs L.length (heads cs.H L) M = .ok (heads cs.H (L ++ M)) := by
      intro M
      induction M with
      | nil => intro L _ _; simp [appendMany]
      | cons x M ih =>
        intro L h1 h2
        unfold appendMany
        have hx : ∀ v ∈ L ++ [x], v.length = cs.hashSize := by
          intro v hv
          rcases List.mem_append.mp hv with hv | hv
          · exact h1 v hv
          · rw [List.mem_singleton] at hv; rw [hv]; exact h2 x (by simp)
        rw [append_heads hcs hx, G.ok_bind]
        have := ih (L ++ [x]) hx (fun v hv => h2 v (by simp [hv]))
        simpa using this
    have := gen L [] (by simp) hL
    simpa [heads_small] using this
  · intro h0 hmax
    exact root_heads hcs hL h0 (by unfold LogMath.maxTreeSize; rw [Nat.one_shiftLeft]; exact hmax)

/-- A toy suite with one-byte digests for the examples. -/
def toySuite : Suite := ⟨fun b => [b.foldl (fun a x => 3 * a + x + 1) 7], 1⟩

theorem toySuite_good : toySuite.Good := ⟨by decide, fun _ => rfl⟩

example : (∀ v ∈ [[1], [2], [3]], v.length = toySuite.hashSize) ∧
    appendMany toySuite 0 [] [[1], [2], [3]] = .ok [toySuite.H [0, 1, 0, 2], [3]] := by decide

end Katie.Props
