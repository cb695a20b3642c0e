import Verif.Lemmas.PrefixSized

/-
C49: prefix proofs round-trip on the wire.

The statement is about `Tree.Search` on an arbitrary store: whatever the database holds, a proof that was
produced can be sent.  It is false for leaves at depth 256 and for more than 255 requests.
-/

namespace Katie.Props
open Katie Katie.Prefix Katie.Wire

/-- The hash function of the counterexample is constant: the failure has nothing to do with hashing. -/
def suite32 : Prefix.Suite := ⟨fun _ => List.replicate 32 0, 32⟩

def deepEntry (last : UInt8) : Entry := ⟨List.replicate 31 0 ++ [last], List.replicate 32 1⟩

/-- Build the tree holding two VRF outputs that differ in the last bit only, search for one of them, encode the
proof, and decode it: the results before and after. -/
def deepRoundTrip : G (List Res × List Res) := do
  let m ← mutate suite32 [] 0 [deepEntry 0, deepEntry 1] []
  let out ← search suite32 m.store [⟨1, [(deepEntry 0).vrf]⟩]
  match out with
  | [(p, _)] =>
    let b ← marshalPrefixProof p
    let (q, _) ← newPrefixProof ⟨32, 80, 16⟩ b
    pure (p.results, q.results)
  | _ => goErr "one proof expected"

/-- **False at depth 256.**  The tree answers the search with a proof of inclusion at depth 256; the encoding keeps
the low byte, and the receiver reads a proof of inclusion at depth 0. -/
theorem C49_depth_256_false : deepRoundTrip = .ok ([.inclusion 256], [.inclusion 0]) := by decide +kernel

/-- **False for more than 255 requests**: such a proof is produced and cannot be encoded. -/
theorem C49_many_results_false (cs : Prefix.Suite) (hcs : cs.Good) (st : Store) (searches : List Search)
    (out : List (Proof × List (Option Bytes))) (h : search cs st searches = .ok out) (i : Nat) (s : Search)
    (p : Proof) (com : List (Option Bytes)) (hi : searches[i]? = some s) (ho : out[i]? = some (p, com))
    (hn : 255 < s.vrfs.length) : Errs (marshalPrefixProof p) := by
  obtain ⟨_, _, hlen, _⟩ := search_sized hcs h hi ho (fun h0 => by rw [h0] at hn; simp at hn)
  refine ⟨"results list is too long to marshal", ?_⟩
  unfold marshalPrefixProof wSlice
  rw [if_pos (by omega)]
  rfl

/-- **Proved for everything else**: if a search of an arbitrary store succeeds, each of its proofs that answers
between 1 and 255 requests, and whose results are at depths of at most 255, is encoded, and decodes to itself.

Missing for the full statement: depth 256 (`C49_depth_256_false`) and more than 255 requests
(`C49_many_results_false`). -/
theorem C49_search_round_trips_partial (cs : Prefix.Suite) (hcs : cs.Good) (hsz : cs.hashSize ≤ 32) (sz : Sizes)
    (hs : sz.hash = cs.hashSize) (st : Store) (searches : List Search)
    (out : List (Proof × List (Option Bytes))) (h : search cs st searches = .ok out) (i : Nat) (s : Search)
    (p : Proof) (com : List (Option Bytes)) (hi : searches[i]? = some s) (ho : out[i]? = some (p, com))
    (hn : s.vrfs ≠ []) (hn' : s.vrfs.length ≤ 255) (hd : ∀ r ∈ p.results, r.depth ≤ 255) :
    ∃ b, marshalPrefixProof p = .ok b ∧ ∀ rest, newPrefixProof sz (b ++ rest) = .ok (p, rest) := by
  obtain ⟨h1, h2, hlen, h3⟩ := search_sized hcs h hi ho hn
  have hty : ProofTyped sz p := by
    refine ⟨fun r hr => ?_, fun e he => by rw [hs]; exact h2 e he⟩
    have hd' := hd r hr
    obtain ⟨_, hl⟩ := h1 r hr r rfl
    cases r with
    | inclusion d => exact (by show d < 256 ^ 1; simp only [Res.depth] at hd'; omega)
    | nonInclusionParent d => exact (by show d < 256 ^ 1; simp only [Res.depth] at hd'; omega)
    | nonInclusionLeaf v c d =>
      obtain ⟨ha, hb⟩ := hl v c d rfl
      exact ⟨by rw [hs]; exact ha, by rw [hs]; exact hb,
        by show d < 256 ^ 1; simp only [Res.depth] at hd'; omega⟩
  have he : p.elements.length ≤ 65535 := by
    have h1 := h3 hn
    have h2 : s.vrfs.length * (8 * cs.hashSize) ≤ 255 * 256 := Nat.mul_le_mul hn' (by omega)
    omega
  have hw : ∃ b, marshalPrefixProof p = .ok b := by
    have h1 : ∃ b, wLoop marshalRes p.results = .ok b := wLoop_total (fun r => by cases r <;> exact ⟨_, rfl⟩) _
    have h2 : ∃ b, wLoop wRaw p.elements = .ok b := wLoop_total (fun r => ⟨_, rfl⟩) _
    obtain ⟨b1, h1⟩ := h1
    obtain ⟨b2, h2⟩ := h2
    unfold marshalPrefixProof wSlice
    rw [if_neg (by omega), if_neg (by omega)]
    exact ⟨_, wSeq_ok.2 ⟨_, _, wSeq_ok.2 ⟨_, _, rfl, h1, rfl⟩, wSeq_ok.2 ⟨_, _, rfl, h2, rfl⟩, rfl⟩⟩
  obtain ⟨b, hb⟩ := hw
  exact ⟨b, hb, fun rest => (codec_prefixProof sz).rt p b rest hty hb⟩

/-- a search of the kind covered by `C49_search_round_trips_partial`: the depth is 1 -/
example :
    let cs : Prefix.Suite := ⟨fun b => [UInt8.ofNat b.length], 1⟩
    ∃ r p com, mutate cs [] 0 [⟨[0], [3]⟩, ⟨[128], [4]⟩] [] = .ok r ∧
      search cs r.store [⟨1, [[0], [200]]⟩] = .ok [(p, com)] ∧
      p.results = [.inclusion 1, .nonInclusionLeaf [128] [4] 1] ∧ p.elements = [] := by
  refine ⟨_, _, _, rfl, rfl, ?_, ?_⟩ <;> decide

end Katie.Props
