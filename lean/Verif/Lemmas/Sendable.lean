import Verif.Lemmas.SendSearch
import Verif.Lemmas.PrefixSized
import Verif.Props.C17_Answered

/-
An answer that is not too large can be encoded, and decodes to itself.
-/

namespace Katie.Wire
open Katie Katie.Prefix

/-- can be encoded -/
def Encodes (x : G Bytes) : Prop := ∃ b, x = .ok b

theorem Encodes.seq {a b : G Bytes} (ha : Encodes a) (hb : Encodes b) : Encodes (a +> b) := by
  obtain ⟨x, ha⟩ := ha
  obtain ⟨y, hb⟩ := hb
  exact ⟨_, wSeq_ok.2 ⟨x, y, ha, hb, rfl⟩⟩

theorem wLoop_encodes {α : Type} {w : α → G Bytes} : ∀ {l : List α}, (∀ a ∈ l, Encodes (w a)) → Encodes (wLoop w l)
  | [], _ => ⟨_, rfl⟩
  | a :: l, h => by
    unfold wLoop
    exact .seq (h a List.mem_cons_self) (wLoop_encodes (fun b hb => h b (List.mem_cons_of_mem _ hb)))

theorem wSlice_encodes {α : Type} {k : Nat} {name : String} {w : α → G Bytes} {l : List α} (hl : l.length ≤ 256 ^ k - 1)
    (h : ∀ a ∈ l, Encodes (w a)) : Encodes (wSlice k name w l) := by
  unfold wSlice
  rw [if_neg (by omega)]
  exact .seq ⟨_, rfl⟩ (wLoop_encodes h)

theorem wBytes_encodes {k : Nat} {name : String} {l : Bytes} (hl : l.length ≤ 256 ^ k - 1) : Encodes (wBytes k name l) := by
  unfold wBytes
  rw [if_neg (by omega)]
  exact .seq ⟨_, rfl⟩ ⟨_, rfl⟩

theorem step_encodes (s : BinaryLadderStep) : Encodes s.marshal := by
  unfold BinaryLadderStep.marshal
  refine .seq ⟨_, rfl⟩ ?_
  cases s.commitment with
  | none => exact ⟨_, rfl⟩
  | some c => exact .seq ⟨_, rfl⟩ ⟨_, rfl⟩

end Katie.Wire

namespace Katie.Alg
open Katie Katie.Wire Katie.Prefix

theorem Holds.encodes {cs : Log.Suite} {n T P V : Nat} {p : CombinedTreeProof} (h : Holds cs n T P V p) (hcs : cs.hashSize ≤ 32)
    (hT : T ≤ 255) (hP : P ≤ 255) (hV : V ≤ 255) (hn : LogMath.ht n ≤ 63) : Encodes p.marshal := by
  unfold CombinedTreeProof.marshal
  have h1 := h.timestamps
  have h2 := h.proofs
  have h3 := h.roots
  have h4 : p.inclusion.length ≤ 65535 := by
    have := h.inclusion
    have h5 : (T + 2 * (LogMath.ht n + 1) + 1) * (LogMath.ht n + 1) ≤ (255 + 2 * (63 + 1) + 1) * (63 + 1) := Nat.mul_le_mul (by omega) (by omega)
    omega
  refine .seq (wSlice_encodes (by omega) (fun _ _ => ⟨_, rfl⟩)) (.seq (wSlice_encodes (by omega) (fun q hq => ?_))
    (.seq (wSlice_encodes (by omega) (fun _ _ => ⟨_, rfl⟩)) (wSlice_encodes (by omega) (fun _ _ => ⟨_, rfl⟩))))
  obtain ⟨-, -, e3, e4⟩ := h.each q hq
  unfold marshalPrefixProof
  refine .seq (wSlice_encodes (by omega) (fun r _ => ?_)) (wSlice_encodes ?_ (fun _ _ => ⟨_, rfl⟩))
  · cases r <;> exact ⟨_, rfl⟩
  · have h5 : V * (8 * cs.hashSize) ≤ 255 * (8 * 32) := Nat.mul_le_mul hV (by omega)
    omega

theorem Holds.typed {cs : Log.Suite} {n T P V : Nat} {p : CombinedTreeProof} (h : Holds cs n T P V p) {sz : Sizes} (hs : sz.hash = cs.hashSize)
    (hd : ∀ q ∈ p.prefixProofs, ∀ r ∈ q.results, r.depth ≤ 255) : p.Typed sz := by
  refine ⟨fun t ht => h.times t ht, fun q hq => ?_, fun r hr => by rw [hs]; exact h.rootSize r hr, fun e he => by rw [hs]; exact h.inclusionSize e he⟩
  obtain ⟨e1, e2, -⟩ := h.each q hq
  refine ⟨fun r hr => ?_, fun e he => by rw [hs]; exact e2 e he⟩
  have hd' := hd q hq r hr
  obtain ⟨_, hl⟩ := e1 r hr r rfl
  cases r with
  | inclusion d => exact (by show d < 256 ^ 1; simp only [Res.depth] at hd'; omega)
  | nonInclusionParent d => exact (by show d < 256 ^ 1; simp only [Res.depth] at hd'; omega)
  | nonInclusionLeaf v c d =>
    obtain ⟨ha, hb⟩ := hl v c d rfl
    exact ⟨by rw [hs]; exact ha, by rw [hs]; exact hb,
      by show d < 256 ^ 1; simp only [Res.depth] at hd'; omega⟩

theorem ht_le_log2 {n : Nat} (h0 : 0 < n) : LogMath.ht n ≤ Nat.log2 n + 1 := by
  have h1 := LogMath.two_pow_ht_lt h0
  have h2 : n < 2 ^ (Nat.log2 n + 1) := Nat.lt_log2_self
  by_contra hc
  have h3 : 2 ^ (Nat.log2 n + 2) ≤ 2 ^ LogMath.ht n := Nat.pow_le_pow_right (by decide) (by omega)
  rw [Nat.pow_succ] at h3
  omega

end Katie.Alg

namespace Katie.Server
open Katie Katie.Wire Katie.Alg Katie.Props Katie.ServerSpec

section
variable {env : Env} {t : Tree}

/-- a request of which the advertised size is zero is not answered -/
theorem search_last {now : Nat} {req : SearchRequest} {res : SearchResponse} (h : search env now t req = .ok res) : req.last ≠ some 0 := by
  intro hl
  unfold search at h
  obtain ⟨hd, k1, h⟩ := G.bind_eq_ok.1 h
  obtain ⟨ix, k2, h⟩ := G.bind_eq_ok.1 h
  obtain ⟨ladder, k3, h⟩ := G.bind_eq_ok.1 h
  obtain ⟨ov, k4, h⟩ := G.bind_eq_ok.1 h
  obtain ⟨⟨steps, s⟩, k5, h⟩ := G.bind_eq_ok.1 h
  obtain ⟨p1, k6, h⟩ := G.bind_eq_ok.1 h
  obtain ⟨th, hth, -⟩ := fullTreeHead_facts k1
  obtain ⟨m, hm⟩ := updateView_zero (env := env) (now := now) (index := ix) (p := newProvider s) hth
  rw [hl] at k6
  rw [hm] at k6
  cases k6

theorem serves_head (hcs : env.cs.Good) (hsm : Prefix.Small env.cs) (h : Serves env t) :
    ∃ th b, t.head = some th ∧ th.marshal = .ok b ∧ th.treeSize < 2 ^ 63 := by
  obtain ⟨cs, us, t₀, aud, hr, hne, htx, hhd, haud⟩ := h
  obtain ⟨h1, hi⟩ := runs_inv hcs hsm hr
  have hlen : (logOf env.cs us).length = cs.length := by rw [logOf_length, hi.len]
  have hsz := hi.size
  rcases hi.head with ⟨h1, -⟩ | ⟨-, sig, tbs, b, -, h2, h3, -⟩
  · exact absurd (List.length_eq_zero_iff.1 (by rw [← hlen, h1]; rfl)) hne
  · exact ⟨_, b, by rw [hhd, h2], h3, by simp only [hlen]; omega⟩

theorem fullTreeHead_parts {last : Option Nat} {h : Heads} (hf : fullTreeHead t last = .ok h) :
    h.fth = ⟨none, none⟩ ∨ (h.fth = ⟨t.head, t.auditor⟩ ∧ t.head ≠ none) := by
  unfold fullTreeHead at hf
  split at hf
  · cases hf
  · rename_i th hth
    simp only at hf
    split at hf
    · cases hf
      exact .inr ⟨by rw [hth], by rw [hth]; exact nofun⟩
    · split at hf
      · cases hf
        exact .inl rfl
      · split at hf
        · cases hf
        · cases hf
          exact .inr ⟨by rw [hth], by rw [hth]; exact nofun⟩

theorem fullTreeHead_encodes (hcs : env.cs.Good) (hsm : Prefix.Small env.cs) (hs : Serves env t)
    (ha : ∀ a, t.auditor = some a → a.signature.length < 2 ^ 16) {last : Option Nat} {h : Heads} (hf : fullTreeHead t last = .ok h) :
    Encodes h.fth.marshal := by
  obtain ⟨th, b, h1, h2, -⟩ := serves_head hcs hsm hs
  rcases fullTreeHead_parts hf with e | ⟨e, -⟩
  · rw [e]; exact ⟨_, rfl⟩
  · rw [e, h1]
    unfold FullTreeHead.marshal
    simp only
    refine .seq ⟨_, rfl⟩ (.seq ⟨_, h2⟩ ?_)
    cases hq : t.auditor with
    | none => exact ⟨_, rfl⟩
    | some a =>
      have := ha a hq
      exact .seq ⟨_, rfl⟩ (.seq ⟨_, rfl⟩ (wBytes_encodes (by omega)))

theorem fullTreeHead_typed (hcs : env.cs.Good) (hsm : Prefix.Small env.cs) (hs : Serves env t)
    (ha : ∀ a, t.auditor = some a → a.timestamp < 2 ^ 64) (hm : t.auditor.isSome ↔ env.cfg.mode = thirdPartyAuditing)
    {last : Option Nat} {h : Heads} (hf : fullTreeHead t last = .ok h) : h.fth.Typed env.cfg := by
  obtain ⟨th, b, h1, -, h3⟩ := serves_head hcs hsm hs
  rcases fullTreeHead_parts hf with e | ⟨e, -⟩
  · rw [e]; exact ⟨nofun, nofun, by simp⟩
  · rw [e, h1]
    refine ⟨?_, ?_, by simpa using hm⟩
    · rintro a ⟨⟩
      show _ < _
      omega
    · intro a hq
      have := ha a hq
      obtain ⟨cs, us, t₀, aud, hr, hne, htx, hhd, haud⟩ := hs
      obtain ⟨-, hi⟩ := runs_inv hcs hsm hr
      have := (haud a hq).2
      have := hi.size
      exact ⟨by show _ < _; omega, by show _ < _; omega⟩

/-- what `getVersion` returns can be encoded, and has the form of its mode, unless it is the default for a version that
does not exist -/
theorem getVersion_encodes {label : Bytes} {v : Nat} {ov : OpeningAndValue} (h : getVersion env t.tx label v = .ok ov) :
    Encodes ov.value.marshal ∧ ov.opening.length = env.sz.opening ∧ (ov.value.Typed env.cfg ∨ ov.value = ⟨[], none⟩) := by
  unfold getVersion at h
  split at h
  · cases h
    exact ⟨⟨_, rfl⟩, by simp, .inr rfl⟩
  · obtain ⟨h1, h2⟩ := readAll_typed (codec_openingAndValue _ _) h
    unfold OpeningAndValue.marshal at h2
    obtain ⟨x, y, -, h4, -⟩ := wSeq_ok.1 h2
    exact ⟨⟨y, h4⟩, h1.1, .inl h1.2⟩

end
end Katie.Server
