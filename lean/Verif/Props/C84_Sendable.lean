import Verif.Lemmas.Sendable
import Verif.Props.ServerExample2

/-
C84: the answers of the server can be sent.

Lists in a response are encoded with a count of one byte (timestamps, prefix proofs, prefix roots, ladder steps, results
of a prefix proof) or two bytes (elements of proofs); a longer list makes the encoding fail, after all the work.
-/

namespace Katie.Props
open Katie Katie.Wire Katie.Alg Katie.Ladder Katie.Server Katie.ServerSpec Katie.AuditSpec Katie.SearchSpec

theorem runs_versions {env : Env} {cs : List Change} {us : List AuditorUpdate} {t : Tree} (h : Runs env cs us t) :
    ∀ l, (versionsOf l cs).length ≤ 2 ^ 32 := by
  induction h with
  | start _ => intro l; simp [versionsOf]
  | change _ _ _ hr _ _ => exact hr.versions
  | restart _ _ ih => exact ih
  | failed _ _ _ ih => exact ih

theorem serves_index {env : Env} (hcs : env.cs.Good) (hsm : Prefix.Small env.cs) {t : Tree} (h : Serves env t) {l : Bytes} {index : List Nat}
    (hi : getIndex t.tx l = .ok index) : index.length ≤ 2 ^ 32 := by
  obtain ⟨cs, us, t₀, aud, hr, hne, htx, -⟩ := h
  obtain ⟨h1, hinv⟩ := runs_inv hcs hsm hr
  rw [htx, h1] at hi
  have := hinv.getIndex l
  have e : getIndex { t₀.db with auditor := aud } l = getIndex t₀.db l := rfl
  rw [e, this] at hi
  cases hi
  rw [List.length_map]
  exact runs_versions hr l

/-- **C84**, how much an answer to a search holds: for a log of `n` entries the numbers of timestamps, prefix proofs,
prefix roots and elements of the inclusion proof are logarithmic in `n`, and every prefix proof is about at most 62
versions.  A version from 2^31 - 1 on is never answered (C17). -/
theorem C84_search_answer_is_small {env : Env} (hcs : env.cs.Good) (hsm : Prefix.Small env.cs) {t : Tree} (ht : Serves env t)
    {th : TreeHead} (hth : t.head = some th) {now : Nat} {req : SearchRequest} (hv : ∀ v, req.version = some v → v < 2 ^ 32)
    {res : SearchResponse} (h : search env now t req = .ok res) :
    res.search.timestamps.length ≤ 4 * Nat.log2 th.treeSize + 5 ∧
    res.search.prefixProofs.length ≤ Nat.log2 th.treeSize + 2 ∧
    (∀ p ∈ res.search.prefixProofs, p.results.length ≤ 62 ∧ p.elements.length ≤ 62 * (8 * env.cs.hashSize)) ∧
    res.search.prefixRoots.length ≤ 4 * Nat.log2 th.treeSize + 5 ∧
    res.search.inclusion.length ≤ (6 * Nat.log2 th.treeSize + 10) * (Nat.log2 th.treeSize + 2) ∧
    res.binaryLadder.length ≤ 62 := by
  obtain ⟨bs, n, E, hl⟩ := live_of_serves hcs hsm ht
  obtain ⟨hd, index, ov, -, -, -, -, -, -, -, -, -, h1, -, hh⟩ := search_holds hl (search_last h) hv (fun _ hi => serves_index hcs hsm ht hi) h
  obtain ⟨th', e1, e2⟩ := hl.head
  rw [hth] at e1
  cases e1
  rw [e2]
  have hht := ht_le_log2 hl.honest.pos
  refine ⟨hh.timestamps, hh.proofs, fun p hp => ⟨(hh.each p hp).2.2.1, (hh.each p hp).2.2.2⟩, hh.roots, hh.inclusion.trans (Nat.mul_le_mul ?_ ?_), h1⟩
  · omega
  · omega

/-- **C84**: every answer to a search can be encoded, for every state that the server can reach, every request and every
time.  The auditor's signature in the stored head is of the length that its encoding allows. -/
theorem C84_search_answer_encodes {env : Env} (hcs : env.cs.Good) (hsm : Prefix.Small env.cs) {t : Tree} (ht : Serves env t)
    (ha : ∀ a, t.auditor = some a → a.signature.length < 2 ^ 16)
    {now : Nat} {req : SearchRequest} (hv : ∀ v, req.version = some v → v < 2 ^ 32)
    {res : SearchResponse} (h : search env now t req = .ok res) : ∃ b, res.marshal = .ok b := by
  obtain ⟨bs, n, E, hl⟩ := live_of_serves hcs hsm ht
  obtain ⟨hd, index, ov, k1, -, -, k4, e1, e2, -, e3, e4, h1, -, hh⟩ :=
    search_holds hl (search_last h) hv (fun _ hi => serves_index hcs hsm ht hi) h
  have hlog : Nat.log2 n ≤ 62 := by
    have := SearchTree.log2_lt_of_lt_pow hl.honest.pos hl.honest.size
    omega
  have hht := ht_le_log2 hl.honest.pos
  unfold SearchResponse.marshal
  rw [e1, e2, e4]
  refine Encodes.seq (fullTreeHead_encodes hcs hsm ht ha k1) (.seq ?_ (.seq ⟨_, rfl⟩ (.seq (getVersion_encodes k4).1
    (.seq (wSlice_encodes (by omega) (fun s _ => step_encodes s)) (hh.encodes hsm (by omega) (by omega) (by omega) (by omega))))))
  cases req.version <;> exact ⟨_, rfl⟩

/-- **C84**: and the client decodes it to the same answer.

Missing for the full statement: a result at depth 256 (`C49_depth_256_false`); a server in third-party auditing mode that
does not have an auditor's head (`C47_missing_auditor_head_false`); the answer about a version that does not exist in
third-party management mode (`C47_missing_signature_false`). -/
theorem C84_search_answer_decodes_partial {env : Env} (hcs : env.cs.Good) (hsm : Prefix.Small env.cs) {t : Tree} (ht : Serves env t)
    (hsz : env.sz.hash = env.cs.hashSize) (hprove : ∀ m, (env.prove m).2.length = env.sz.vrfProof)
    (ha : ∀ a, t.auditor = some a → a.timestamp < 2 ^ 64 ∧ a.signature.length < 2 ^ 16)
    {now : Nat} {req : SearchRequest} (hv : ∀ v, req.version = some v → v < 2 ^ 32)
    {res : SearchResponse} (h : search env now t req = .ok res)
    (hm : t.auditor.isSome ↔ env.cfg.mode = thirdPartyAuditing)
    (hval : env.cfg.mode = thirdPartyManagement → res.value.signature ≠ none)
    (hd : ∀ p ∈ res.search.prefixProofs, ∀ r ∈ p.results, r.depth ≤ 255) :
    ∃ b, res.marshal = .ok b ∧ ∀ rest, newSearchResponse env.cfg env.sz req (b ++ rest) = .ok (res, rest) := by
  obtain ⟨b, hb⟩ := C84_search_answer_encodes hcs hsm ht (fun a hq => (ha a hq).2) hv h
  refine ⟨b, hb, fun rest => (codec_searchResponse env.cfg env.sz req).rt res b rest ?_ hb⟩
  obtain ⟨bs, n, E, hl⟩ := live_of_serves hcs hsm ht
  obtain ⟨hd', index, ov, k1, -, -, k4, e1, e2, hT, e3, e4, h1, h2, hh⟩ :=
    search_holds hl (search_last h) hv (fun _ hi => serves_index hcs hsm ht hi) h
  obtain ⟨-, g2, g3⟩ := getVersion_encodes k4
  refine ⟨?_, ⟨?_, ?_⟩, ?_, ?_, ?_, hh.typed hsz hd⟩
  · rw [e1]
    exact fullTreeHead_typed hcs hsm ht (fun a hq => (ha a hq).1) hm k1
  · rw [e2]
    cases hq : req.version with
    | none =>
      rintro a ⟨⟩
      rw [hq] at hT
      show _ < 256 ^ 4
      omega
    | some v => exact nofun
  · rw [e2]
    cases hq : req.version <;> simp
  · rw [e3]; exact g2
  · rw [e4]
    rcases g3 with g3 | g3
    · exact g3
    · rw [g3]
      rw [e4, g3] at hval
      show _ ↔ _
      constructor
      · simp
      · intro hc
        exact absurd rfl (hval hc)
  · intro s hs
    obtain ⟨⟨m, hm'⟩, hc⟩ := h2 s hs
    exact ⟨by rw [hm']; exact hprove m, fun c hcc => by rw [hsz]; exact hc c hcc⟩

/-! ### Examples -/

/-- `toyEnv` with VRF proofs of the length that they have -/
def toyEnv0 : Env := { toyEnv with sz := ⟨1, 0, 1⟩ }

/-- the server after the first change of `toyHistory`, with a head of the auditor -/
def toyT1a : Tree := { toyT1 with auditor := some ⟨5, 1, [7]⟩ }

theorem toyT1a_serves : Serves toyEnv0 toyT1a := by
  have h1 : mutate toyEnv0 (toyChange [⟨[10], ⟨[1], none⟩⟩, ⟨[20], ⟨[2], none⟩⟩, ⟨[10], ⟨[3], none⟩⟩] [] 5) {} = (.ok toyU1, toyT1) := by
    decide +kernel
  have r1 := ServerSpec.Runs.change (.start rfl) h1 ⟨fun _ => .refl _, by decide +kernel, fun _ _ => rfl, by
    simp [UpdateValue.Typed, SuffixTyped, toyEnv0, toyEnv, toyChange, thirdPartyAuditing, thirdPartyManagement]⟩
    (inRange_of_short (by decide +kernel) (by decide +kernel)) (.inl rfl)
  refine ⟨_, _, toyT1, toyT1.tx.auditor, r1, by decide, rfl, rfl, ?_⟩
  rintro a ⟨⟩
  decide

/-- All three theorems apply to the search for the greatest version of a label with two versions. -/
example : ∃ res, search toyEnv0 5 toyT1a ⟨none, [10], none⟩ = .ok res ∧ res.search.timestamps.length = 1 ∧
    (∃ b, res.marshal = .ok b) ∧
    ∃ b, res.marshal = .ok b ∧ ∀ rest, newSearchResponse toyEnv0.cfg toyEnv0.sz ⟨none, [10], none⟩ (b ++ rest) = .ok (res, rest) := by
  obtain ⟨res, h⟩ : ∃ res, search toyEnv0 5 toyT1a ⟨none, [10], none⟩ = .ok res := by
    have : (search toyEnv0 5 toyT1a ⟨none, [10], none⟩).isOk = true := by decide +kernel
    cases h : search toyEnv0 5 toyT1a ⟨none, [10], none⟩ with
    | ok r => exact ⟨r, rfl⟩
    | error e => rw [h] at this; cases this
  have hlen : ((search toyEnv0 5 toyT1a ⟨none, [10], none⟩).map (fun r => r.search.timestamps.length)) = .ok 1 := by decide +kernel
  have hdep : ((search toyEnv0 5 toyT1a ⟨none, [10], none⟩).map (fun r => r.search.prefixProofs.all (fun p =>
    p.results.all (fun r => decide (r.depth ≤ 255))))) = .ok true := by decide +kernel
  rw [h] at hlen hdep
  have hs : toyEnv0.cs.Good := toySuite_good
  have hsm : Prefix.Small toyEnv0.cs := (by decide : toySuite.hashSize ≤ 32)
  refine ⟨res, h, Except.ok.inj hlen, C84_search_answer_encodes hs hsm toyT1a_serves ?_ (by simp) h,
    C84_search_answer_decodes_partial hs hsm toyT1a_serves rfl (fun _ => rfl) ?_ (by simp) h ?_ ?_ ?_⟩
  · rintro a ⟨⟩; decide
  · rintro a ⟨⟩; decide
  · decide
  · intro hc; exact absurd hc (by decide)
  · have := Except.ok.inj hdep
    simpa using this

end Katie.Props
