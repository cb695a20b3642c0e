import Verif.Lemmas.PrefixHistory
import Verif.Lemmas.PrefixSound
import Verif.Props.C02_LogAppend

/-
C07, C08, C09: the prefix tree is a finite map from VRF outputs to commitments, its root is the hash of the
trie over the map, and searches answer from the map with proofs that verify.

Specification: `rootHash`, `contents`, `Batch.Valid`, `IsMap` of `Verif/Spec/Prefix.lean`; executions:
`History` of `Verif/Spec/PrefixHistory.lean`.  `Small cs` says that the hash size is at most 32 bytes (true
of both suites); `cs.Good` that digests have the declared size.
-/

namespace Katie.Props
open Katie Katie.Prefix Katie.PrefixSpec

/-! ### C07 -/

/-- Whatever the history, the root hash returned by `Mutate` is the hash of the trie over the contents. -/
theorem C07_root_is_trie_hash {cs : Suite} (hcs : cs.Good) (hsm : Small cs) {bs : List Batch} {st : Store}
    (h : History cs bs st) (b : Batch) (res : MutateResult)
    (hm : mutate cs st bs.length (entries b.add) b.remove = .ok res)
    (hne : bs = [] ∨ b.add ≠ [] ∨ b.remove ≠ []) (hver : bs.length + 1 < 2 ^ 64)
    (hsize : (contents (bs ++ [b])).length < 2 ^ 54) :
    res.root = rootHash cs.H cs.hashSize (contents (bs ++ [b])) := by
  obtain ⟨hmap, X, hinv⟩ := history_inv hcs hsm h
  obtain ⟨_, ho⟩ := mutate_ok hcs hsm hinv hmap hm hne hver hsize
  rw [ho.root, contents_snoc, current_versions]

/-- Two histories that end with the same pairs, in any order, end with the same root hash. -/
theorem C07_history_independent {cs : Suite} (hcs : cs.Good) (hsm : Small cs)
    {bs bs' : List Batch} {st st' : Store} (h : History cs bs st) (h' : History cs bs' st')
    (b b' : Batch) (res res' : MutateResult)
    (hm : mutate cs st bs.length (entries b.add) b.remove = .ok res)
    (hm' : mutate cs st' bs'.length (entries b'.add) b'.remove = .ok res')
    (hne : bs = [] ∨ b.add ≠ [] ∨ b.remove ≠ []) (hne' : bs' = [] ∨ b'.add ≠ [] ∨ b'.remove ≠ [])
    (hver : bs.length + 1 < 2 ^ 64) (hver' : bs'.length + 1 < 2 ^ 64)
    (hsize : (contents (bs ++ [b])).length < 2 ^ 54) (hsize' : (contents (bs' ++ [b'])).length < 2 ^ 54)
    (hsame : ∀ e, e ∈ contents (bs ++ [b]) ↔ e ∈ contents (bs' ++ [b'])) :
    res.root = res'.root := by
  rw [C07_root_is_trie_hash hcs hsm h b res hm hne hver hsize,
    C07_root_is_trie_hash hcs hsm h' b' res' hm' hne' hver' hsize']
  have h1 := (history_inv hcs hsm (History.step h hm hne hver hsize)).1
  have h2 := (history_inv hcs hsm (History.step h' hm' hne' hver' hsize')).1
  exact trieHash_perm _ _ _ _ _ _
    ((List.perm_ext_iff_of_nodup h1.distinct.of_map h2.distinct.of_map).mpr hsame)

/-- Maps with the same root hash hold the same pairs, unless the strings hashed to compute the two roots
contain a collision or one of them has the all-zero digest. -/
theorem C07_root_injective {cs : Suite} (hcs : cs.Good) (S T : List Pair) (hS : IsMap cs.hashSize S)
    (hT : IsMap cs.hashSize T) (h : rootHash cs.H cs.hashSize S = rootHash cs.H cs.hashSize T) :
    (∀ e, e ∈ S ↔ e ∈ T) ∨
    Collides cs.H (rootInputs cs.H cs.hashSize S) (rootInputs cs.H cs.hashSize T) ∨
    ZeroDigest cs.H cs.hashSize (rootInputs cs.H cs.hashSize S ++ rootInputs cs.H cs.hashSize T) :=
  rootHash_inj hcs hS hT h

/-! ### C08 -/

/-- A batch is accepted exactly when it makes sense for the map built so far; otherwise `Mutate` returns an
error (no panic) and, as it returns no store, changes nothing. -/
theorem C08_mutate_iff_valid {cs : Suite} (hcs : cs.Good) (hsm : Small cs) {bs : List Batch} {st : Store}
    (h : History cs bs st) (b : Batch) (hne : bs = [] ∨ b.add ≠ [] ∨ b.remove ≠ [])
    (hver : bs.length + 1 < 2 ^ 64) (hsize : (contents (bs ++ [b])).length < 2 ^ 54) :
    ((∃ res, mutate cs st bs.length (entries b.add) b.remove = .ok res) ↔ b.Valid cs.hashSize (contents bs)) ∧
    (¬ b.Valid cs.hashSize (contents bs) →
      ∃ msg, mutate cs st bs.length (entries b.add) b.remove = .error (.err msg)) := by
  obtain ⟨hmap, X, hinv⟩ := history_inv hcs hsm h
  have hl := versions_length bs
  have hc := current_versions bs
  refine ⟨⟨?_, ?_⟩, ?_⟩
  · rintro ⟨res, hm⟩
    exact (mutate_ok hcs hsm hinv hmap hm hne hver hsize).1
  · intro hb
    rw [contents_snoc] at hsize
    obtain ⟨res, e, _⟩ := mutate_valid hcs hsm hinv (by rw [hc]; exact hmap) b (by rw [hc]; exact hb)
      (vrfs_ne hne) (by rw [hl]; exact hver) (by rw [hc]; exact hsize)
    rw [hl] at e
    exact ⟨res, e⟩
  · intro hb
    have := mutate_invalid hinv b (by rw [hc]; exact hb)
    rw [hl] at this
    exact this

/-- After a successful call the map is the old one minus the removed VRF outputs plus the added pairs, the
commitments of the removed ones are returned, and looking up any VRF output in the new version gives its
value in the new map. -/
theorem C08_mutate_is_map_update {cs : Suite} (hcs : cs.Good) (hsm : Small cs) {bs : List Batch} {st : Store}
    (h : History cs bs st) (b : Batch) (res : MutateResult)
    (hm : mutate cs st bs.length (entries b.add) b.remove = .ok res)
    (hne : bs = [] ∨ b.add ≠ [] ∨ b.remove ≠ []) (hver : bs.length + 1 < 2 ^ 64)
    (hsize : (contents (bs ++ [b])).length < 2 ^ 54) :
    List.Forall₂ (fun v c => (v, c) ∈ contents bs) b.remove res.removed ∧
    ∀ v : Bytes, v.length = cs.hashSize →
      ∃ p com, search cs res.store [⟨bs.length + 1, [v]⟩] = .ok [(p, [com])] ∧
        ∀ c, com = some c ↔ ((v, c) ∈ contents bs ∧ v ∉ b.remove) ∨ (v, c) ∈ b.add := by
  obtain ⟨hmap, X, hinv⟩ := history_inv hcs hsm h
  obtain ⟨hb, ho⟩ := mutate_ok hcs hsm hinv hmap hm hne hver hsize
  have hh := History.step h hm hne hver hsize
  obtain ⟨hmap', X', hinv'⟩ := history_inv hcs hsm hh
  refine ⟨by simpa only [current_versions] using ho.removed, ?_⟩
  intro v hv
  have hget : (versions (bs ++ [b]))[bs.length]? = some (contents (bs ++ [b])) := by
    rw [versions_get _ _ (by simp), List.take_of_length_le (by simp)]
  obtain ⟨n, r, g1, g2, g3, _⟩ := search_version hinv' hget hmap' (V := [v]) (W := [v]) (by simp) (by simp)
    (by simpa using hv)
  have g1' := g1 res.store (fun _ _ => rfl)
  refine ⟨r.1, (contents (bs ++ [b])).lookup v, ?_, ?_⟩
  · have : r.2 = [(contents (bs ++ [b])).lookup v] := by rw [g3.answer]; rfl
    rw [← this]
    simp [search, checkSearches, hv, searchOne, g1', g2]
  · intro c
    rw [lookup_iff hmap'.distinct, contents_snoc]
    simp [Batch.apply]

/-! ### C09 -/

/-- Every well-formed request is answered: for each search, each VRF output is reported with its value in
the map at that version, the results say "included" exactly for the present ones, and if the VRF outputs of
the search are distinct the proof verifies against the root of that version together with the entries looked
up (with any commitment claimed for absent ones).

Missing for the full statement: requests with an empty list (`C09_empty_list_does_not_verify`) and proofs for
lists with repeated VRF outputs, which the verifier rejects (`C09_repeated_rejected`). -/
theorem C09_search_partial {cs : Suite} (hcs : cs.Good) (hsm : Small cs) {bs : List Batch} {st : Store}
    (h : History cs bs st) (searches : List Search)
    (hreq : ∀ s ∈ searches, 1 ≤ s.version ∧ s.version ≤ bs.length ∧ s.vrfs ≠ [] ∧
      ∀ v ∈ s.vrfs, v.length = cs.hashSize) :
    ∃ out, search cs st searches = .ok out ∧
      List.Forall₂ (fun s r =>
        let S := contents (bs.take s.version)
        List.Forall₂ (fun v com => ∀ c, com = some c ↔ (v, c) ∈ S) s.vrfs r.2 ∧
        r.1.results.map Res.isInclusion = r.2.map Option.isSome ∧
        ∀ es : List Entry, es.map Entry.vrf = s.vrfs → s.vrfs.Nodup →
          (∀ e ∈ es, ∀ c, (e.vrf, c) ∈ S → e.com = c) →
          (∀ e ∈ es, e.com = [] ∨ e.com.length = cs.hashSize) →
          verify cs es r.1 (rootHash cs.H cs.hashSize S) = .ok ()) searches out := by
  obtain ⟨hmap, X, hinv⟩ := history_inv hcs hsm h
  have hchk : ∀ l : List Search, (∀ s ∈ l, 1 ≤ s.version ∧ ∀ v ∈ s.vrfs, v.length = cs.hashSize) →
      checkSearches cs l = .ok () := by
    intro l
    induction l with
    | nil => intro _; rfl
    | cons s l ih =>
      intro hl
      have hs := hl s (by simp)
      have hall : (s.vrfs.all fun v => v.length == cs.hashSize) = true := by
        rw [List.all_eq_true]; intro v hv; simpa using hs.2 v hv
      unfold checkSearches
      rw [if_neg (by omega), if_neg (by simp only [hall, not_true_eq_false, not_false_eq_true])]
      exact ih (fun s' h' => hl s' (by simp [h']))
  unfold search
  rw [hchk searches (fun s hs => ⟨(hreq s hs).1, (hreq s hs).2.2.2⟩)]
  simp only [G.ok_bind]
  have key : ∀ l : List Search, (∀ s ∈ l, s ∈ searches) → ∃ out, l.mapM (searchOne cs st searches) = .ok out ∧
      List.Forall₂ (fun s r => Answered cs (contents (bs.take s.version)) s.vrfs r.1 r.2 ∧
        IsMap cs.hashSize (contents (bs.take s.version))) l out := by
    intro l
    induction l with
    | nil => intro _; exact ⟨[], rfl, List.Forall₂.nil⟩
    | cons s l ih =>
      intro hl
      obtain ⟨out, h1, h2⟩ := ih (fun s' h' => hl s' (by simp [h']))
      have hs := hl s (by simp)
      obtain ⟨r1, r2, r3, r4⟩ := hreq s hs
      obtain ⟨st', hh⟩ := history_prefix h s.version r2
      have hmap' := (history_inv hcs hsm hh).1
      have hget := versions_get bs (s.version - 1) (by omega)
      have hv : s.version - 1 + 1 = s.version := by omega
      rw [hv] at hget
      obtain ⟨n, r, g1, g2, g3, _⟩ := search_version hinv hget hmap'
        (V := s.vrfs) (W := (searches.filter (fun t => t.version == s.version)).flatMap Search.vrfs)
        (by
          intro hc
          rw [List.flatMap_eq_nil_iff] at hc
          exact r3 (hc s (List.mem_filter.mpr ⟨hs, by simp⟩)))
        (fun x hx => List.mem_flatMap.mpr ⟨s, List.mem_filter.mpr ⟨hs, by simp⟩, hx⟩)
        (by
          intro x hx
          obtain ⟨t, ht, hxt⟩ := List.mem_flatMap.mp hx
          exact (hreq t (List.mem_filter.mp ht).1).2.2.2 x hxt)
      rw [hv] at g1
      refine ⟨r :: out, ?_, List.Forall₂.cons ⟨g3, hmap'⟩ h2⟩
      rw [List.mapM_cons]
      have : searchOne cs st searches s = .ok r := by
        unfold searchOne
        simp only
        rw [g1 st (fun _ _ => rfl)]
        exact g2
      rw [this]
      simp only [G.ok_bind]
      rw [h1]; rfl
  obtain ⟨out, h1, h2⟩ := key searches (fun _ h => h)
  refine ⟨out, h1, h2.imp ?_⟩
  rintro s r ⟨ha, hmap'⟩
  refine ⟨?_, ha.results, ?_⟩
  · rw [ha.answer]
    have : ∀ l : List Bytes, List.Forall₂ (fun v com => ∀ c, com = some c ↔ (v, c) ∈ contents (bs.take s.version)) l
        (l.map (fun v => (contents (bs.take s.version)).lookup v)) := by
      intro l
      induction l with
      | nil => exact List.Forall₂.nil
      | cons v l ih => exact List.Forall₂.cons (fun c => lookup_iff hmap'.distinct v c) ih
    exact this _
  · intro es hes hnd hcom hlen
    apply ha.verifies es hes hnd _ hlen
    intro e he
    cases hl : (contents (bs.take s.version)).lookup e.vrf with
    | none => rfl
    | some c => exact hcom e he c ((lookup_iff hmap'.distinct _ _).mp hl)

/-- Requests for version 0, for a version that does not exist yet, or with a VRF output of the wrong length
are refused with an error. -/
theorem C09_bad_request_refused {cs : Suite} (hcs : cs.Good) (hsm : Small cs) {bs : List Batch} {st : Store}
    (h : History cs bs st) (s : Search) (hs : s.vrfs ≠ [])
    (hbad : s.version = 0 ∨ bs.length < s.version ∨ ∃ v ∈ s.vrfs, v.length ≠ cs.hashSize) :
    ∃ msg, search cs st [s] = .error (.err msg) := by
  obtain ⟨_, X, hinv⟩ := history_inv hcs hsm h
  unfold search
  by_cases h0 : s.version = 0
  · exact ⟨_, by unfold checkSearches; rw [if_pos h0]; rfl⟩
  by_cases hlen : (s.vrfs.all fun v => v.length == cs.hashSize) = true
  · have hgt : bs.length < s.version := by
      rcases hbad with hb | hb | ⟨v, hv, hb⟩
      · exact absurd hb h0
      · exact hb
      · rw [List.all_eq_true] at hlen
        exact absurd (by simpa using hlen v hv) hb
    have hnone := hinv.none ⟨s.version, 0⟩ (Or.inr (by rw [versions_length]; exact hgt))
    obtain ⟨v, vs, hvs⟩ : ∃ v vs, s.vrfs = v :: vs := by
      cases hx : s.vrfs with
      | nil => exact absurd hx hs
      | cons v vs => exact ⟨v, vs, rfl⟩
    refine ⟨"not all expected data was found", ?_⟩
    have hl : loadVersion cs st s.version (v :: vs) = goErr "not all expected data was found" := by
      unfold loadVersion
      unfold expand
      simp only [getTile, hnone]
      rfl
    have hc : checkSearches cs [s] = .ok () := by
      unfold checkSearches
      rw [if_neg h0, if_neg (by simp only [hlen, not_true_eq_false, not_false_eq_true])]
      rfl
    rw [hc]
    simp only [G.ok_bind, List.mapM_cons, searchOne, List.filter_cons, beq_self_eq_true, if_true, List.filter_nil,
      List.flatMap_cons, List.flatMap_nil, List.append_nil, hvs, hl]
    rfl
  · exact ⟨_, by unfold checkSearches; rw [if_neg h0, if_pos hlen]; rfl⟩

/-! ### Examples -/

/-- three versions: two additions, then one removal with one addition -/
def exBatches : List Batch :=
  [⟨[([0x80], [1]), ([0x01], [3])], []⟩, ⟨[([0x81], [2])], []⟩, ⟨[([0x40], [9])], [[0x80]]⟩]

def exMutate (bs : List Batch) : G (Store × Bytes) :=
  bs.foldlM (fun (acc : Nat × Store × Bytes) b => do
    let r ← mutate toySuite acc.2.1 acc.1 (entries b.add) b.remove
    pure (acc.1 + 1, r.store, r.root)) (0, [], []) >>= fun x => pure x.2

-- the three mutations succeed, the batches are valid, the root is that of the contents
example : (exMutate exBatches).map Prod.snd = .ok (rootHash toySuite.H 1 (contents exBatches)) ∧
    contents exBatches = [([0x01], [3]), ([0x81], [2]), ([0x40], [9])] := by decide +kernel

-- the same contents reached in one step have the same root, other contents have another one
example : ((exMutate [⟨[([0x40], [9]), ([0x81], [2]), ([0x01], [3])], []⟩]).map Prod.snd =
    (exMutate exBatches).map Prod.snd) ∧
    (exMutate (exBatches.take 2)).map Prod.snd ≠ (exMutate exBatches).map Prod.snd := by decide +kernel

/-- the hypotheses of the theorems are met by a history of three versions -/
theorem exHistory : ∃ st, History toySuite exBatches st ∧
    (search toySuite st [⟨1, [[0x80], [0x81]]⟩, ⟨3, [[0x80], [0x40]]⟩]).map (fun l => l.map Prod.snd) =
      .ok [[some [1], none], [none, some [9]]] := by
  obtain ⟨r1, h1⟩ : ∃ r1, mutate toySuite [] 0 (entries [([0x80], [1]), ([0x01], [3])]) [] = .ok r1 :=
    ⟨_, rfl⟩
  obtain ⟨r2, h2⟩ : ∃ r2, mutate toySuite r1.store 1 (entries [([0x81], [2])]) [] = .ok r2 := by
    obtain rfl := Except.ok.inj (h1.symm.trans rfl)
    exact ⟨_, rfl⟩
  obtain ⟨r3, h3⟩ : ∃ r3, mutate toySuite r2.store 2 (entries [([0x40], [9])]) [[0x80]] = .ok r3 := by
    obtain rfl := Except.ok.inj (h1.symm.trans rfl)
    obtain rfl := Except.ok.inj (h2.symm.trans rfl)
    exact ⟨_, rfl⟩
  refine ⟨r3.store, ?_, ?_⟩
  · have a1 := History.step (b := ⟨[([0x80], [1]), ([0x01], [3])], []⟩) (History.nil (cs := toySuite)) h1
      (Or.inl rfl) (by decide) (by decide)
    have a2 := History.step (b := ⟨[([0x81], [2])], []⟩) a1 h2 (Or.inr (Or.inl (by decide))) (by decide) (by decide)
    exact History.step (b := ⟨[([0x40], [9])], [[0x80]]⟩) a2 h3 (Or.inr (Or.inl (by decide))) (by decide) (by decide)
  · obtain rfl := Except.ok.inj (h1.symm.trans rfl)
    obtain rfl := Except.ok.inj (h2.symm.trans rfl)
    obtain rfl := Except.ok.inj (h3.symm.trans rfl)
    decide +kernel

-- a batch that adds a present VRF output, one that lists an output twice, one that removes an absent one
example : (exMutate (exBatches ++ [⟨[([0x81], [7])], []⟩])).map Prod.snd = goErr "can not insert same vrf output twice" ∧
    (exMutate (exBatches ++ [⟨[([0x82], [7]), ([0x82], [7])], []⟩])).map Prod.snd =
      goErr "unable to insert same vrf output multiple times" ∧
    (exMutate (exBatches ++ [⟨[], [[0x80]]⟩])).map Prod.snd = goErr "can not remove vrf output that does not exist" ∧
    ((exMutate (exBatches ++ [⟨[([0x81], [7])], [[0x81]]⟩])).map Prod.snd) =
      .ok (rootHash toySuite.H 1 [([0x01], [3]), ([0x40], [9]), ([0x81], [7])]) := by decide +kernel

/-- A search with an empty list of VRF outputs never loads the tree: the proof consists of one empty hash
and does not evaluate to the root. -/
theorem C09_empty_list_does_not_verify : ∃ st root p,
    exMutate exBatches = .ok (st, root) ∧ search toySuite st [⟨3, []⟩] = .ok [(p, [])] ∧
    verify toySuite [] p root = goErr "root hash does not match expected value" := by
  refine ⟨_, _, _, rfl, rfl, ?_⟩
  decide +kernel

/-- A search that lists the same VRF output twice is answered, but its proof is refused. -/
theorem C09_repeated_rejected : ∃ st root p,
    exMutate exBatches = .ok (st, root) ∧
    search toySuite st [⟨3, [[0x40], [0x40]]⟩] = .ok [(p, [some [9], some [9]])] ∧
    verify toySuite [⟨[0x40], [9]⟩, ⟨[0x40], [9]⟩] p root = goErr "same vrf output present multiple times" := by
  refine ⟨_, _, _, rfl, rfl, ?_⟩
  decide +kernel

end Katie.Props
