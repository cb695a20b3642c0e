import Verif.Lemmas.Spent
import Verif.Lemmas.PrefixSized
import Verif.Lemmas.IsolatedAhead

/-
How much a proof of the server holds.
-/

namespace Katie.Log
open Katie Katie.LogMath Katie.LogSpec

/-- the elements of a proof from the stored log are hashes -/
theorem getBatch_sized {cs : Suite} (hcs : cs.Good) {L : List Bytes} (hL : ∀ v ∈ L, v.length = cs.hashSize) {st : LStore}
    (hst : StoreOK cs L st) {entries : List Nat} {nP m : Option Nat} {l : List Bytes}
    (h : getBatch cs st entries L.length nP m = .ok l) : ∀ e ∈ l, e.length = cs.hashSize := by
  unfold getBatch at h
  by_cases h0 : L.length = 0 ∨ L.length > maxTreeSize
  · rw [if_pos h0] at h; cases h
  rw [if_neg h0] at h
  by_cases h1 : (nP.any fun k => k = 0 ∨ k > L.length ∨ k > maxTreeSize) = true
  · rw [if_pos h1] at h; cases h
  rw [if_neg h1] at h
  by_cases h2 : (m.any fun k => k = 0 ∨ k > L.length ∨ k > maxTreeSize) = true
  · rw [if_pos h2] at h; cases h
  rw [if_neg h2] at h
  simp only at h
  by_cases h3 : (sortNat entries).any (fun x => x ≥ L.length) = true
  · rw [if_pos h3] at h; cases h
  rw [if_neg h3] at h
  split at h
  · cases h
  have hbound : ∀ o : Option Nat, ¬ (o.any fun k => k = 0 ∨ k > L.length ∨ k > maxTreeSize) = true →
      ∀ k, o = some k → 0 < k ∧ k ≤ L.length := by
    rintro o ho k rfl
    simp at ho
    omega
  obtain ⟨cop, res, e1, e2, -⟩ := evaluate_complete (entries := sortNat entries) hcs hL (by omega) (by omega) (by
    intro x hx
    by_contra hc
    exact h3 (List.any_eq_true.2 ⟨x, hx, by simpa using hc⟩)) (hbound nP h1) (hbound m h2)
  rw [e1, G.ok_bind] at h
  obtain ⟨ps, ep, hps⟩ := exists_pairs (P := fun p => Full L p.1 p.2) cop (by
    intro y hy
    obtain ⟨lo, s, a, b, rfl⟩ := e2 y hy
    obtain ⟨i, hi, hx⟩ := a.idx
    refine ⟨(LogMath.ht s, i), ?_, hx⟩
    unfold Full
    simp only
    rw [Nat.mul_add, Nat.mul_one, ← hi, ← b]; exact a.le)
  rw [ep, fetchSpecific_ok hcs hL hst hps] at h
  cases h
  intro e he
  obtain ⟨p, hp, rfl⟩ := List.mem_map.1 he
  exact val_len hcs hL (hps p hp)

end Katie.Log

namespace Katie.Alg
open Katie Katie.Wire Katie.Ladder Katie.Props Katie.SearchSpec Katie.SearchTree Katie.Prefix Katie.PrefixSpec Prog

/-- How much a proof holds, and that its parts have their sizes: `T` timestamps and roots, `P` prefix proofs for `V`
versions each. -/
structure Holds (cs : Log.Suite) (n T P V : Nat) (p : CombinedTreeProof) : Prop where
  timestamps : p.timestamps.length ≤ T
  times : ∀ t ∈ p.timestamps, t < 2 ^ 64
  proofs : p.prefixProofs.length ≤ P
  each : ∀ q ∈ p.prefixProofs, (∀ r ∈ q.results, SlotOK cs (8 * cs.hashSize) (some r)) ∧ (∀ e ∈ q.elements, e.length = cs.hashSize) ∧
    q.results.length ≤ V ∧ q.elements.length ≤ V * (8 * cs.hashSize)
  roots : p.prefixRoots.length ≤ T
  rootSize : ∀ r ∈ p.prefixRoots, r.length = cs.hashSize
  inclusion : p.inclusion.length ≤ (T + 2 * (LogMath.ht n + 1) + 1) * (LogMath.ht n + 1)
  inclusionSize : ∀ e ∈ p.inclusion, e.length = cs.hashSize

theorem mapM_ok_length {α β : Type} {f : α → G β} : ∀ {l : List α} {r : List β}, l.mapM f = .ok r → r.length = l.length
  | [], r, h => by cases h; rfl
  | a :: l, r, h => by
    rw [List.mapM_cons] at h
    obtain ⟨b, -, h⟩ := G.bind_eq_ok.1 h
    obtain ⟨r', h1, h⟩ := G.bind_eq_ok.1 h
    cases h
    simp [mapM_ok_length h1]

theorem foldr_insertLeaf_length : ∀ l : List (Nat × LogEntry), (l.foldr Provider.insertLeaf []).length = l.length
  | [] => rfl
  | e :: l => by
    have : ∀ (l : List (Nat × LogEntry)), (Provider.insertLeaf e l).length = l.length + 1 := by
      intro l
      induction l with
      | nil => rfl
      | cons f l ih =>
        unfold Provider.insertLeaf
        split
        · rfl
        · simp [ih]
    rw [List.foldr_cons, this, foldr_insertLeaf_length l, List.length_cons]

/-- the leaves that are not retained are among the timestamps fetched since -/
theorem newLeaves_length {σ : Type} {p : Provider σ} {new old : List (Nat × Nat)} (h : p.timestamps = new ++ old)
    (hold : ∀ e ∈ old, p.logEntries.lookup e.1 ≠ none) : p.newLeaves.length ≤ new.length := by
  unfold Provider.newLeaves
  rw [foldr_insertLeaf_length, List.length_map, h, List.filter_append]
  have : old.filter (fun e => (p.logEntries.lookup e.1).isNone) = [] := by
    rw [List.filter_eq_nil_iff]
    intro e he
    have := hold e he
    cases hl : p.logEntries.lookup e.1 with
    | none => exact absurd hl this
    | some k => simp
  rw [this, List.append_nil]
  exact List.length_filter_le _ _

theorem inspected_known {db : ServerDB} {index : List Nat} {n : Nat} {E : Nat → LogEntry}
    (hE : ∀ x < n, db.entry x = .ok (E x)) (hne : ∀ x < n, (E x).prefixTree ≠ []) {p : Provider Produced} (hp : Steady n E p) :
    ∃ leaves q, p.inspectedLeaves (Produced.handle db index) = (.ok leaves, q) ∧ leaves.map Prod.fst = p.newLeaves.map Prod.fst ∧
      q.state = { p.state with roots := (Provider.emptyLeaves p.newLeaves).map (fun x => (E x).prefixTree) } ∧
      ∀ x ∈ Provider.emptyLeaves p.newLeaves, x < n := by
  have hlt : ∀ x ∈ p.newLeaves.map Prod.fst, x < n := by
    intro x hx
    obtain ⟨e, he, rfl⟩ := List.mem_map.1 hx
    exact (hp.agrees.ts _ (newLeaves_mem.1 he).1).1
  have hnd := CommittedSpec.newLeaves_nodup hp.ts
  have hel : ∀ x ∈ Provider.emptyLeaves p.newLeaves, x < n := by
    intro x hx
    unfold Provider.emptyLeaves at hx
    obtain ⟨e, he, rfl⟩ := List.mem_map.1 hx
    exact hlt _ (List.mem_map.2 ⟨e, (List.mem_filter.1 he).1, rfl⟩)
  obtain ⟨r1, r2, r3⟩ := fillRoots_honest (E := E) p.newLeaves p.prefixTrees hnd
    (fun e he => hne _ (hlt _ (List.mem_map.2 ⟨e, he, rfl⟩)))
    (fun e he => ⟨(hp.agrees.ts _ (newLeaves_mem.1 he).1).2, (newLeaves_mem.1 he).2.2⟩) hp.agrees.roots
  refine ⟨p.newLeaves.map (fun e => (e.1, E e.1)), { p with
      state := { p.state with roots := (Provider.emptyLeaves p.newLeaves).map (fun x => (E x).prefixTree) }
      prefixTrees := (Provider.fillRoots p.newLeaves ((Provider.emptyLeaves p.newLeaves).map (fun x => (E x).prefixTree)) p.prefixTrees).2 },
    ?_, ?_, rfl, hel⟩
  · unfold Provider.inspectedLeaves
    simp only [Produced.handle, Produced.prefixTrees, readRoots_ok hE hel, List.length_map, ne_eq, not_true_eq_false, if_false]
    rw [r1]
  · rw [List.map_map]; rfl

/-- the commitments that a search returns are hashes -/
theorem search_coms {cs : Suite} (hcs : cs.Good) (hsm : Prefix.Small cs) {bs : List Batch} {st : Store} (h : History cs bs st)
    {searches : List Search}
    (hreq : ∀ s ∈ searches, 1 ≤ s.version ∧ s.version ≤ bs.length ∧ ∀ v ∈ s.vrfs, v.length = cs.hashSize)
    {out : List (Proof × List (Option Bytes))} (ho : Prefix.search cs st searches = .ok out) :
    ∀ r ∈ out, ∀ c, some c ∈ r.2 → c.length = cs.hashSize := by
  obtain ⟨hmap, X, hinv⟩ := history_inv hcs hsm h
  obtain ⟨_, hc, ho⟩ := G.bind_eq_ok.1 ho
  intro r hr c hcr
  obtain ⟨i, hi⟩ := List.getElem?_of_mem hr
  have hlen := mapM_ok_length ho
  have hil : i < searches.length := by
    rw [← hlen]
    by_contra hc
    rw [List.getElem?_eq_none (by omega)] at hi
    cases hi
  have hone := mapM_getElem ho (List.getElem?_eq_getElem hil) hi
  have hs := List.getElem_mem hil
  revert hone hs
  generalize searches[i] = s
  intro hone hs
  obtain ⟨r1, r2, r4⟩ := hreq s hs
  by_cases hW : (searches.filter (fun t => t.version == s.version)).flatMap Search.vrfs = []
  · have hV : s.vrfs = [] := (List.flatMap_eq_nil_iff.1 hW) s (List.mem_filter.mpr ⟨hs, by simp⟩)
    unfold searchOne at hone
    rw [hW, hV] at hone
    cases hone
    cases hcr
  · obtain ⟨st', hh⟩ := history_prefix h s.version r2
    have hmap' := (history_inv hcs hsm hh).1
    have hget := versions_get bs (s.version - 1) (by omega)
    have hv : s.version - 1 + 1 = s.version := by omega
    rw [hv] at hget
    obtain ⟨n, r', g1, g2, g3, _⟩ := search_version hinv hget hmap'
      (V := s.vrfs) (W := (searches.filter (fun t => t.version == s.version)).flatMap Search.vrfs) hW
      (fun x hx => List.mem_flatMap.mpr ⟨s, List.mem_filter.mpr ⟨hs, by simp⟩, hx⟩)
      (by
        intro x hx
        obtain ⟨t, ht, hxt⟩ := List.mem_flatMap.mp hx
        exact (hreq t (List.mem_filter.mp ht).1).2.2 x hxt)
    rw [hv] at g1
    unfold searchOne at hone
    simp only [g1 st (fun _ _ => rfl), G.ok_bind] at hone
    rw [g2] at hone
    cases hone
    rw [g3.answer] at hcr
    obtain ⟨v, hv1, hv2⟩ := List.mem_map.1 hcr
    have := (lookup_iff hmap'.distinct _ _).1 hv2
    exact (hmap'.len _ this).2

/-- the commitments in the table are hashes -/
def ComLen (cs : Log.Suite) (vs : Versions) : Prop := ∀ v k c, vs.lookup v = some k → k.com = some c → c.length = cs.hashSize

theorem comLen_cons {cs : Log.Suite} {vs : Versions} (h : ComLen cs vs) {v : Nat} {vrf c : Bytes} (hc : c.length = cs.hashSize) :
    ComLen cs ((v, ⟨vrf, some c⟩) :: vs) := by
  intro w k c' hk hc'
  rw [List.lookup_cons] at hk
  split at hk
  · cases hk
    cases hc'
    exact hc
  · exact h w k c' hk hc'

theorem takeCommitments_comLen {cs : Log.Suite} : ∀ {vers : List Nat} {coms : List (Option Bytes)} {vs vs' : Versions}, ComLen cs vs →
    (∀ c, some c ∈ coms → c.length = cs.hashSize) → Produced.takeCommitments vers coms vs = .ok vs' → ComLen cs vs'
  | vers, [], vs, vs', h, hc, e => by
    unfold Produced.takeCommitments at e
    cases e
    exact h
  | vers, none :: coms, vs, vs', h, hc, e => by
    unfold Produced.takeCommitments at e
    exact takeCommitments_comLen h (fun c hm => hc c (List.mem_cons_of_mem _ hm)) e
  | [], some _ :: _, vs, vs', h, hc, e => by
    unfold Produced.takeCommitments at e
    cases e
  | v :: vers, some c :: coms, vs, vs', h, hc, e => by
    have hc' : ∀ c, some c ∈ coms → c.length = cs.hashSize := fun c hm => hc c (List.mem_cons_of_mem _ hm)
    unfold Produced.takeCommitments at e
    split at e
    · exact takeCommitments_comLen (comLen_cons h (hc c List.mem_cons_self)) hc' e
    · split at e
      · exact takeCommitments_comLen (comLen_cons h (hc c List.mem_cons_self)) hc' e
      · split at e
        · cases e
        · exact takeCommitments_comLen h hc' e

theorem takeAll_comLen {cs : Log.Suite} : ∀ {ps : List (Nat × List Nat)} {rs : List (Proof × List (Option Bytes))} {vs vs' : Versions}, ComLen cs vs →
    (∀ r ∈ rs, ∀ c, some c ∈ r.2 → c.length = cs.hashSize) → Produced.takeAll ps rs vs = .ok vs' → ComLen cs vs'
  | _, [], vs, vs', h, hc, e => by
    unfold Produced.takeAll at e
    cases e
    exact h
  | [], _ :: _, vs, vs', h, hc, e => by
    unfold Produced.takeAll at e
    cases e
  | p :: ps, r :: rs, vs, vs', h, hc, e => by
    unfold Produced.takeAll at e
    obtain ⟨w, e1, e⟩ := G.bind_eq_ok.1 e
    exact takeAll_comLen (takeCommitments_comLen h (hc r List.mem_cons_self) e1) (fun r hr => hc r (List.mem_cons_of_mem _ hr)) e

theorem output_holds {cs : Log.Suite} {db : ServerDB} {bs : List Batch} {index : List Nat} {n : Nat} {E : Nat → LogEntry}
    (hh : Honest cs db bs n E) (htyped : ∀ x < n, (E x).Typed cs.hashSize) {p : Provider Produced} (hp : Steady n E p)
    (hvs : ∀ v k, p.state.versions.lookup v = some k → k.vrf.length = cs.hashSize)
    {T P V : Nat} (hT : p.state.timestamps.length ≤ T) (hts : ∀ t ∈ p.state.timestamps, t < 2 ^ 64) (hP : p.state.proofs.length ≤ P)
    (hV : ∀ need ∈ p.state.proofs, need.2 ≠ [] ∧ need.2.length ≤ V) (hN : p.newLeaves.length ≤ T)
    {nP m : Option Nat} {proof : CombinedTreeProof} {p' : Provider Produced} (h : p.output cs db index n nP m = (.ok proof, p')) :
    Holds cs n T P V proof ∧ (ComLen cs p.state.versions → ComLen cs p'.state.versions) := by
  obtain ⟨leaves, q, h1, h2, h3, h4⟩ := inspected_known (index := index) hh.entry hh.nonempty hp
  unfold Provider.output at h
  rw [h1] at h
  simp only at h
  cases ho : Produced.output cs db (leaves.map (·.1)) n nP m q.state with
  | error e => rw [ho] at h; cases h
  | ok r =>
  rw [ho] at h
  cases h
  unfold Produced.output at ho
  rw [h3] at ho
  obtain ⟨ss, o1, ho⟩ := G.bind_eq_ok.1 ho
  obtain ⟨res, o2, ho⟩ := G.bind_eq_ok.1 ho
  obtain ⟨vs, o4, ho⟩ := G.bind_eq_ok.1 ho
  obtain ⟨incl, o3, ho⟩ := G.bind_eq_ok.1 ho
  cases ho
  have hshape := searches_shape hvs o1
  have hlen : res.length = ss.length := by
    obtain ⟨_, -, o2⟩ := G.bind_eq_ok.1 o2
    exact mapM_ok_length o2
  have hss : ss.length = p.state.proofs.length := hshape.length_eq.symm
  have hLl : (leavesOf cs E n).length = n := by simp [leavesOf]
  have hel : (Provider.emptyLeaves p.newLeaves).length ≤ p.newLeaves.length := by
    unfold Provider.emptyLeaves
    rw [List.length_map]
    exact List.length_filter_le _ _
  have hcom : ComLen cs p.state.versions → ComLen cs vs := fun hc => takeAll_comLen hc (search_coms hh.good hh.small hh.hist (by
    intro s hs
    obtain ⟨need, hneed, h5, -, h6⟩ := forall₂_exists_left hshape s hs
    have := hp.proofs need hneed
    rw [hh.len]
    exact ⟨by omega, by omega, h6⟩) o2) o4
  refine ⟨⟨hT, hts, ?_, ?_, ?_, ?_, ?_, ?_⟩, hcom⟩
  · simp only [List.length_map]; omega
  · intro w hw
    obtain ⟨⟨w', com⟩, hmem, rfl⟩ := List.mem_map.1 hw
    obtain ⟨i, hi⟩ := List.getElem?_of_mem hmem
    have hil : i < ss.length := by
      rw [← hlen]
      by_contra hc
      rw [List.getElem?_eq_none (by omega)] at hi
      cases hi
    have hs := List.getElem?_eq_getElem hil
    obtain ⟨need, n1, n2, n3, -⟩ := forall₂_exists_left hshape _ (List.getElem_mem hil)
    obtain ⟨v1, v2⟩ := hV need n1
    have hne : ss[i].vrfs ≠ [] := by
      intro h0
      rw [h0] at n3
      exact v1 (List.eq_nil_of_length_eq_zero n3.symm)
    obtain ⟨s1, s2, s3, s4⟩ := search_sized hh.good o2 hs hi hne
    have s5 : ss[i].vrfs.length ≤ V := by rw [n3]; exact v2
    exact ⟨s1, s2, by rw [s3]; exact s5, (s4 hne).trans (Nat.mul_le_mul_right _ s5)⟩
  · simp only [List.length_map]; omega
  · intro r hr
    obtain ⟨x, hx, rfl⟩ := List.mem_map.1 hr
    exact (htyped x (h4 x hx)).2
  · have := Log.getBatch_length o3
    refine this.trans (Nat.mul_le_mul_right _ ?_)
    have : (leaves.map (·.1)).length = p.newLeaves.length := by rw [h2, List.length_map]
    rw [this]
    omega
  · have hsz : ∀ v ∈ leavesOf cs E n, v.length = cs.hashSize := by
      intro v hv
      obtain ⟨x, -, rfl⟩ := List.mem_map.1 hv
      exact hh.good.len _
    rw [← hLl] at o3
    exact Log.getBatch_sized hh.good hsz hh.log o3

end Katie.Alg
