import Verif.Lemmas.PrefixHeapExpand
import Verif.Props.C07_C09_Prefix

/-
C91: the batch search of the prefix tree, which works in rounds on nodes in memory that the trees of several versions
share, gives the answers of a separate recursive search of every version, whatever the order in which Go iterates over
maps; and it requests no tile from the database twice.  The same for the tree that `Mutate` loads.

Executions: `History` of `Verif/Spec/PrefixHistory.lean`; `batchSearch` of `Verif/Model/PrefixHeap.lean` is batch.go as it
is, `search` of `Verif/Model/Prefix.lean` is the search about which C09 speaks.
-/

namespace Katie.Props
open Katie Katie.Prefix Katie.PrefixSpec

/-- The requests that `Tree.Search` answers on a tree of `n` versions: the version is not 0, every VRF output has the
size of a digest, and a version in which something is searched exists. -/
def Answerable (cs : Suite) (n : Nat) (ss : List Search) : Prop :=
  (∀ s ∈ ss, s.version ≠ 0 ∧ ∀ v ∈ s.vrfs, v.length = cs.hashSize) ∧ ∀ s ∈ ss, s.vrfs ≠ [] → s.version ≤ n

theorem checkSearches_complete {cs : Suite} {ss : List Search}
    (h : ∀ s ∈ ss, s.version ≠ 0 ∧ ∀ v ∈ s.vrfs, v.length = cs.hashSize) : checkSearches cs ss = .ok () := by
  induction ss with
  | nil => rfl
  | cons s ss ih =>
    unfold checkSearches
    rw [if_neg (h s (by simp)).1, if_neg (by simpa using (h s (by simp)).2)]
    exact ih (fun s hs => h s (by simp [hs]))

section
variable {cs : Suite} {st : Store} {X : TileId → List Bool → List Pair → Prop} {maps : List (List Pair)}

theorem inv_root (hinv : Inv cs st maps X) {ver : Nat} (h0 : ver ≠ 0) (h1 : ver ≤ maps.length) :
    ∃ S, Holds cs st X ⟨ver, 0⟩ [] S := by
  obtain ⟨S, hS⟩ : ∃ S, maps[ver - 1]? = some S := ⟨_, List.getElem?_eq_getElem (by omega)⟩
  obtain ⟨T, _, hT⟩ := hinv.roots _ _ hS
  rw [show ver - 1 + 1 = ver by omega] at hT
  exact ⟨T, hT⟩

theorem inv_getTile_errs (hinv : Inv cs st maps X) {ver : Nat} (h1 : maps.length < ver) :
    Errs (getTile cs st ⟨ver, 0⟩) := by
  unfold getTile
  rw [hinv.none ⟨ver, 0⟩ (Or.inr h1)]
  exact ⟨_, rfl⟩

theorem inv_getTile (hinv : Inv cs st maps X) {ver : Nat} (h0 : ver ≠ 0) :
    (∃ t, getTile cs st ⟨ver, 0⟩ = .ok t) ∨ Errs (getTile cs st ⟨ver, 0⟩) := by
  by_cases h1 : ver ≤ maps.length
  · obtain ⟨S, t, _, ht, _⟩ := inv_root hinv h0 h1
    exact Or.inl ⟨t, ht⟩
  · exact Or.inr (inv_getTile_errs hinv (by omega))

theorem searchOne_errs {ss : List Search} {s : Search} (hs : s ∈ ss) (hne : s.vrfs ≠ [])
    (he : Errs (getTile cs st ⟨s.version, 0⟩)) : Errs (searchOne cs st ss s) := by
  unfold searchOne
  simp only
  refine errs_bind ?_ _
  obtain ⟨v, hv⟩ := List.exists_mem_of_ne_nil _ hne
  have hw := (mem_combined (ss := ss)).mpr ⟨s, hs, rfl, hv⟩
  cases hc : (ss.filter (fun t => t.version == s.version)).flatMap Search.vrfs with
  | nil => rw [hc] at hw; cases hw
  | cons w ws =>
    unfold loadVersion expand
    exact errs_bind he _

theorem searchOne_cases (hinv : Inv cs st maps X) {ss : List Search}
    (hok : ∀ s ∈ ss, s.version ≠ 0 ∧ ∀ v ∈ s.vrfs, v.length = cs.hashSize) {s : Search} (hs : s ∈ ss) :
    (∃ r, searchOne cs st ss s = .ok r) ∨ Errs (searchOne cs st ss s) := by
  by_cases hv : s.version ≤ maps.length
  · left
    have hq : Asked cs st X (Wanted (ss.filter (fun t => t.version == s.version))) := by
      constructor
      · rintro ver v ⟨t, h1, rfl, h2⟩
        exact (hok t (List.mem_of_mem_filter h1)).2 v h2
      · rintro ver v ⟨t, h1, rfl, h2⟩
        have : t.version = s.version := by simpa using (List.mem_filter.mp h1).2
        exact inv_root hinv (hok t (List.mem_of_mem_filter h1)).1 (by omega)
    obtain ⟨pl, hctx⟩ := hinv.closed.ctx
    obtain ⟨b, _, h1, _, h2, h3⟩ := loadAll_spec hctx hq ⟨fun _ l => l, fun _ _ => .rfl, fun _ l => l, fun _ _ => .rfl⟩
    obtain ⟨r, hr, _⟩ := answer_same hinv.closed hctx hq h1 h2 h3 (s := s) (List.mem_filter.mpr ⟨hs, by simp⟩)
    refine ⟨r, ?_⟩
    rw [← hr]
    unfold searchOne
    simp only [List.filter_filter, Bool.and_self]
  · by_cases hne : s.vrfs = []
    · by_cases hw : ∃ t ∈ ss, t.version = s.version ∧ t.vrfs ≠ []
      · obtain ⟨t, h1, h2, h3⟩ := hw
        right
        have := searchOne_errs h1 h3 (inv_getTile_errs hinv (by omega))
        unfold searchOne at this ⊢
        simp only at this ⊢
        rw [h2] at this
        refine errs_bind ?_ _
        have hall : ∀ v, v ∈ t.vrfs → v ∈ (ss.filter (fun t => t.version == s.version)).flatMap Search.vrfs := fun v hv =>
          mem_combined.mpr ⟨t, h1, h2, hv⟩
        obtain ⟨v, hv⟩ := List.exists_mem_of_ne_nil _ h3
        have hw := hall v hv
        cases hc : (ss.filter (fun t => t.version == s.version)).flatMap Search.vrfs with
        | nil => rw [hc] at hw; cases hw
        | cons w ws =>
          unfold loadVersion expand
          exact errs_bind (inv_getTile_errs hinv (by omega)) _
      · left
        have hnil : (ss.filter (fun t => t.version == s.version)).flatMap Search.vrfs = [] := by
          rw [List.eq_nil_iff_forall_not_mem]
          intro v hv
          obtain ⟨t, h1, h2, h3⟩ := mem_combined.mp hv
          exact hw ⟨t, h1, h2, List.ne_nil_of_mem h3⟩
        unfold searchOne
        simp only
        rw [hnil, hne]
        have h1 : loadVersion cs st s.version [] = .ok (.ext [] ⟨s.version, 0⟩) := by
          unfold loadVersion expand; rfl
        rw [h1]
        simp only [G.ok_bind]
        rw [runProofBuilder_nil]
        exact ⟨_, rfl⟩
    · exact Or.inr (searchOne_errs hs hne (inv_getTile_errs hinv (by omega)))

end

/-- **C91.**  After any history, for every list of searches and every order of map iteration: a list that `Tree.Search`
can answer gets the same answers from the batch search and from the recursive search, and no tile is requested twice; for
every other list both return an error. -/
theorem C91_same_answers {cs : Suite} (hcs : cs.Good) (hsm : Small cs) {bs : List Batch} {st : Store}
    (h : History cs bs st) (ord : MapOrder) (ss : List Search) :
    (Answerable cs bs.length ss → ∃ out asked, search cs st ss = .ok out ∧
      batchSearch cs st ord ss = .ok (out, asked) ∧ asked.flatten.Nodup) ∧
    (¬ Answerable cs bs.length ss → Errs (search cs st ss) ∧ Errs (batchSearch cs st ord ss)) := by
  obtain ⟨_, X, hinv⟩ := history_inv hcs hsm h
  obtain ⟨pl, hctx⟩ := hinv.closed.ctx
  constructor
  · rintro ⟨hok, hex⟩
    have hq : Asked cs st X (Wanted ss) := by
      constructor
      · rintro ver v ⟨t, h1, rfl, h2⟩
        exact (hok t h1).2 v h2
      · rintro ver v ⟨t, h1, rfl, h2⟩
        exact inv_root hinv (hok t h1).1 (by rw [versions_length]; exact hex t h1 (List.ne_nil_of_mem h2))
    obtain ⟨b, h0, h1, h4, h2, h3⟩ := loadAll_spec hctx hq ord
    obtain ⟨out, o1, o2⟩ := mapM_same (f := searchOne cs st ss) (g := b.answer cs) ss (fun s hs =>
      answer_same hinv.closed hctx hq h1 h2 h3 hs)
    refine ⟨out, b.asked, ?_, ?_, h4.1⟩
    · unfold search
      rw [checkSearches_complete hok]
      exact o1
    · unfold batchSearch
      rw [checkSearches_complete hok, h0]
      simp only [G.ok_bind]
      rw [o2]
      rfl
  · intro hno
    rcases checkSearches_fault (cs := cs) ss with hc | hc
    · have hok := checkSearches_ok hc
      obtain ⟨s, hs, hne, hv⟩ : ∃ s ∈ ss, s.vrfs ≠ [] ∧ bs.length < s.version := by
        by_contra hcon
        exact hno ⟨hok, fun s hs hne => by
          by_contra hlt
          exact hcon ⟨s, hs, hne, by omega⟩⟩
      have hmiss : Errs (getTile cs st ⟨s.version, 0⟩) := inv_getTile_errs hinv (by rw [versions_length]; exact hv)
      constructor
      · unfold search
        rw [hc]
        exact mapM_errs ss (fun t ht => searchOne_cases hinv hok ht) ⟨s, hs, searchOne_errs hs hne hmiss⟩
      · unfold batchSearch
        rw [hc]
        simp only [G.ok_bind]
        refine errs_bind ?_ _
        obtain ⟨v, hvm⟩ := List.exists_mem_of_ne_nil _ hne
        refine loadAll_errs ord ?_ ⟨s.version, v, ⟨s, hs, rfl, hvm⟩, hmiss⟩
        rintro ver w ⟨t, h1, rfl, _⟩
        exact inv_getTile hinv (hok t h1).1
    · exact ⟨errs_bind hc _, errs_bind hc _⟩

/-- The tree that `Mutate` works on is loaded by the batch search as well: the outcome - the new root, the proof, the
removed commitments, the new store, or the error - is that of the recursive loading, and no tile is requested twice. -/
theorem C91_mutate {cs : Suite} (hcs : cs.Good) (hsm : Small cs) {bs : List Batch} {st : Store}
    (h : History cs bs st) (ord : MapOrder) (add : List Entry) (remove : List Bytes) :
    (∀ res, mutate cs st bs.length add remove = .ok res → ∃ asked,
      batchMutate cs st ord bs.length add remove = .ok (res, asked) ∧ asked.flatten.Nodup) ∧
    ∀ f, mutate cs st bs.length add remove = .error f → batchMutate cs st ord bs.length add remove = .error f := by
  obtain ⟨_, X, hinv⟩ := history_inv hcs hsm h
  obtain ⟨pl, hctx⟩ := hinv.closed.ctx
  have key : ∀ m : G MutateResult, mutate cs st bs.length add remove = m →
      (∀ res, m = .ok res → ∃ asked, batchMutate cs st ord bs.length add remove = .ok (res, asked) ∧ asked.flatten.Nodup) ∧
      ∀ f, m = .error f → batchMutate cs st ord bs.length add remove = .error f := by
    intro m hm
    unfold mutate at hm
    unfold batchMutate
    simp only at hm ⊢
    cases h1 : checkEntries cs false "unable to insert same vrf output multiple times" none (sortBy Entry.vrf add) with
    | error f => rw [h1] at hm; subst hm; exact ⟨(fun _ h => by cases h), (fun _ h => by cases h; rfl)⟩
    | ok _ =>
    rw [h1] at hm
    simp only [G.ok_bind] at hm ⊢
    cases h2 : checkRemoves cs none (sortBy id remove) with
    | error f => rw [h2] at hm; subst hm; exact ⟨(fun _ h => by cases h), (fun _ h => by cases h; rfl)⟩
    | ok _ =>
    rw [h2] at hm
    simp only [G.ok_bind] at hm ⊢
    have hlen : ∀ v ∈ add.map Entry.vrf ++ remove, v.length = cs.hashSize := by
      intro v hv
      rcases List.mem_append.mp hv with hv | hv
      · obtain ⟨e, he, rfl⟩ := List.mem_map.mp hv
        exact (((checkEntries_ok cs _ _ add).mp h1).1 e he).1
      · exact ((checkRemoves_ok cs remove).mp h2).1 v hv
    have hroot : ∃ asked : List (List TileId), asked.flatten.Nodup ∧
        batchMutationRoot cs st ord bs.length add remove =
          (getMutationRoot cs st bs.length add remove).map (fun r => (r, asked)) := by
      unfold batchMutationRoot getMutationRoot
      simp only
      by_cases h0 : bs.length = 0
      · rw [if_pos h0, if_pos h0]
        refine ⟨[], by simp, ?_⟩
        split
        · rfl
        · cases runProofBuilder cs .empty (add.map Entry.vrf ++ remove) <;> rfl
      · rw [if_neg h0, if_neg h0]
        obtain ⟨S, hS⟩ := inv_root hinv h0 (by rw [versions_length])
        obtain ⟨b, n, b1, b2, b3, b4⟩ := loadVersion_same hctx hS hlen ord
        refine ⟨b.asked, b4, ?_⟩
        unfold batchLoad
        rw [b1, b3]
        simp only [G.ok_bind]
        rw [b2]
        simp only [G.ok_bind, G.pure_eq]
        cases runProofBuilder cs n (add.map Entry.vrf ++ remove) with
        | error f => rfl
        | ok r =>
          obtain ⟨proof, coms⟩ := r
          simp only [G.ok_bind]
          cases checkAdds remove add (coms.take add.length) with
          | error f => rfl
          | ok _ =>
            simp only [G.ok_bind]
            cases checkPresent (coms.drop add.length) <;> rfl
    obtain ⟨asked, ha, hb⟩ := hroot
    rw [hb]
    cases h3 : getMutationRoot cs st bs.length add remove with
    | error f => rw [h3] at hm; subst hm; exact ⟨(fun _ h => by cases h), (fun _ h => by cases h; rfl)⟩
    | ok r =>
    rw [h3] at hm
    obtain ⟨root, proof, removed⟩ := r
    simp only [Except.map, G.ok_bind] at hm ⊢
    cases h4 : addRemoveEntries cs (mutationFuel cs) root (sortBy Entry.vrf add) (sortBy id remove) 0 with
    | error f => rw [h4] at hm; subst hm; exact ⟨(fun _ h => by cases h), (fun _ h => by cases h; rfl)⟩
    | ok root' =>
    rw [h4] at hm
    simp only [G.ok_bind] at hm ⊢
    cases h5 : splitIntoTiles cs (bs.length + 1) root' with
    | error f => rw [h5] at hm; subst hm; exact ⟨(fun _ h => by cases h), (fun _ h => by cases h; rfl)⟩
    | ok tiles =>
    rw [h5] at hm
    simp only [G.ok_bind] at hm ⊢
    cases h6 : putTiles cs tiles st with
    | error f => rw [h6] at hm; subst hm; exact ⟨(fun _ h => by cases h), (fun _ h => by cases h; rfl)⟩
    | ok st' =>
    rw [h6] at hm
    simp only [G.ok_bind, G.pure_eq] at hm ⊢
    subst hm
    exact ⟨(fun _ h => by cases h; exact ⟨asked, rfl, ha⟩), (fun _ h => by cases h)⟩
  exact key _ rfl

/-- In the tree that is in memory after a batch search, no object can be reached on two paths from the root of a version
in which something was searched: changing the tree in place changes it at one path. -/
theorem C91_no_sharing {cs : Suite} (hcs : cs.Good) (hsm : Small cs) {bs : List Batch} {st : Store}
    (h : History cs bs st) (ord : MapOrder) (ss : List Search) (hss : Answerable cs bs.length ss) :
    ∃ b, loadAll cs st ord ss = .ok b ∧ ∀ s ∈ ss, s.version ≤ bs.length → ∀ p p' loc,
      PathAt b s.version p loc → PathAt b s.version p' loc → p = p' := by
  obtain ⟨_, X, hinv⟩ := history_inv hcs hsm h
  obtain ⟨pl, hctx⟩ := hinv.closed.ctx
  have hq : Asked cs st X (Wanted ss) := by
    constructor
    · rintro ver v ⟨t, h1, rfl, h2⟩
      exact (hss.1 t h1).2 v h2
    · rintro ver v ⟨t, h1, rfl, h2⟩
      exact inv_root hinv (hss.1 t h1).1 (by rw [versions_length]; exact hss.2 t h1 (List.ne_nil_of_mem h2))
  obtain ⟨b, h0, h1, _⟩ := loadAll_spec hctx hq ord
  refine ⟨b, h0, fun s hs hv p p' loc hp hp' => ?_⟩
  obtain ⟨S, hS⟩ := inv_root hinv (hss.1 s hs).1 (by rw [versions_length]; exact hv)
  obtain ⟨_, _, o, _, _, k, _⟩ := h1.path hctx hS hp
  obtain ⟨_, _, o', _, _, k', _⟩ := h1.path hctx hS hp'
  cases k with
  | root ver => generalize p' = r at k'; cases k'; rfl
  | slot id q t m _ _ _ => generalize p' = r at k'; cases k'; rfl

/-- the searches and the keys in the order of the lists, and backwards -/
def forwards : MapOrder := ⟨fun _ l => l, fun _ _ => .rfl, fun _ l => l, fun _ _ => .rfl⟩

def backwards : MapOrder := ⟨fun _ l => l.reverse, fun _ l => l.reverse_perm, fun _ l => l.reverse, fun _ l => l.reverse_perm⟩

/-- three versions; the right half of the tree stays in the tile of version 1 -/
def exShared : List Batch :=
  [⟨[([0x80], [1]), ([0x01], [3]), ([0xc0], [4])], []⟩, ⟨[([0x02], [5])], []⟩, ⟨[([0x40], [9])], []⟩]

def exSharedSearch : List Search := [⟨2, [[0x80], [0xc1]]⟩, ⟨3, [[0xc0], [0x40]]⟩]

/-- Two versions searched at once, in both orders: both refer to the tile of version 1, which is requested once. -/
theorem C91_case : ∃ st, History toySuite exShared st ∧ Answerable toySuite exShared.length exSharedSearch ∧
    (batchSearch toySuite st forwards exSharedSearch).map (fun r => (r.1.map Prod.snd, r.2)) =
        .ok ([[some [1], none], [some [4], some [9]]], [[⟨2, 0⟩, ⟨3, 0⟩], [⟨1, 0⟩]]) ∧
    (batchSearch toySuite st backwards exSharedSearch).map (fun r => (r.1.map Prod.snd, r.2)) =
        .ok ([[some [1], none], [some [4], some [9]]], [[⟨3, 0⟩, ⟨2, 0⟩], [⟨1, 0⟩]]) ∧
    ¬ Answerable toySuite exShared.length [⟨4, [[0x80]]⟩] ∧
    (batchMutate toySuite st backwards 3 (entries [([0xc1], [7])]) [[0x80]]).map (fun r => (r.1.root, r.1.removed, r.2)) =
        .ok (rootHash toySuite.H 1 [([0x01], [3]), ([0xc0], [4]), ([0x02], [5]), ([0x40], [9]), ([0xc1], [7])], [[1]],
          [[⟨3, 0⟩], [⟨1, 0⟩]]) := by
  obtain ⟨r1, h1⟩ : ∃ r1, mutate toySuite [] 0 (entries [([0x80], [1]), ([0x01], [3]), ([0xc0], [4])]) [] = .ok r1 :=
    ⟨_, rfl⟩
  obtain ⟨r2, h2⟩ : ∃ r2, mutate toySuite r1.store 1 (entries [([0x02], [5])]) [] = .ok r2 := by
    obtain rfl := Except.ok.inj (h1.symm.trans rfl)
    exact ⟨_, rfl⟩
  obtain ⟨r3, h3⟩ : ∃ r3, mutate toySuite r2.store 2 (entries [([0x40], [9])]) [] = .ok r3 := by
    obtain rfl := Except.ok.inj (h1.symm.trans rfl)
    obtain rfl := Except.ok.inj (h2.symm.trans rfl)
    exact ⟨_, rfl⟩
  refine ⟨r3.store, ?_, by unfold Answerable; decide, ?_⟩
  · have a1 := History.step (b := ⟨[([0x80], [1]), ([0x01], [3]), ([0xc0], [4])], []⟩) (History.nil (cs := toySuite)) h1
      (Or.inl rfl) (by decide) (by decide)
    have a2 := History.step (b := ⟨[([0x02], [5])], []⟩) a1 h2 (Or.inr (Or.inl (by decide))) (by decide) (by decide)
    exact History.step (b := ⟨[([0x40], [9])], []⟩) a2 h3 (Or.inr (Or.inl (by decide))) (by decide) (by decide)
  · obtain rfl := Except.ok.inj (h1.symm.trans rfl)
    obtain rfl := Except.ok.inj (h2.symm.trans rfl)
    obtain rfl := Except.ok.inj (h3.symm.trans rfl)
    refine ⟨by decide +kernel, by decide +kernel, fun h => ?_, by decide +kernel⟩
    exact absurd (h.2 ⟨4, [[0x80]]⟩ (by decide) (by decide)) (by decide)

end Katie.Props
