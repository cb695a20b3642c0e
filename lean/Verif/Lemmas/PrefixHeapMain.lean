import Verif.Lemmas.PrefixHeapAnswer

/-
Batch searches on a store that `Mutate` has written.
-/

namespace Katie.Prefix
open Katie Katie.PrefixSpec

variable {cs : Suite} {st : Store} {X : TileId → List Bool → List Pair → Prop}

theorem Closed.ctx {ver : Nat} (hc : Closed cs st ver X) : ∃ pl, Ctx cs st X pl := by
  obtain ⟨pl, h0, h1⟩ := hc.place
  exact ⟨pl, fun id p S h => ⟨hc.holds _ _ _ h, (h1 _ _ _ h).1, (h1 _ _ _ h).2⟩, h0⟩

theorem hi_init {pl : TileId → List Bool} {Q : Nat → Bytes → Prop} : HI cs st pl Q {} := by
  refine ⟨(fun id e h => by cases h), (fun id q x h => by cases h), fun loc p o ho => ?_⟩
  cases ho with
  | root ver => exact ⟨_, rfl, Or.inl rfl⟩
  | slot id q t m h1 _ _ => cases h1

theorem log1_init : Log1 {} := ⟨by simp, by simp⟩

/-- what is searched for in a version -/
def Wanted (ss : List Search) (ver : Nat) (v : Bytes) : Prop := ∃ s ∈ ss, s.version = ver ∧ v ∈ s.vrfs

theorem mem_combined {ss : List Search} {ver : Nat} {v : Bytes} :
    v ∈ (ss.filter (fun t => t.version == ver)).flatMap Search.vrfs ↔ Wanted ss ver v := by
  simp only [Wanted, List.mem_flatMap, List.mem_filter, beq_iff_eq]
  constructor
  · rintro ⟨s, ⟨h1, h2⟩, h3⟩; exact ⟨s, h1, h2, h3⟩
  · rintro ⟨s, h1, h2, h3⟩; exact ⟨s, ⟨h1, h2⟩, h3⟩

theorem total_initial (l : List Cursor) (h : ∀ c ∈ l, c.depth = 0) (b : HBatch) :
    total cs b l ≤ l.length * (8 * cs.hashSize + 1) := by
  induction l with
  | nil => simp [total]
  | cons c l ih =>
    have h1 := ih (fun c hc => h c (by simp [hc]))
    have h2 := wt_le (cs := cs) b c
    rw [h c (by simp)] at h2
    simp only [total, List.map_cons, List.sum_cons, List.length_cons] at h1 ⊢
    have : (l.length + 1) * (8 * cs.hashSize + 1) = l.length * (8 * cs.hashSize + 1) + (8 * cs.hashSize + 1) := by ring
    omega

theorem mem_initial {ss : List Search} {c : Cursor} :
    c ∈ initialCursors ss ↔ c.depth = 0 ∧ ∃ s ∈ ss, c.vrf ∈ s.vrfs ∧ c.loc = .root s.version := by
  simp only [initialCursors, List.mem_flatMap, List.mem_map]
  constructor
  · rintro ⟨s, h1, v, h2, rfl⟩; exact ⟨rfl, s, h1, h2, rfl⟩
  · rintro ⟨h0, s, h1, h2, h3⟩; exact ⟨s, h1, c.vrf, h2, by cases c; simp_all⟩

/-- everything that is wanted is loaded -/
theorem loadAll_spec {pl : TileId → List Bool} (hc : Ctx cs st X pl) {ss : List Search} (hq : Asked cs st X (Wanted ss))
    (ord : MapOrder) : ∃ b, loadAll cs st ord ss = .ok b ∧ HI cs st pl (Wanted ss) b ∧ Log1 b ∧
      (∀ r, (∀ v, ¬ Wanted ss r v) → b.roots r = .ext [] ⟨r, 0⟩) ∧ ∀ ver v, Wanted ss ver v → Done b ver v := by
  have hci : ∀ ver v, Wanted ss ver v → CI {} ⟨v, 0, .root ver⟩ ver := fun ver v _ =>
    ⟨[], .root ver, _, on_nil v, rfl, .nil, rfl, rfl, fun _ => rfl⟩
  have := search_spec hc hq ord ((initialCursors ss).length * (8 * cs.hashSize + 1) + 1) {} (initialCursors ss)
    hi_init log1_init
    (by
      intro c hcm
      obtain ⟨h0, s, h1, h2, h3⟩ := mem_initial.mp hcm
      refine ⟨s.version, ⟨s, h1, rfl, h2⟩, ?_⟩
      have := hci s.version c.vrf ⟨s, h1, rfl, h2⟩
      cases c; simp only at h0 h3; subst h0; subst h3; exact this)
    (by
      rintro ver v ⟨s, h1, rfl, h2⟩
      exact Or.inr ⟨⟨v, 0, .root s.version⟩, mem_initial.mpr ⟨rfl, s, h1, h2, rfl⟩, rfl, hci _ _ ⟨s, h1, rfl, h2⟩⟩)
    (Nat.lt_succ_of_le (total_initial _ (fun c hcm => (mem_initial.mp hcm).1) _))
  exact this

theorem runProofBuilder_nil (n : Node) : runProofBuilder cs n [] = .ok (⟨[], [n.hash cs]⟩, []) := by
  simp [runProofBuilder, sortBy, build, allSome]

/-- one answer -/
theorem answer_same {ver : Nat} {pl : TileId → List Bool} (hcl : Closed cs st ver X) (hc : Ctx cs st X pl) {ss : List Search}
    (hq : Asked cs st X (Wanted ss)) {b : HBatch} (hi : HI cs st pl (Wanted ss) b)
    (hroots : ∀ r, (∀ v, ¬ Wanted ss r v) → b.roots r = .ext [] ⟨r, 0⟩) (hdone : ∀ ver v, Wanted ss ver v → Done b ver v)
    {s : Search} (hs : s ∈ ss) : ∃ r, searchOne cs st ss s = .ok r ∧ b.answer cs s = .ok r := by
  obtain ⟨W, hW⟩ : ∃ W, W = (ss.filter (fun t => t.version == s.version)).flatMap Search.vrfs := ⟨_, rfl⟩
  have hmem : ∀ v, v ∈ W ↔ Wanted ss s.version v := fun v => by rw [hW]; exact mem_combined
  unfold searchOne HBatch.answer
  simp only
  rw [← hW]
  by_cases hne : W = []
  · have hno : ∀ v, ¬ Wanted ss s.version v := fun v hv => by
      have := (hmem v).mpr hv
      rw [hne] at this; cases this
    have hv : s.vrfs = [] := by
      rw [List.eq_nil_iff_forall_not_mem]
      intro v hv
      exact hno v ⟨s, hs, rfl, hv⟩
    rw [hroots _ hno, hv, hne]
    have h1 : loadVersion cs st s.version [] = .ok (.ext [] ⟨s.version, 0⟩) := by
      unfold loadVersion expand; rfl
    have h2 : b.tree (8 * cs.hashSize + 1) (.ext [] ⟨s.version, 0⟩) = .ok (.ext [] ⟨s.version, 0⟩) := by
      unfold HBatch.tree; rfl
    rw [h1, h2]
    simp only [G.ok_bind]
    rw [runProofBuilder_nil]
    exact ⟨_, rfl, rfl⟩
  · obtain ⟨w, hw⟩ := List.exists_mem_of_ne_nil W hne
    have hQ := (hmem w).mp hw
    obtain ⟨S, hS⟩ := hq.root _ _ hQ
    have hlen : ∀ v ∈ W, v.length = cs.hashSize := fun v hv => hq.len _ _ ((hmem v).mp hv)
    obtain ⟨n, n1, n2, n3⟩ := loadVersion_spec hcl hS hne hlen
    rw [n1 st (fun _ _ _ _ => rfl) rfl]
    obtain ⟨hr, _⟩ := hi.root hc hS
    obtain ⟨n', m1, m2⟩ := tree_spec hc hi (ver := s.version) (W := W) (fun v hv => hdone _ _ ((hmem v).mp hv))
      (8 * cs.hashSize + 1) [] (.root s.version) _ S .nil rfl hr (by
        intro hx
        exfalso
        cases hrt : b.roots s.version with
        | ext hh j =>
          exact (hdone _ _ hQ).noExt .nil (loc := .root s.version) (by simp only [HBatch.read]; rw [hrt]) (on_nil w)
        | empty => rw [hrt] at hx; cases hx
        | leaf _ _ => rw [hrt] at hx; cases hx
        | ptr _ _ _ => rw [hrt] at hx; cases hx) (by simp)
    rw [m1]
    simp only [G.ok_bind]
    have hVW : ∀ v ∈ s.vrfs, v ∈ W := fun v hv => (hmem v).mpr ⟨s, hs, rfl, hv⟩
    have hX : ∀ i q T, (X i q T ∧ below id W q = []) → below id s.vrfs q = [] := by
      rintro i q T ⟨_, h⟩
      rw [List.eq_nil_iff_forall_not_mem] at h ⊢
      intro x hx
      obtain ⟨h1, h2⟩ := mem_below.mp hx
      exact h x (mem_below.mpr ⟨hVW x h1, h2⟩)
    have hlen' : ∀ v ∈ s.vrfs, v.length = cs.hashSize := fun v hv => hlen v (hVW v hv)
    have hsame := builder_same hlen' hX hX (fun _ _ _ h => h.1) (fun _ _ _ h => h.1) n2 m2
    rw [← hsame, runProofBuilder_eq hlen' hX n2 (fun _ _ _ h => h.1)]
    exact ⟨_, rfl, rfl⟩

theorem mapM_same {α β : Type} {f g : α → G β} : ∀ l : List α, (∀ a ∈ l, ∃ r, f a = .ok r ∧ g a = .ok r) →
    ∃ out, l.mapM f = .ok out ∧ l.mapM g = .ok out := by
  intro l
  induction l with
  | nil => intro _; exact ⟨[], rfl, rfl⟩
  | cons a l ih =>
    intro h
    obtain ⟨r, h1, h2⟩ := h a (by simp)
    obtain ⟨out, h3, h4⟩ := ih (fun a ha => h a (by simp [ha]))
    refine ⟨r :: out, ?_, ?_⟩
    · rw [List.mapM_cons, h1, h3]; rfl
    · rw [List.mapM_cons, h2, h4]; rfl

theorem checkSearches_ok {ss : List Search} (h : checkSearches cs ss = .ok ()) :
    ∀ s ∈ ss, s.version ≠ 0 ∧ ∀ v ∈ s.vrfs, v.length = cs.hashSize := by
  induction ss with
  | nil => simp
  | cons s ss ih =>
    unfold checkSearches at h
    by_cases h0 : s.version = 0
    · rw [if_pos h0] at h; cases h
    · rw [if_neg h0] at h
      by_cases h1 : s.vrfs.all (fun v => v.length == cs.hashSize) = true
      · rw [if_neg (by rw [h1]; simp)] at h
        intro s' hs'
        rcases List.mem_cons.mp hs' with rfl | hs'
        · exact ⟨h0, fun v hv => by simpa using List.all_eq_true.mp h1 v hv⟩
        · exact ih h s' hs'
      · rw [if_pos h1] at h; cases h

theorem checkSearches_fault (ss : List Search) : checkSearches cs ss = .ok () ∨ Errs (checkSearches cs ss) := by
  induction ss with
  | nil => exact Or.inl rfl
  | cons s ss ih =>
    unfold checkSearches
    split
    · exact Or.inr ⟨_, rfl⟩
    · split
      · exact Or.inr ⟨_, rfl⟩
      · exact ih

/-! ### searches in versions that do not exist -/

theorem mapM_errs {α β : Type} {f : α → G β} : ∀ l : List α, (∀ a ∈ l, (∃ r, f a = .ok r) ∨ Errs (f a)) →
    (∃ a ∈ l, Errs (f a)) → Errs (l.mapM f) := by
  intro l
  induction l with
  | nil => rintro _ ⟨a, ha, _⟩; cases ha
  | cons a l ih =>
    rintro h ⟨a', ha', he'⟩
    rw [List.mapM_cons]
    rcases h a (by simp) with ⟨r, hr⟩ | he
    · rw [hr]
      simp only [G.ok_bind]
      have : Errs (l.mapM f) := by
        apply ih (fun a ha => h a (by simp [ha]))
        rcases List.mem_cons.mp ha' with rfl | ha'
        · obtain ⟨m, hm⟩ := he'; rw [hr] at hm; cases hm
        · exact ⟨a', ha', he'⟩
      exact errs_bind this _
    · exact errs_bind he _

theorem stepAll_initial (ss : List Search) :
    HBatch.stepAll {} (initialCursors ss) = .ok ((initialCursors ss).map (fun c => (c, ⟨match c.loc with
      | .root ver => ver
      | _ => 0, 0⟩))) := by
  have : ∀ l : List Cursor, (∀ c ∈ l, c.depth = 0 ∧ ∃ ver, c.loc = .root ver) →
      HBatch.stepAll {} l = .ok (l.map (fun c => (c, ⟨match c.loc with
      | .root ver => ver
      | _ => 0, 0⟩))) := by
    intro l
    induction l with
    | nil => intro _; rfl
    | cons c l ih =>
      intro h
      obtain ⟨h0, ver, h1⟩ := h c (by simp)
      unfold HBatch.stepAll
      rw [ih (fun c hc => h c (by simp [hc]))]
      unfold HBatch.step
      rw [h1]
      obtain ⟨v, d, loc⟩ := c
      simp only at h0 h1
      subst h0; subst h1
      rfl
  apply this
  intro c hc
  obtain ⟨h0, s, _, _, h3⟩ := mem_initial.mp hc
  exact ⟨h0, _, h3⟩

theorem decodeAll_errs : ∀ (ids : List TileId) (b : HBatch), ids.Nodup → (∀ id ∈ ids, b.cache id = none) →
    (∀ id ∈ ids, (∃ t, getTile cs st id = .ok t) ∨ Errs (getTile cs st id)) → (∃ id ∈ ids, Errs (getTile cs st id)) →
    Errs (HBatch.decodeAll cs st b ids) := by
  intro ids
  induction ids with
  | nil => rintro b _ _ _ ⟨id, hid, _⟩; cases hid
  | cons id ids ih =>
    rintro b hnd hn hg ⟨id', hid', he'⟩
    obtain ⟨hnot, hnd'⟩ := List.nodup_cons.mp hnd
    unfold HBatch.decodeAll
    rcases hg id (by simp) with ⟨t, ht⟩ | he
    · unfold HBatch.decode
      rw [ht]
      simp only [G.ok_bind]
      rw [if_neg (by rw [hn id (by simp)]; simp)]
      simp only [G.pure_eq, G.ok_bind]
      apply ih _ hnd'
      · intro i hi
        simp only
        rw [if_neg (by rintro rfl; exact hnot hi)]
        exact hn i (by simp [hi])
      · exact fun i hi => hg i (by simp [hi])
      · rcases List.mem_cons.mp hid' with rfl | hid'
        · obtain ⟨m, hm⟩ := he'; rw [ht] at hm; cases hm
        · exact ⟨id', hid', he'⟩
    · exact errs_bind (errs_bind he _) _

/-- The first round asks for the roots; if one of them is missing, the search fails. -/
theorem loadAll_errs {ss : List Search} (ord : MapOrder)
    (hg : ∀ ver v, Wanted ss ver v → (∃ t, getTile cs st ⟨ver, 0⟩ = .ok t) ∨ Errs (getTile cs st ⟨ver, 0⟩))
    (hm : ∃ ver v, Wanted ss ver v ∧ Errs (getTile cs st ⟨ver, 0⟩)) : Errs (loadAll cs st ord ss) := by
  obtain ⟨ver, v, ⟨s, h1, rfl, h2⟩, he⟩ := hm
  unfold loadAll HBatch.search
  rw [stepAll_initial]
  simp only [G.ok_bind]
  obtain ⟨pend, hp⟩ : ∃ pend, pend = (initialCursors ss).map (fun c => ((c, ⟨match c.loc with
      | .root ver => ver
      | _ => 0, 0⟩) : Cursor × TileId)) := ⟨_, rfl⟩
  rw [← hp]
  have hmem : ∀ id, id ∈ pend.map Prod.snd ↔ ∃ v, Wanted ss id.ver v ∧ id.ctr = 0 := by
    intro id
    rw [hp, List.map_map, List.mem_map]
    constructor
    · rintro ⟨c, k1, rfl⟩
      obtain ⟨_, s, k2, k3, k4⟩ := mem_initial.mp k1
      simp only [Function.comp_apply, k4]
      exact ⟨c.vrf, ⟨s, k2, rfl, k3⟩, trivial⟩
    · rintro ⟨w, ⟨s, k1, k2, k3⟩, k4⟩
      refine ⟨⟨w, 0, .root s.version⟩, mem_initial.mpr ⟨rfl, s, k1, k3, rfl⟩, ?_⟩
      simp only [Function.comp_apply]
      cases id; simp_all
  have hin : (⟨s.version, 0⟩ : TileId) ∈ pend.map Prod.snd := (hmem _).mpr ⟨v, ⟨s, h1, rfl, h2⟩, rfl⟩
  rw [if_neg (by rintro rfl; cases hin)]
  refine errs_bind ?_ _
  unfold HBatch.get
  have hk : ∀ id, id ∈ ord.keys ((initialCursors ss).length * (8 * cs.hashSize + 1)) (pend.map Prod.snd).dedup ↔
      id ∈ pend.map Prod.snd := by
    intro id
    rw [(ord.keys_perm _ _).mem_iff, List.mem_dedup]
  rw [if_neg (by simp)]
  have hv : ∀ id ∈ pend.map Prod.snd, ∃ v, Wanted ss id.ver v ∧ id = ⟨id.ver, 0⟩ := by
    intro id hid
    obtain ⟨w, k1, k2⟩ := (hmem id).mp hid
    exact ⟨w, k1, by cases id; simp_all⟩
  apply decodeAll_errs
  · exact (ord.keys_perm _ _).nodup_iff.mpr (List.nodup_dedup _)
  · intro id _; rfl
  · intro id hid
    obtain ⟨w, k1, k2⟩ := hv id ((hk id).mp hid)
    rw [k2]
    exact hg _ w k1
  · exact ⟨_, (hk _).mpr hin, he⟩

end Katie.Prefix
