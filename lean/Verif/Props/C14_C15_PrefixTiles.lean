import Verif.Props.C07_C09_Prefix

/-
C14, C15: the tiles of a version hold the whole tree and are never changed afterwards.
-/

namespace Katie.Props
open Katie Katie.Prefix Katie.PrefixSpec

/-- The references in a tree: path below its root, hash and tile id of every external node. -/
def refs : Node → List (List Bool × Bytes × TileId)
  | .ext h i => [([], h, i)]
  | .parent l r _ _ => (refs l).map (fun x => (false :: x.1, x.2)) ++ (refs r).map (fun x => (true :: x.1, x.2))
  | _ => []

/-- The entries in the leaves of a tree, left to right. -/
def leavesOf : Node → List Pair
  | .leaf v c => [(v, c)]
  | .parent l r _ _ => leavesOf l ++ leavesOf r
  | _ => []

theorem rep_refs {cs : Suite} {X : TileId → List Bool → List Pair → Prop}
    {Y : Option TileId → List Bool → List Pair → Prop} (n : Node) : ∀ {p : List Bool} {S : List Pair},
    Rep cs X Y p n S → ∀ x ∈ refs n, ∃ T, X x.2.2 (p ++ x.1) T ∧ x.2.1 = th cs (p ++ x.1) T := by
  induction n with
  | empty => intro p S _ x hx; simp [refs] at hx
  | leaf v c => intro p S _ x hx; simp [refs] at hx
  | ext h i =>
    intro p S hr x hx
    simp only [refs, List.mem_singleton] at hx
    subst hx
    obtain ⟨h1, h2, h3⟩ := hr
    exact ⟨S, by simpa using h2, by simpa using h1⟩
  | parent l r h i ihl ihr =>
    intro p S hr x hx
    obtain ⟨Sl, Sr, rfl, h1, h2, h3, h4⟩ := hr
    simp only [refs, List.mem_append, List.mem_map] at hx
    rcases hx with ⟨y, hy, rfl⟩ | ⟨y, hy, rfl⟩
    · obtain ⟨T, a, b⟩ := ihl h1 y hy
      exact ⟨T, by simpa using a, by simpa using b⟩
    · obtain ⟨T, a, b⟩ := ihr h2 y hy
      exact ⟨T, by simpa using a, by simpa using b⟩

theorem rep_leaves {cs : Suite} {X : TileId → List Bool → List Pair → Prop}
    {Y : Option TileId → List Bool → List Pair → Prop} (n : Node) : ∀ {p : List Bool} {S : List Pair},
    Rep cs X Y p n S → refs n = [] → leavesOf n = S := by
  induction n with
  | empty => intro p S h _; exact (show S = [] from h) ▸ rfl
  | leaf v c => intro p S h _; exact h.1 ▸ rfl
  | ext h i => intro p S _ hc; simp [refs] at hc
  | parent l r h i ihl ihr =>
    intro p S hr hc
    obtain ⟨Sl, Sr, rfl, h1, h2, _, _⟩ := hr
    simp only [refs, List.append_eq_nil_iff, List.map_eq_nil_iff] at hc
    simp only [leavesOf]
    rw [ihl h1 hc.1, ihr h2 hc.2]

theorem refs_sub {cs : Suite} {X : TileId → List Bool → List Pair → Prop}
    {Y : Option TileId → List Bool → List Pair → Prop} (n : Node) : ∀ {p : List Bool} {S : List Pair},
    Rep cs X Y p n S → refs n ≠ [] → ∃ i q T, X i q T ∧ Wf cs.hashSize q T ∧ ∀ e ∈ T, e ∈ S := by
  induction n with
  | empty => intro p S _ hc; exact absurd rfl hc
  | leaf v c => intro p S _ hc; exact absurd rfl hc
  | ext h i => intro p S hr _; exact ⟨i, p, S, hr.2.1, hr.2.2, fun _ h => h⟩
  | parent l r h i ihl ihr =>
    intro p S hr hc
    obtain ⟨Sl, Sr, rfl, h1, h2, _, _⟩ := hr
    by_cases hl : refs l = []
    · have hr' : refs r ≠ [] := by
        intro hr; apply hc; simp [refs, hl, hr]
      obtain ⟨i, q, T, a, b, c⟩ := ihr h2 hr'
      exact ⟨i, q, T, a, b, fun e he => List.mem_append_right _ (c e he)⟩
    · obtain ⟨i, q, T, a, b, c⟩ := ihl h1 hl
      exact ⟨i, q, T, a, b, fun e he => List.mem_append_left _ (c e he)⟩

/-- the store of an earlier version agrees with the current one on the tiles it had -/
theorem history_agree {cs : Suite} (hcs : cs.Good) (hsm : Small cs) {bs : List Batch} {st : Store}
    (h : History cs bs st) : ∀ v, v ≤ bs.length →
      ∃ st', History cs (bs.take v) st' ∧ ∀ id : TileId, id.ver ≤ v → st.lookup id = st'.lookup id := by
  induction h with
  | nil => intro v _; exact ⟨[], by simpa using History.nil, fun _ _ => rfl⟩
  | @step bs st b res h hm hne hver hsize ih =>
    intro v hv
    by_cases hvl : v ≤ bs.length
    · obtain ⟨st', h1, h2⟩ := ih v hvl
      rw [List.take_append_of_le_length hvl]
      refine ⟨st', h1, fun id hid => ?_⟩
      obtain ⟨hmap, X, hinv⟩ := history_inv hcs hsm h
      obtain ⟨_, ho⟩ := mutate_ok hcs hsm hinv hmap hm hne hver hsize
      rw [ho.keep id (by rw [versions_length]; omega)]
      exact h2 id hid
    · rw [List.take_of_length_le (by simp; omega)]
      exact ⟨_, History.step h hm hne hver hsize, fun _ _ => rfl⟩

/-! ### C14 -/

/-- Reading a version back, following references: whatever is requested, the tree that is loaded has the
root hash of the contents of that version; and if every entry is requested, the tree has no unresolved
reference left and its leaves are exactly the contents. -/
theorem C14_reload {cs : Suite} (hcs : cs.Good) (hsm : Small cs) {bs : List Batch} {st : Store}
    (h : History cs bs st) (v : Nat) (hv1 : 1 ≤ v) (hv2 : v ≤ bs.length) (W : List Bytes) (hW : W ≠ [])
    (hlen : ∀ w ∈ W, w.length = cs.hashSize) :
    ∃ n, loadVersion cs st v W = .ok n ∧ n.hash cs = rootHash cs.H cs.hashSize (contents (bs.take v)) ∧
      ((∀ e ∈ contents (bs.take v), e.1 ∈ W) → refs n = [] ∧ (leavesOf n).Perm (contents (bs.take v))) := by
  obtain ⟨_, X, hinv⟩ := history_inv hcs hsm h
  have hget := versions_get bs (v - 1) (by omega)
  have hv : v - 1 + 1 = v := by omega
  rw [hv] at hget
  obtain ⟨T, hT, hold⟩ := hinv.roots _ _ hget
  rw [hv] at hold
  obtain ⟨n, g1, g2, g3⟩ := loadVersion_spec hinv.closed hold hW hlen
  refine ⟨n, g1 st (fun _ _ _ _ => rfl) rfl, ?_, ?_⟩
  · rw [g2.hash_eq (fun i q T _ h => h.1), trieHash_root]
    exact trieHash_perm _ _ _ _ _ _ hT
  · intro hall
    have hno : refs n = [] := by
      by_contra hc
      obtain ⟨i, q, U, ⟨a1, a2⟩, a3, a4⟩ := refs_sub n g2 hc
      have h2 := hinv.closed.two _ _ _ a1
      obtain ⟨e, he⟩ := List.exists_mem_of_ne_nil U (by rintro rfl; simp at h2)
      have : e.1 ∈ below id W q := mem_below.mpr ⟨hall e (hT.mem_iff.mp (a4 e he)), a3.on e he⟩
      rw [a2] at this; cases this
    exact ⟨hno, by rw [rep_leaves n g2 hno]; exact hT⟩

/-- The tiles of a version are numbered consecutively from 0; every one of them decodes; its root is a real
node; and every reference in it resolves: the tile it names is stored, belongs to the same or an older
version, and holds at the position of the reference a real node with the hash given in the reference.  If
the named tile belongs to the same version that node is the tile's root. -/
theorem C14_tiles {cs : Suite} (hcs : cs.Good) (hsm : Small cs) {bs : List Batch} {st : Store}
    (h : History cs bs st) (v : Nat) (hv1 : 1 ≤ v) (hv2 : v ≤ bs.length) :
    ∃ k, 0 < k ∧ (∀ c, (st.lookup ⟨v, c⟩).isSome ↔ c < k) ∧
      ∀ c, c < k → ∃ (t : Tile) (p : List Bool), getTile cs st ⟨v, c⟩ = .ok t ∧ t.depth = p.length ∧
        t.root.isExt = false ∧
        ∀ r hash i, (r, hash, i) ∈ refs t.root →
          ∃ (t' : Tile) (n : Node), getTile cs st i = .ok t' ∧ i.ver ≤ v ∧ t'.depth ≤ (p ++ r).length ∧
            t'.root.at ((p ++ r).drop t'.depth) = some n ∧ n.isExt = false ∧ n.hash cs = hash ∧
            (i.ver = v → t'.depth = (p ++ r).length ∧ n = t'.root) := by
  obtain ⟨st', h', hagree⟩ := history_agree hcs hsm h v hv2
  obtain ⟨_, X, hinv⟩ := history_inv hcs hsm h'
  have hl : (versions (bs.take v)).length = v := by rw [versions_length, List.length_take]; omega
  obtain ⟨k, k1, k2, k3⟩ := hinv.tiles (v - 1) (by omega)
  have hv : v - 1 + 1 = v := by omega
  rw [hv] at k2 k3
  have hgt : ∀ i : TileId, i.ver ≤ v → getTile cs st i = getTile cs st' i := by
    intro i hi; unfold getTile; rw [hagree i hi]
  refine ⟨k, k1, ?_, ?_⟩
  · intro c
    rw [hagree ⟨v, c⟩ (Nat.le_refl _)]
    constructor
    · intro hs
      by_contra hc
      rw [k3 c (by omega)] at hs; cases hs
    · intro hc
      obtain ⟨t, p, T, a1, _⟩ := k2 c hc
      unfold getTile at a1
      cases hlk : st'.lookup ⟨v, c⟩ with
      | none => rw [hlk] at a1; cases a1
      | some x => rfl
  · intro c hc
    obtain ⟨t, p, T, a1, a2, a3, a4⟩ := k2 c hc
    refine ⟨t, p, by rw [hgt _ (Nat.le_refl _)]; exact a1, a2, a3, ?_⟩
    intro r hash i hx
    obtain ⟨U, ⟨b1, b2⟩, b3⟩ := rep_refs _ a4 _ hx
    have hver : i.ver ≤ v := by have := hinv.closed.ver _ _ _ b1; rw [hl] at this; exact this
    obtain ⟨t', n, c1, c2, c3, c4, c5⟩ := hinv.closed.holds _ _ _ b1
    refine ⟨t', n, by rw [hgt _ hver]; exact c1, hver, c2, c3, c4, ?_, ?_⟩
    · rw [c5.hash_eq (fun _ _ _ _ h => h.2.1)]; exact b3.symm
    · intro hi
      obtain ⟨t'', d1, d2⟩ := b2 hi
      obtain rfl := Except.ok.inj (c1.symm.trans d1)
      refine ⟨d2, ?_⟩
      rw [List.drop_of_length_le (by omega), Node.at_nil] at c3
      exact (Option.some.inj c3).symm

/-- A history determines its store. -/
theorem history_unique {cs : Suite} {bs : List Batch} {st : Store} (h : History cs bs st) :
    ∀ st', History cs bs st' → st' = st := by
  induction h with
  | nil =>
    intro st' h'
    generalize hb : ([] : List Batch) = bs at h'
    cases h' with
    | nil => rfl
    | step _ _ _ _ _ => simp at hb
  | @step bs st b res h hm hne hver hsize ih =>
    intro st' h'
    generalize hb : bs ++ [b] = bs' at h'
    cases h' with
    | nil => simp at hb
    | @step bs2 st2 b2 res2 h2 hm2 _ _ _ =>
      obtain ⟨rfl, hb2⟩ := List.append_inj' hb rfl
      obtain rfl := List.singleton_inj.mp hb2
      obtain rfl := ih _ h2
      rw [Except.ok.inj (hm2.symm.trans hm)]

/-! ### C15 -/

/-- What a search of the versions of a history returns depends only on the tiles of these versions. -/
theorem search_agree {cs : Suite} (hcs : cs.Good) (hsm : Small cs) {bs : List Batch} {st' st2 : Store} (h : History cs bs st2)
    (hagree : ∀ id : TileId, id.ver ≤ bs.length → st'.lookup id = st2.lookup id) (searches : List Search)
    (hs : ∀ s ∈ searches, s.version ≤ bs.length) :
    search cs st' searches = search cs st2 searches := by
  obtain ⟨_, X, hinv⟩ := history_inv hcs hsm h
  unfold search
  cases hchk : checkSearches cs searches with
  | error e => rfl
  | ok u =>
    have hchk' : ∀ l : List Search, checkSearches cs l = .ok u → ∀ s ∈ l, 1 ≤ s.version ∧
        ∀ v ∈ s.vrfs, v.length = cs.hashSize := by
      intro l
      induction l with
      | nil => intro _ s hs; cases hs
      | cons a l ih =>
        intro hc s hs
        unfold checkSearches at hc
        split at hc
        · cases hc
        · split at hc
          · cases hc
          · rename_i h1 h2
            rcases List.mem_cons.mp hs with rfl | hs
            · refine ⟨by omega, fun v hv => ?_⟩
              simp only [Bool.not_eq_true, Bool.not_eq_false] at h2
              rw [List.all_eq_true] at h2
              simpa using h2 v hv
            · exact ih hc s hs
    have hgood := hchk' _ hchk
    simp only [G.ok_bind]
    have key : ∀ l : List Search, (∀ s ∈ l, s ∈ searches) →
        l.mapM (searchOne cs st' searches) = l.mapM (searchOne cs st2 searches) := by
      intro l
      induction l with
      | nil => intro _; rfl
      | cons s l ih =>
        intro hl
        have hsm' := hl s (by simp)
        obtain ⟨r1, r4⟩ := hgood s hsm'
        have heq : searchOne cs st' searches s = searchOne cs st2 searches s := by
          unfold searchOne
          simp only
          generalize hW : (searches.filter (fun t => t.version == s.version)).flatMap Search.vrfs = W
          have hload : loadVersion cs st' s.version W = loadVersion cs st2 s.version W := by
            cases hWn : W with
            | nil => unfold loadVersion; unfold expand; rfl
            | cons w ws =>
              obtain ⟨st3, hh⟩ := history_prefix h s.version (hs s hsm')
              have hmap' := (history_inv hcs hsm hh).1
              have hget := versions_get bs (s.version - 1) (by have := hs s hsm'; omega)
              have hv : s.version - 1 + 1 = s.version := by omega
              rw [hv] at hget
              obtain ⟨n, r, g1, _⟩ := search_version hinv hget hmap' (V := []) (W := w :: ws) (by simp) (by simp)
                (by
                  intro x hx
                  rw [← hWn, ← hW] at hx
                  obtain ⟨t, ht, hxt⟩ := List.mem_flatMap.mp hx
                  exact (hgood t (List.mem_filter.mp ht).1).2 x hxt)
              rw [hv] at g1
              rw [g1 st2 (fun _ _ => rfl), g1 st' (fun id hid => hagree id (by rw [versions_length] at hid; exact hid))]
          rw [hload]
        rw [List.mapM_cons, List.mapM_cons, heq, ih (fun s' h' => hl s' (by simp [h']))]
    exact key searches (fun _ h => h)

/-- Later mutations never change what a search of the versions that existed returns: answers, proofs and
errors are the same before and after. -/
theorem C15_past_versions_immutable {cs : Suite} (hcs : cs.Good) (hsm : Small cs) {bs more : List Batch}
    {st st' : Store} (h : History cs bs st) (h' : History cs (bs ++ more) st') (searches : List Search)
    (hs : ∀ s ∈ searches, s.version ≤ bs.length) :
    search cs st' searches = search cs st searches := by
  obtain ⟨st2, h2, hagree⟩ := history_agree hcs hsm h' bs.length (by simp)
  rw [List.take_left' rfl] at h2
  obtain rfl := history_unique h _ h2
  exact search_agree hcs hsm h hagree searches hs

/-! ### Examples -/

-- version 3 of the example history, read back completely, and its tiles
example : (exMutate exBatches >>= fun x => loadVersion toySuite x.1 3 [[0x01], [0x81], [0x40]]).map leavesOf =
    .ok [([0x01], [3]), ([0x40], [9]), ([0x81], [2])] := by decide +kernel

example : (exMutate exBatches).map (fun x => x.1.map (fun t => t.1)) = .ok [⟨3, 0⟩, ⟨2, 0⟩, ⟨1, 0⟩] := by decide +kernel

-- version 2 refers to nothing; a fourth version that touches only one half refers to version 3's or older tiles
example : (exMutate (exBatches ++ [⟨[([0x90], [7])], []⟩]) >>= fun x => getTile toySuite x.1 ⟨4, 0⟩).map
    (fun t => (refs t.root).map (fun x => (x.1, x.2.2))) = .ok [([false], ⟨3, 0⟩)] := by decide +kernel

-- C15 on the example: version 1 answers the same in the stores of versions 1 and 3
example : (exMutate exBatches >>= fun x => search toySuite x.1 [⟨1, [[0x80], [0x81]]⟩]) =
    (exMutate (exBatches.take 1) >>= fun x => search toySuite x.1 [⟨1, [[0x80], [0x81]]⟩]) := by decide +kernel

end Katie.Props
