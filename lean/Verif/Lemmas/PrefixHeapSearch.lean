import Verif.Lemmas.PrefixHeapStep

/-
A whole batch search.
-/

namespace Katie.Prefix
open Katie Katie.PrefixSpec

variable {cs : Suite} {st : Store} {X : TileId → List Bool → List Pair → Prop} {pl : TileId → List Bool}
  {Q : Nat → Bytes → Prop}

/-- work left for a cursor that waits -/
def pw (cs : Suite) (x : Cursor × TileId) : Nat := 8 * cs.hashSize + 1 - x.1.depth

theorem wt_le (b : HBatch) (c : Cursor) : wt cs b c ≤ 8 * cs.hashSize + 1 - c.depth := by
  unfold wt; split <;> omega

theorem wt_nonext {b : HBatch} {c : Cursor} {x : HNode} (h : b.read c.loc = some x) (hx : x.isExt = false) :
    wt cs b c = 8 * cs.hashSize - c.depth := by
  unfold wt
  rw [h]
  cases x <;> first | rfl | cases hx

theorem PI.depth_le {b : HBatch} {c : Cursor} {j : TileId} {ver : Nat} (h : PI cs st X pl b c j ver)
    (hlen : c.vrf.length = cs.hashSize) : c.depth ≤ 8 * cs.hashSize := by
  obtain ⟨p, _, _, h1, h2, _⟩ := h
  have := h1.length_le
  rw [hlen] at this
  omega

theorem serveAll_spec (hq : Asked cs st X Q) : ∀ (pend : List (Cursor × TileId)) (b : HBatch), HI cs st pl Q b →
    (∀ x ∈ pend, ∃ ver, Q ver x.1.vrf ∧ PI cs st X pl b x.1 x.2 ver) →
    ∃ b' l, HBatch.serveAll b pend = .ok (b', l) ∧ HI cs st pl Q b' ∧ Le b b' ∧ b'.cache = b.cache ∧ b'.asked = b.asked ∧
      (∀ c ∈ l, ∃ ver, Q ver c.vrf ∧ CI b' c ver) ∧
      (∀ x ∈ pend, ∀ ver, PI cs st X pl b x.1 x.2 ver → ∃ c ∈ l, c.vrf = x.1.vrf ∧ CI b' c ver) ∧
      (∀ r, (∀ v, ¬ Q r v) → b'.roots r = b.roots r) ∧
      total cs b' l + pend.countP (fun x => (b.cache x.2).isSome) ≤ (pend.map (pw cs)).sum := by
  intro pend
  induction pend with
  | nil => intro b hi _; exact ⟨b, [], rfl, hi, Le.refl b, rfl, rfl, by simp, by simp, by simp, by simp [total]⟩
  | cons x pend ih =>
    obtain ⟨c, j⟩ := x
    intro b hi hp
    obtain ⟨ver0, hQ0, hP0⟩ := hp (c, j) (by simp)
    have hdep : c.depth ≤ 8 * cs.hashSize := hP0.depth_le (hq.len _ _ hQ0)
    obtain ⟨b1, c1, s1, s2, s3, s4, s5, s6, s7, sr, s8, s9, s10⟩ := serve_spec hi hP0 hQ0
    obtain ⟨b2, l, r1, r2, r3, r4, r5, r6, r7, rr, r8⟩ := ih b1 s2 (fun x hx => by
      obtain ⟨ver, k1, k2⟩ := hp x (by simp [hx])
      exact ⟨ver, k1, k2.mono s3⟩)
    refine ⟨b2, c1 :: l, ?_, r2, s3.trans r3, by rw [r4, s4], by rw [r5, s5], ?_, ?_, ?_, ?_⟩
    · unfold HBatch.serveAll
      simp only
      rw [s1]
      simp only [G.ok_bind]
      rw [r1]
      rfl
    · intro c' hc'
      rcases List.mem_cons.mp hc' with rfl | hc'
      · exact ⟨ver0, by rw [s6]; exact hQ0, (s7 _ hP0).mono r3⟩
      · exact r6 c' hc'
    · intro x hx ver hP
      rcases List.mem_cons.mp hx with rfl | hx
      · exact ⟨c1, by simp, s6, (s7 _ hP).mono r3⟩
      · obtain ⟨c', k1, k2, k3⟩ := r7 x hx ver (hP.mono s3)
        exact ⟨c', by simp [k1], k2, k3⟩
    · intro r hr
      rw [rr r hr, sr r (fun e => hr c.vrf (e ▸ hQ0))]
    · replace s8 : c1.depth = c.depth := s8
      rw [s4] at r8
      simp only [total, List.map_cons, List.sum_cons, List.countP_cons] at r8 ⊢
      have hw := wt_le (cs := cs) b2 c1
      have hpw : pw cs (c, j) = 8 * cs.hashSize + 1 - c.depth := rfl
      rw [s8] at hw
      cases hcj : (b.cache j).isSome with
      | false => simp only [Bool.false_eq_true, if_false]; omega
      | true =>
        obtain ⟨y, y1, y2⟩ := s9 hcj
        have := wt_nonext (cs := cs) (r3.keep _ _ y1 y2) y2
        rw [s8] at this
        simp only [if_true]
        omega

/-! ### loading tiles -/

theorem decode_spec {b : HBatch} (hi : HI cs st pl Q b) {id : TileId} {p : List Bool} {S : List Pair}
    (hr : Ref cs st X pl id p S) (hn : b.cache id = none) :
    ∃ b', b.decode cs st id = .ok b' ∧ HI cs st pl Q b' ∧ Le b b' ∧ b'.asked = b.asked ∧ b'.roots = b.roots ∧
      ∀ i, (b'.cache i).isSome ↔ i = id ∨ (b.cache i).isSome := by
  obtain ⟨t, m, q, a1, _⟩ := hr.get
  unfold HBatch.decode
  rw [a1]
  simp only [G.ok_bind]
  rw [if_neg (by rw [hn]; simp)]
  have hne : ∀ i, (b.cache i).isSome → i ≠ id := by
    rintro i h rfl; rw [hn] at h; cases h
  have hcm : ∀ i, (b.cache i).isSome →
      (if i = id then some (t.depth, t.root.shallow id []) else b.cache i) = b.cache i :=
    fun i h => if_neg (hne i h)
  have hrd : ∀ loc x, b.read loc = some x →
      HBatch.read { b with
        slots := fun i q => if i = id then (t.root.at q).map (Node.shallow id q) else b.slots i q
        cache := fun i => if i = id then some (t.depth, t.root.shallow id []) else b.cache i } loc = some x := by
    intro loc x h
    cases loc with
    | root _ => exact h
    | copy _ => exact h
    | slot i q' =>
      simp only [HBatch.read] at h ⊢
      rw [if_neg (hne i (hi.dom _ _ _ h))]; exact h
  refine ⟨_, rfl, ⟨?_, ?_, ?_⟩, ⟨fun loc x h _ => hrd loc x h, fun loc x h => ⟨x, hrd loc x h, Or.inl rfl⟩, ?_⟩, rfl, rfl, ?_⟩
  · intro i e he
    simp only at he
    by_cases hid : i = id
    · subst hid
      rw [if_pos rfl] at he
      exact ⟨t, a1, (Option.some.inj he).symm⟩
    · rw [if_neg hid] at he; exact hi.cache i e he
  · intro i q' x hx
    simp only at hx ⊢
    by_cases hid : i = id
    · rw [if_pos hid]; rfl
    · rw [if_neg hid] at hx ⊢; exact hi.dom _ _ _ hx
  · intro loc p' o ho
    have old : Orig cs st pl b loc p' o → ∃ x, HBatch.read { b with
        slots := fun i q => if i = id then (t.root.at q).map (Node.shallow id q) else b.slots i q
        cache := fun i => if i = id then some (t.depth, t.root.shallow id []) else b.cache i } loc = some x ∧ Cont cs st pl Q
        { b with
          slots := fun i q => if i = id then (t.root.at q).map (Node.shallow id q) else b.slots i q
          cache := fun i => if i = id then some (t.depth, t.root.shallow id []) else b.cache i } p' o x := by
      intro ho
      obtain ⟨x, k1, k2⟩ := hi.cont _ _ _ ho
      refine ⟨x, hrd _ _ k1, ?_⟩
      rcases k2 with k2 | ⟨hh, j, k2, k3, k4, k5⟩
      · exact Or.inl k2
      · exact Or.inr ⟨hh, j, k2, k3, by simp only; rw [hcm j k4]; exact k4, k5⟩
    cases ho with
    | root ver => exact old (.root ver)
    | slot i q' t' m' h1 h2 h3 =>
      by_cases hid : i = id
      · subst hid
        rw [a1] at h2
        obtain rfl := Except.ok.inj h2
        refine ⟨m'.shallow i q', ?_, Or.inl rfl⟩
        simp only [HBatch.read, if_true]
        rw [h3]; rfl
      · simp only at h1
        rw [if_neg hid] at h1
        exact old (.slot i q' t' m' h1 h2 h3)
  · intro i e he
    simp only
    rw [hcm i (by rw [he]; rfl)]; exact he
  · intro i
    simp only
    by_cases hid : i = id
    · simp [hid]
    · simp [hid]

theorem decodeAll_spec : ∀ (ids : List TileId) (b : HBatch), HI cs st pl Q b → ids.Nodup →
    (∀ id ∈ ids, b.cache id = none ∧ ∃ p S, Ref cs st X pl id p S) →
    ∃ b', HBatch.decodeAll cs st b ids = .ok b' ∧ HI cs st pl Q b' ∧ Le b b' ∧ b'.asked = b.asked ∧ b'.roots = b.roots ∧
      ∀ i, (b'.cache i).isSome ↔ i ∈ ids ∨ (b.cache i).isSome := by
  intro ids
  induction ids with
  | nil => intro b hi _ _; exact ⟨b, rfl, hi, Le.refl b, rfl, rfl, by simp⟩
  | cons id ids ih =>
    intro b hi hnd h
    obtain ⟨hn, p, S, hr⟩ := h id (by simp)
    obtain ⟨b1, e1, e2, e3, e4, er, e5⟩ := decode_spec hi hr hn
    obtain ⟨hnot, hnd'⟩ := List.nodup_cons.mp hnd
    obtain ⟨b2, f1, f2, f3, f4, fr, f5⟩ := ih b1 e2 hnd' (fun i hi' => by
      refine ⟨?_, (h i (by simp [hi'])).2⟩
      rw [← Option.not_isSome_iff_eq_none, e5 i, not_or]
      exact ⟨fun he => hnot (he ▸ hi'), by rw [(h i (by simp [hi'])).1]; simp⟩)
    refine ⟨b2, ?_, f2, e3.trans f3, by rw [f4, e4], by rw [fr, er], ?_⟩
    · unfold HBatch.decodeAll
      rw [e1]
      exact f1
    · intro i
      rw [f5, e5, List.mem_cons]
      tauto

/-- what has been requested is what is in the cache, and nothing was requested twice -/
def Log1 (b : HBatch) : Prop := b.asked.flatten.Nodup ∧ ∀ id, id ∈ b.asked.flatten ↔ (b.cache id).isSome

theorem get_spec {b : HBatch} (hi : HI cs st pl Q b) (hl : Log1 b) {ids : List TileId} (hne : ids ≠ []) (hnd : ids.Nodup)
    (hr : ∀ id ∈ ids, ∃ p S, Ref cs st X pl id p S) :
    ∃ b', b.get cs st ids = .ok b' ∧ HI cs st pl Q b' ∧ Le b b' ∧ Log1 b' ∧ b'.roots = b.roots ∧ ∃ id ∈ ids, (b'.cache id).isSome := by
  unfold HBatch.get
  by_cases h : ids.any (fun id => (b.cache id).isSome)
  · rw [if_pos h]
    obtain ⟨id, k1, k2⟩ := List.any_eq_true.mp h
    exact ⟨b, rfl, hi, Le.refl b, hl, rfl, id, k1, k2⟩
  · rw [if_neg h]
    have hnone : ∀ id ∈ ids, b.cache id = none := by
      intro id hid
      by_contra hc
      exact h (List.any_eq_true.mpr ⟨id, hid, Option.isSome_iff_ne_none.mpr hc⟩)
    have hi' : HI cs st pl Q { b with asked := b.asked ++ [ids] } := by
      refine ⟨hi.cache, hi.dom, fun loc p o ho => ?_⟩
      have ho' : Orig cs st pl b loc p o := by
        cases ho with
        | root ver => exact .root ver
        | slot id q t m h1 h2 h3 => exact .slot id q t m h1 h2 h3
      obtain ⟨x, k1, k2⟩ := hi.cont _ _ _ ho'
      refine ⟨x, ?_, k2⟩
      cases loc <;> exact k1
    obtain ⟨b', e1, e2, e3, e4, er, e5⟩ := decodeAll_spec ids _ hi' hnd (fun id hid => ⟨hnone id hid, hr id hid⟩)
    refine ⟨b', e1, e2, ⟨?_, ?_, e3.cache⟩, ⟨?_, ?_⟩, er, ?_⟩
    · intro loc x k; exact e3.keep loc x (by cases loc <;> exact k)
    · intro loc x k; exact e3.ext loc x (by cases loc <;> exact k)
    · rw [e4]
      simp only [List.flatten_append, List.flatten_cons, List.flatten_nil, List.append_nil]
      apply List.Nodup.append hl.1 hnd
      intro id k1 k2
      have := (hl.2 id).mp k1
      rw [hnone id k2] at this
      cases this
    · intro id
      rw [e4, e5]
      simp only [List.flatten_append, List.flatten_cons, List.flatten_nil, List.append_nil, List.mem_append]
      rw [hl.2]
      tauto
    · obtain ⟨id, hid⟩ := List.exists_mem_of_ne_nil ids hne
      exact ⟨id, hid, (e5 id).mpr (Or.inl hid)⟩

/-! ### the rounds -/

theorem perm_total {b : HBatch} {l l' : List Cursor} (h : l.Perm l') : total cs b l = total cs b l' :=
  (h.map _).sum_nat

theorem pw_total {b : HBatch} : ∀ (pend : List (Cursor × TileId)), (∀ x ∈ pend, ∃ h, b.read x.1.loc = some (.ext h x.2)) →
    (pend.map (pw cs)).sum = total cs b (pend.map Prod.fst) := by
  intro pend
  induction pend with
  | nil => intro _; rfl
  | cons x pend ih =>
    intro h
    have e := ih (fun x hx => h x (by simp [hx]))
    obtain ⟨hh, hx⟩ := h x (by simp)
    simp only [total, List.map_cons, List.sum_cons] at e ⊢
    rw [e]
    unfold pw wt
    rw [hx]

theorem search_spec (hc : Ctx cs st X pl) (hq : Asked cs st X Q) (ord : MapOrder) : ∀ (fuel : Nat) (b : HBatch)
    (l : List Cursor), HI cs st pl Q b → Log1 b → (∀ c ∈ l, ∃ ver, Q ver c.vrf ∧ CI b c ver) →
    (∀ ver v, Q ver v → Done b ver v ∨ ∃ c ∈ l, c.vrf = v ∧ CI b c ver) → total cs b l < fuel →
    ∃ b', HBatch.search cs st ord fuel b l = .ok b' ∧ HI cs st pl Q b' ∧ Log1 b' ∧
      (∀ r, (∀ v, ¬ Q r v) → b'.roots r = b.roots r) ∧ ∀ ver v, Q ver v → Done b' ver v := by
  intro fuel
  induction fuel with
  | zero => intro b l _ _ _ _ h; omega
  | succ f ih =>
    intro b l hi hl hci hall hf
    obtain ⟨pend, e1, e2, e3, e4⟩ := stepAll_spec hc hq hi l hci
    unfold HBatch.search
    rw [e1]
    simp only [G.ok_bind]
    by_cases hp : pend = []
    · rw [if_pos hp]
      refine ⟨b, rfl, hi, hl, fun _ _ => rfl, fun ver v hQ => ?_⟩
      rcases hall ver v hQ with h | ⟨c, k1, rfl, k3⟩
      · exact h
      · rcases e4 c k1 ver hQ k3 with h | ⟨x, hx, _⟩
        · exact h
        · rw [hp] at hx; cases hx
    · rw [if_neg hp]
      have hids : ∀ id, id ∈ ord.keys f (pend.map Prod.snd).dedup ↔ ∃ x ∈ pend, x.2 = id := by
        intro id
        rw [(ord.keys_perm f _).mem_iff, List.mem_dedup, List.mem_map]
      obtain ⟨b1, g1, g2, g3, g4, gr, id, g5, g6⟩ := get_spec (X := X) hi hl (ids := ord.keys f (pend.map Prod.snd).dedup)
        (by
          obtain ⟨x, hx⟩ := List.exists_mem_of_ne_nil pend hp
          intro h
          have := (hids x.2).mpr ⟨x, hx, rfl⟩
          rw [h] at this; cases this)
        ((ord.keys_perm f _).nodup_iff.mpr (List.nodup_dedup _))
        (by
          intro id hid
          obtain ⟨x, hx, rfl⟩ := (hids id).mp hid
          obtain ⟨⟨ver, _, p, h, S, _, _, _, _, k⟩, _⟩ := e2 x hx
          exact ⟨p, S, k⟩)
      rw [g1]
      simp only [G.ok_bind]
      have hmem : ∀ x, x ∈ ord.steps f pend ↔ x ∈ pend := fun x => (ord.steps_perm f pend).mem_iff
      obtain ⟨b2, l2, s1, s2, s3, s4, s5, s6, s7, sr, s8⟩ := serveAll_spec hq (ord.steps f pend) b1 g2 (fun x hx => by
        obtain ⟨⟨ver, k1, k2⟩, _⟩ := e2 x ((hmem x).mp hx)
        exact ⟨ver, k1, k2.mono g3⟩)
      rw [s1]
      simp only [G.ok_bind]
      have hall2 : ∀ ver v, Q ver v → Done b2 ver v ∨ ∃ c ∈ l2, c.vrf = v ∧ CI b2 c ver := by
        intro ver v hQ
        have hle := g3.trans s3
        rcases hall ver v hQ with h | ⟨c, k1, rfl, k3⟩
        · exact Or.inl (h.mono hle)
        · rcases e4 c k1 ver hQ k3 with h | ⟨x, hx, k4, k5⟩
          · exact Or.inl (h.mono hle)
          · obtain ⟨c', m1, m2, m3⟩ := s7 x ((hmem x).mpr hx) ver (k5.mono g3)
            exact Or.inr ⟨c', m1, by rw [m2, k4], m3⟩
      have hf2 : total cs b2 l2 < f := by
        have hcount : 0 < (ord.steps f pend).countP (fun x => (b1.cache x.2).isSome) := by
          obtain ⟨x, hx, rfl⟩ := (hids id).mp g5
          exact List.countP_pos_iff.mpr ⟨x, (hmem x).mpr hx, g6⟩
        have hsum : ((ord.steps f pend).map (pw cs)).sum = (pend.map (pw cs)).sum :=
          ((ord.steps_perm f pend).map _).sum_nat
        rw [hsum, pw_total (cs := cs) (b := b) pend (fun x hx => (e2 x hx).2)] at s8
        omega
      obtain ⟨b3, t1, t2, t3, t4, t5⟩ := ih b2 l2 s2 ⟨by rw [s5]; exact g4.1, by rw [s5, s4]; exact g4.2⟩ s6 hall2 hf2
      exact ⟨b3, t1, t2, t3, fun r hr => by rw [t4 r hr, sr r hr, gr], t5⟩

/-! ### the tree in memory -/

theorem Done.noExt {b : HBatch} {ver : Nat} {v : Bytes} (h : Done b ver v) {p : List Bool} {loc : Loc} {hh : Bytes} {j : TileId}
    (hp : PathAt b ver p loc) (hx : b.read loc = some (.ext hh j)) (hon : On p v) : False := by
  obtain ⟨p', loc', x, h1, h2, h3, h4⟩ := h
  rcases List.prefix_or_prefix_of_prefix hon h1 with ⟨r, rfl⟩ | ⟨r, rfl⟩
  · by_cases hr : r = []
    · subst hr
      rw [List.append_nil] at h2
      obtain rfl := hp.unique h2
      rw [hx] at h3
      obtain rfl := Option.some.inj h3
      rcases h4 with h4 | ⟨w, c, h4⟩ <;> cases h4
    · obtain ⟨loc0, id, q, k, k1, k2⟩ := h2.inner r hr
      obtain rfl := hp.unique k1
      rw [hx] at k2; cases k2
  · by_cases hr : r = []
    · subst hr
      rw [List.append_nil] at hp
      obtain rfl := hp.unique h2
      rw [hx] at h3
      obtain rfl := Option.some.inj h3
      rcases h4 with h4 | ⟨w, c, h4⟩ <;> cases h4
    · obtain ⟨loc0, id, q, k, k1, k2⟩ := hp.inner r hr
      obtain rfl := h2.unique k1
      rw [h3] at k2
      obtain rfl := Option.some.inj k2
      rcases h4 with h4 | ⟨w, c, h4⟩ <;> cases h4

theorem tree_spec (hc : Ctx cs st X pl) {b : HBatch} (hi : HI cs st pl Q b) {ver : Nat} {W : List Bytes}
    (hW : ∀ v ∈ W, Done b ver v) : ∀ (fuel : Nat) (p : List Bool) (loc : Loc) (x : HNode) (S : List Pair),
    PathAt b ver p loc → b.read loc = some x → HR cs st X pl b p x S → (x.isExt = true → p ≠ []) →
    8 * cs.hashSize ≤ fuel + p.length →
    ∃ n, b.tree fuel x = .ok n ∧ Rep cs (fun i q T => X i q T ∧ below id W q = []) (Loaded X) p n S := by
  have hext : ∀ (p : List Bool) (loc : Loc) (h : Bytes) (j : TileId) (S : List Pair), PathAt b ver p loc →
      b.read loc = some (.ext h j) → HR cs st X pl b p (.ext h j) S → p ≠ [] →
      Rep cs (fun i q T => X i q T ∧ below id W q = []) (Loaded X) p (.ext h j) S := by
    intro p loc h j S hp hx hr hne
    obtain ⟨k1, k2, k3⟩ := hr.2.resolve_left hne
    refine ⟨k1, ⟨k2, ?_⟩, k3⟩
    rw [List.eq_nil_iff_forall_not_mem]
    intro v hv
    obtain ⟨m1, m2⟩ := mem_below.mp hv
    exact (hW v m1).noExt hp hx m2
  intro fuel
  induction fuel with
  | zero =>
    intro p loc x S hp hx hr hne hf
    cases x with
    | empty => exact ⟨.empty, rfl, hr⟩
    | leaf v c => exact ⟨.leaf v c, rfl, hr⟩
    | ext h j => exact ⟨.ext h j, rfl, hext _ _ _ _ _ hp hx hr (hne rfl)⟩
    | ptr id q h =>
      obtain ⟨t1, _, t3, _⟩ := hi.child hc hr
      have := t3.lt t1
      omega
  | succ f ih =>
    intro p loc x S hp hx hr hne hf
    cases x with
    | empty => exact ⟨.empty, rfl, hr⟩
    | leaf v c => exact ⟨.leaf v c, rfl, hr⟩
    | ext h j => exact ⟨.ext h j, rfl, hext _ _ _ _ _ hp hx hr (hne rfl)⟩
    | ptr id q h =>
      obtain ⟨t1, t2, t3, t4, Sl, Sr, rfl, ht⟩ := hi.child hc hr
      obtain ⟨x, _, f1, f2, _⟩ := ht false
      obtain ⟨y, _, g1, g2, _⟩ := ht true
      obtain ⟨l, l1, l2⟩ := ih (p ++ [false]) _ x Sl (.snoc false hp hx) f1 f2 (by simp) (by simp; omega)
      obtain ⟨r, r1, r2⟩ := ih (p ++ [true]) _ y Sr (.snoc true hp hx) g1 g2 (by simp) (by simp; omega)
      refine ⟨.parent l r h (some id), ?_, Sl, Sr, rfl, l2, r2, ⟨t1, id, rfl, t2⟩, t4⟩
      unfold HBatch.tree
      rw [deref_ok (loc := .slot id (q ++ [false])) f1, deref_ok (loc := .slot id (q ++ [true])) g1]
      simp only [G.ok_bind]
      rw [l1]
      simp only [G.ok_bind]
      rw [r1]
      rfl

end Katie.Prefix
