import Verif.Lemmas.PrefixStore

/-
`Mutate` and `Search` on a store of tiles.
-/

namespace Katie.Prefix
open Katie Katie.PrefixSpec

variable {cs : Suite} {X X' : TileId → List Bool → List Pair → Prop}
  {Y Y' : Option TileId → List Bool → List Pair → Prop}

theorem size_bound (n : Node) : ∀ {p : List Bool} {S : List Pair}, Rep cs X Two p n S →
    n.size ≤ 2 * ((8 * cs.hashSize - p.length) * S.length) + 1 := by
  induction n with
  | empty => intro p S _; simp [Node.size]
  | leaf v c => intro p S _; simp [Node.size]
  | ext h i => intro p S _; simp [Node.size]
  | parent l r h i ihl ihr =>
    intro p S hrep
    have hwf := hrep.wf
    obtain ⟨Sl, Sr, rfl, h1, h2, h3, _⟩ := hrep
    have hlt := hwf.lt h3
    have a1 := ihl h1
    have a2 := ihr h2
    simp only [List.length_append, List.length_singleton] at a1 a2
    have h3' : 2 ≤ Sl.length + Sr.length := by simpa [Two] using h3
    obtain ⟨k, hk⟩ : ∃ k, 8 * cs.hashSize - p.length = k + 1 := ⟨8 * cs.hashSize - p.length - 1, by omega⟩
    have hk' : 8 * cs.hashSize - (p.length + 1) = k := by omega
    rw [hk'] at a1 a2
    rw [hk, List.length_append, Nat.add_mul, Nat.one_mul, Nat.mul_add k]
    simp only [Node.size]
    omega

theorem putTiles_spec (tiles : List Tile) : ∀ (st : Store) (raws : List Bytes),
    List.Forall₂ (fun t raw => Tile.marshal cs t = .ok raw) tiles raws →
    (tiles.map Tile.id).Nodup →
    ∃ st', putTiles cs tiles st = .ok st' ∧
      (∀ id : TileId, id ∉ tiles.map Tile.id → st'.lookup id = st.lookup id) ∧
      (∀ (c : Nat) (t : Tile) (raw : Bytes), tiles[c]? = some t → raws[c]? = some raw → st'.lookup t.id = some raw) := by
  induction tiles with
  | nil => intro st raws h _; cases h; exact ⟨st, rfl, fun _ _ => rfl, by simp⟩
  | cons t tiles ih =>
    intro st raws h hnd
    cases raws with
    | nil => cases h
    | cons raw raws =>
      rw [List.forall₂_cons] at h
      simp only [List.map_cons, List.nodup_cons] at hnd
      obtain ⟨st', e1, e2, e3⟩ := ih ((t.id, raw) :: st) raws h.2 hnd.2
      refine ⟨st', ?_, ?_, ?_⟩
      · unfold putTiles; rw [h.1]; exact e1
      · intro id hid
        simp only [List.map_cons, List.mem_cons, not_or] at hid
        rw [e2 id hid.2]
        have hb : (id == t.id) = false := by rw [beq_eq_false_iff_ne]; exact hid.1
        rw [List.lookup_cons, hb]
      · intro c u raw' hc hr
        cases c with
        | zero =>
          simp only [List.getElem?_cons_zero, Option.some.injEq] at hc hr
          subst hc; subst hr
          rw [e2 _ hnd.1]; simp
        | succ c =>
          simp only [List.getElem?_cons_succ] at hc hr
          exact e3 c u raw' hc hr

/-- The references known after writing the tiles of a new version: the old ones, and every parent inside a
new tile. -/
def XNew (cs : Suite) (X : TileId → List Bool → List Pair → Prop) (ver : Nat) (tiles : List Tile)
    (P : List Place) : TileId → List Bool → List Pair → Prop :=
  fun id q T => X id q T ∨ (id.ver = ver ∧ ∃ t pc Tc m, tiles[id.ctr]? = some t ∧
    P[id.ctr]? = some (pc, Tc) ∧ pc <+: q ∧ (t.root.decoded cs id pc.length).at (q.drop pc.length) = some m ∧
    m.isParent = true ∧ Rep cs (XG X ver P) (InTile id) q m T)

theorem holds_mono {st st' : Store} {id : TileId} {p : List Bool} {S : List Pair} (h : Holds cs st X id p S)
    (hX : ∀ i q T, X i q T → X' i q T) (hl : st'.lookup id = st.lookup id) : Holds cs st' X' id p S := by
  obtain ⟨t, n, g1, g2, g3, g4, g5⟩ := h
  refine ⟨t, n, ?_, g2, g3, g4, g5.mono hX (fun i q T _ h => ⟨h.1, h.2.1, hX _ _ _ h.2.2⟩)⟩
  unfold getTile at g1 ⊢
  rw [hl]; exact g1

/-- A stored tile decodes to a tree whose references are known; references to the same version point at the
root of a tile. -/
def TileOk (cs : Suite) (st : Store) (X : TileId → List Bool → List Pair → Prop) (id : TileId) : Prop :=
  ∃ t p T, getTile cs st id = .ok t ∧ t.depth = p.length ∧ t.root.isExt = false ∧
    Rep cs (fun i q T => X i q T ∧ (i.ver = id.ver → ∃ t', getTile cs st i = .ok t' ∧ t'.depth = q.length))
      Two p t.root T

theorem TileOk.mono {st st' : Store} {id : TileId} (h : TileOk cs st X id) (hX : ∀ i q T, X i q T → X' i q T)
    (hl : ∀ i : TileId, i.ver = id.ver → st'.lookup i = st.lookup i) : TileOk cs st' X' id := by
  obtain ⟨t, p, T, h1, h2, h3, h4⟩ := h
  refine ⟨t, p, T, ?_, h2, h3, h4.mono ?_ (fun _ _ _ _ h => h)⟩
  · unfold getTile at h1 ⊢; rw [hl _ rfl]; exact h1
  · rintro i q T ⟨a1, a2⟩
    refine ⟨hX _ _ _ a1, fun hi => ?_⟩
    obtain ⟨t', b1, b2⟩ := a2 hi
    refine ⟨t', ?_, b2⟩
    unfold getTile at b1 ⊢; rw [hl _ hi]; exact b1

/-- Writing the tiles of a tree makes it available under the new version, and keeps everything else. -/
theorem write_spec (hcs : cs.Good) (hsm : Small cs) {st : Store} {ver : Nat} (hc : Closed cs st ver X)
    (hver : ver + 1 < 2 ^ 64) (root : Node) (S : List Pair) (hrep : Rep cs X Two [] root S)
    (hne : root.isExt = false) (hS : S.length < 2 ^ 54) :
    ∃ tiles st' X', splitIntoTiles cs (ver + 1) root = .ok tiles ∧ putTiles cs tiles st = .ok st' ∧
      Closed cs st' (ver + 1) X' ∧ (∀ i q T, X i q T → X' i q T) ∧
      Holds cs st' X' ⟨ver + 1, 0⟩ [] S ∧
      (∀ id : TileId, id.ver ≠ ver + 1 → st'.lookup id = st.lookup id) ∧
      0 < tiles.length ∧ (∀ c, c < tiles.length → TileOk cs st' X' ⟨ver + 1, c⟩) ∧
      (∀ c, tiles.length ≤ c → st'.lookup ⟨ver + 1, c⟩ = st.lookup ⟨ver + 1, c⟩) := by
  obtain ⟨tiles, P, h1, h2, h3, h4, h5⟩ := splitIntoTiles_spec hsm (ver + 1) root S hrep hne
  have hbound : tiles.length < 2 ^ 64 := by
    have hb := size_bound root hrep
    simp only [List.length_nil, Nat.sub_zero] at hb
    unfold Small at hsm
    have : 8 * cs.hashSize * S.length ≤ 256 * S.length := Nat.mul_le_mul_right _ (by omega)
    omega
  have hids : ∀ (c : Nat) (t : Tile), tiles[c]? = some t → t.id = ⟨ver + 1, c⟩ := fun c t h => by
    obtain ⟨_, _, _, m2, _⟩ := h4 c t h; exact m2
  have hEnc : ∀ j q T, XG X (ver + 1) P j q T → Encodable j := by
    rintro j q T (h | ⟨a1, a2, _⟩)
    · exact hc.enc _ _ _ h
    · refine ⟨by omega, ?_⟩
      have : j.ctr < P.length := by
        by_contra hcc; rw [List.getElem?_eq_none (by omega)] at a2; cases a2
      omega
  have hdepth : ∀ (c : Nat) (t : Tile), tiles[c]? = some t → t.depth ≤ 255 := by
    intro c t h
    obtain ⟨q, T, m1, m2, m3, m4, m5, m6⟩ := h4 c t h
    by_cases hc0 : c = 0
    · subst hc0
      rw [h3] at m1
      have := Option.some.inj m1
      have hq : q = [] := (Prod.mk.inj this).1.symm
      rw [m3, hq]; simp
    · have hp := m5 (by omega)
      have hwf := m6.wf
      cases hr : t.root with
      | parent l r hh i =>
        rw [hr] at m6
        obtain ⟨Sl, Sr, rfl, _, _, h3', _⟩ := m6
        have := hwf.lt h3'
        unfold Small at hsm
        omega
      | empty => rw [hr] at hp; cases hp
      | leaf v c => rw [hr] at hp; cases hp
      | ext hh i => rw [hr] at hp; cases hp
  -- the written bytes
  have hraws : ∃ raws, List.Forall₂ (fun t raw => Tile.marshal cs t = .ok raw) tiles raws ∧
      ∀ (c : Nat) (t : Tile) (raw : Bytes), tiles[c]? = some t → raws[c]? = some raw →
        unmarshalTile cs t.id raw = .ok ⟨t.id, t.depth, t.root.decoded cs t.id t.depth⟩ := by
    have key : ∀ l : List Tile, (∀ t ∈ l, ∃ raw, t.marshal cs = .ok raw ∧
        unmarshalTile cs t.id raw = .ok ⟨t.id, t.depth, t.root.decoded cs t.id t.depth⟩) →
        ∃ raws, List.Forall₂ (fun t raw => Tile.marshal cs t = .ok raw) l raws ∧
          ∀ (c : Nat) (t : Tile) (raw : Bytes), l[c]? = some t → raws[c]? = some raw →
            unmarshalTile cs t.id raw = .ok ⟨t.id, t.depth, t.root.decoded cs t.id t.depth⟩ := by
      intro l
      induction l with
      | nil => intro _; exact ⟨[], List.Forall₂.nil, by simp⟩
      | cons t l ih =>
        intro h
        obtain ⟨raw, r1, r2⟩ := h t (by simp)
        obtain ⟨raws, s1, s2⟩ := ih (fun x hx => h x (by simp [hx]))
        refine ⟨raw :: raws, List.Forall₂.cons r1 s1, ?_⟩
        intro c u raw' hcu hcr
        cases c with
        | zero =>
          simp only [List.getElem?_cons_zero, Option.some.injEq] at hcu hcr
          subst hcu; subst hcr; exact r2
        | succ c =>
          simp only [List.getElem?_cons_succ] at hcu hcr
          exact s2 c u raw' hcu hcr
    apply key
    intro t ht
    obtain ⟨c, hct⟩ := List.mem_iff_getElem?.mp ht
    obtain ⟨q, T, m1, m2, m3, m4, m5, m6⟩ := h4 c t hct
    exact unmarshalTile_marshal hcs hEnc t q T m6 m3 (hdepth c t hct) t.id
  obtain ⟨raws, r1, r2⟩ := hraws
  have hnd : (tiles.map Tile.id).Nodup := by
    rw [List.nodup_iff_injective_getElem]
    rintro ⟨a, ha⟩ ⟨b, hb⟩ hab
    simp only [List.getElem_map] at hab
    have ha' : a < tiles.length := by simpa using ha
    have hb' : b < tiles.length := by simpa using hb
    rw [hids a _ (List.getElem?_eq_getElem ha'), hids b _ (List.getElem?_eq_getElem hb')] at hab
    simpa using hab
  obtain ⟨st', p1, p2, p3⟩ := putTiles_spec tiles st raws r1 hnd
  have hget : ∀ (c : Nat) (t : Tile), tiles[c]? = some t →
      getTile cs st' ⟨ver + 1, c⟩ = .ok ⟨t.id, t.depth, t.root.decoded cs t.id t.depth⟩ := by
    intro c t hct
    have hlt : c < raws.length := by
      rw [← r1.length_eq]
      by_contra hcc; rw [List.getElem?_eq_none (by omega)] at hct; cases hct
    have := p3 c t raws[c] hct (List.getElem?_eq_getElem hlt)
    rw [hids c t hct] at this
    unfold getTile
    rw [this]
    have h := r2 c t raws[c] hct (List.getElem?_eq_getElem hlt)
    rw [hids c t hct] at h ⊢
    exact h
  have hkeep : ∀ id : TileId, id.ver ≠ ver + 1 → st'.lookup id = st.lookup id := by
    intro id hid
    apply p2
    intro hmem
    obtain ⟨t, ht, rfl⟩ := List.mem_map.mp hmem
    obtain ⟨c, hct⟩ := List.mem_iff_getElem?.mp ht
    rw [hids c t hct] at hid
    exact hid rfl
  -- references to tile roots are references to parents inside tiles
  have hXX : ∀ i q T, XG X (ver + 1) P i q T → XNew cs X (ver + 1) tiles P i q T := by
    rintro i q T (h | ⟨a1, a2, a3⟩)
    · exact Or.inl h
    · right
      have hlt : i.ctr < tiles.length := by
        rw [← h2]
        by_contra hcc; rw [List.getElem?_eq_none (by omega)] at a2; cases a2
      have hct := List.getElem?_eq_getElem hlt
      obtain ⟨q', T', m1, m2, m3, m4, m5, m6⟩ := h4 i.ctr _ hct
      rw [a2] at m1
      obtain ⟨rfl, rfl⟩ := Prod.mk.inj (Option.some.inj m1)
      refine ⟨a1, _, q, T, _, hct, a2, List.prefix_refl _, by simp [Node.at_nil], ?_, m6.decoded _⟩
      rw [decoded_isParent]; exact m5 a3
  have hin : ∀ (c : Nat) (t : Tile) (pc : List Bool) (Tc : List Pair) (q : List Bool) (m : Node) (T : List Pair), tiles[c]? = some t → P[c]? = some (pc, Tc) → pc <+: q →
      (t.root.decoded cs ⟨ver + 1, c⟩ pc.length).at (q.drop pc.length) = some m →
      m.isExt = false →
      Rep cs (XG X (ver + 1) P) (InTile ⟨ver + 1, c⟩) q m T →
      Holds cs st' (XNew cs X (ver + 1) tiles P) ⟨ver + 1, c⟩ q T := by
    intro c t pc Tc q m T hct hPc hpre hat hext hr
    obtain ⟨q', T', m1, m2, m3, m4, m5, m6⟩ := h4 c t hct
    rw [hPc] at m1
    obtain ⟨rfl, rfl⟩ := Prod.mk.inj (Option.some.inj m1)
    refine ⟨_, m, hget c t hct, ?_, ?_, hext, ?_⟩
    · simp only; rw [m3]; exact hpre.length_le
    · simp only; rw [m2, m3]; exact hat
    · refine hr.self.mono hXX ?_
      rintro i q2 T2 hq2 ⟨⟨b1, b2⟩, m', b3, b4, b5, b6⟩
      refine ⟨b1, b2, Or.inr ⟨rfl, t, pc, Tc, m', hct, hPc, hpre.trans hq2, ?_, b4, b6⟩⟩
      obtain ⟨s1, rfl⟩ := hpre
      obtain ⟨s2, rfl⟩ := hq2
      rw [List.drop_left' rfl] at b3 hat
      rw [List.append_assoc, List.drop_left' rfl, Node.at_append, hat]
      exact b3
  have hpos : 0 < tiles.length := by
    rw [← h2]
    by_contra hcc; rw [List.getElem?_eq_none (by omega)] at h3; cases h3
  refine ⟨tiles, st', XNew cs X (ver + 1) tiles P, h1, p1, ?_, fun i q T h => Or.inl h, ?_, hkeep,
    hpos, ?_, ?_⟩
  · refine ⟨?_, ?_, ?_, ?_, ?_⟩
    · rintro id q T (h | ⟨a1, t, pc, Tc, m, a2, a3, a4, a5, a6, a7⟩)
      · exact holds_mono (hc.holds _ _ _ h) (fun i q T h => Or.inl h)
          (hkeep _ (by have := hc.ver _ _ _ h; omega))
      · have he : id = ⟨ver + 1, id.ctr⟩ := by rw [← a1]
        rw [he] at a5 a7 ⊢
        exact hin id.ctr t pc Tc q m T a2 a3 a4 a5
          (by
            cases m with
            | ext _ _ => cases a6
            | _ => rfl) a7
    · rintro id q T (h | ⟨a1, t, pc, Tc, m, a2, a3, a4, a5, a6, a7⟩)
      · exact hc.two _ _ _ h
      · cases m with
        | parent l r hh i => obtain ⟨Sl, Sr, rfl, _, _, h3', _⟩ := a7; exact h3'.2
        | empty => cases a6
        | leaf v c => cases a6
        | ext hh i => cases a6
    · rintro id q T (h | ⟨a1, t, pc, Tc, m, a2, a3, a4, a5, a6, a7⟩)
      · exact hc.enc _ _ _ h
      · refine ⟨by omega, ?_⟩
        have : id.ctr < tiles.length := by
          by_contra hcc; rw [List.getElem?_eq_none (by omega)] at a2; cases a2
        omega
    · rintro id q T (h | ⟨a1, _⟩)
      · have := hc.ver _ _ _ h; omega
      · omega
    · obtain ⟨pl, hpl0, hpl⟩ := hc.place
      refine ⟨fun id => if id.ver = ver + 1 then (P[id.ctr]?.map Prod.fst).getD [] else pl id, ?_, ?_⟩
      · intro id hid
        simp only
        by_cases hv : id.ver = ver + 1
        · rw [if_pos hv, hid, h3]; rfl
        · rw [if_neg hv]; exact hpl0 id hid
      · rintro id q T (h | ⟨a1, t, pc, Tc, m, a2, a3, a4, a5, a6, a7⟩)
        · have hv := hc.ver _ _ _ h
          simp only
          rw [if_neg (by omega)]
          obtain ⟨k1, k2⟩ := hpl _ _ _ h
          refine ⟨k1, fun t ht => k2 t ?_⟩
          unfold getTile at ht ⊢
          rw [hkeep _ (by omega)] at ht
          exact ht
        · simp only
          rw [if_pos a1, a3]
          refine ⟨a4, fun t' ht' => ?_⟩
          have he : id = ⟨ver + 1, id.ctr⟩ := by rw [← a1]
          rw [he, hget id.ctr t a2] at ht'
          obtain rfl := Except.ok.inj ht'
          obtain ⟨q', T', m1, m2, m3, m4, m5, m6⟩ := h4 id.ctr t a2
          rw [a3] at m1
          obtain ⟨rfl, rfl⟩ := Prod.mk.inj (Option.some.inj m1)
          exact m3
  · have hct := List.getElem?_eq_getElem hpos
    obtain ⟨q', T', m1, m2, m3, m4, m5, m6⟩ := h4 0 _ hct
    rw [h3] at m1
    obtain ⟨rfl, rfl⟩ := Prod.mk.inj (Option.some.inj m1)
    exact hin 0 _ [] S [] _ S hct h3 (List.prefix_refl _) (by simp [Node.at_nil])
      (by rw [decoded_isExt]; exact m4) (m6.decoded _)
  · intro c hlt
    have hct := List.getElem?_eq_getElem hlt
    obtain ⟨q, T, m1, m2, m3, m4, m5, m6⟩ := h4 c _ hct
    refine ⟨_, q, T, hget c _ hct, m3, by simp only; rw [decoded_isExt]; exact m4, ?_⟩
    simp only [m3]
    refine (m6.decoded _).mono ?_ (fun _ _ _ _ h => h.2)
    rintro i q' T' hx
    refine ⟨hXX _ _ _ hx, fun hi => ?_⟩
    rcases hx with hx | ⟨a1, a2, a3⟩
    · have := hc.ver _ _ _ hx
      omega
    · have hlt' : i.ctr < tiles.length := by
        rw [← h2]
        by_contra hcc; rw [List.getElem?_eq_none (by omega)] at a2; cases a2
      have hct' := List.getElem?_eq_getElem hlt'
      obtain ⟨q2, T2, n1, n2, n3, n4, n5, n6⟩ := h4 i.ctr _ hct'
      rw [a2] at n1
      obtain ⟨rfl, rfl⟩ := Prod.mk.inj (Option.some.inj n1)
      have he : i = ⟨ver + 1, i.ctr⟩ := by rw [← a1]
      have hg := hget i.ctr _ hct'
      rw [← he] at hg
      exact ⟨_, hg, n3⟩
  · intro c hle
    apply p2
    intro hmem
    obtain ⟨t, ht, hid⟩ := List.mem_map.mp hmem
    obtain ⟨c', hct⟩ := List.mem_iff_getElem?.mp ht
    rw [hids c' t hct] at hid
    have : c' = c := by simpa using hid
    subst this
    rw [List.getElem?_eq_none hle] at hct; cases hct

end Katie.Prefix
