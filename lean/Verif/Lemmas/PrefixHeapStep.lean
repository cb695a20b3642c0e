import Verif.Lemmas.PrefixHeap

/-
One round of a batch search.
-/

namespace Katie.Prefix
open Katie Katie.PrefixSpec

variable {cs : Suite} {st : Store} {X : TileId → List Bool → List Pair → Prop} {pl : TileId → List Bool}
  {Q : Nat → Bytes → Prop}

/-- The memory may change from `b` to `b'`: only references are replaced. -/
structure Le (b b' : HBatch) : Prop where
  keep : ∀ loc x, b.read loc = some x → x.isExt = false → b'.read loc = some x
  ext : ∀ loc x, b.read loc = some x → ∃ y, b'.read loc = some y ∧ (y = x ∨ y.isExt = false)
  cache : ∀ id e, b.cache id = some e → b'.cache id = some e

theorem Le.refl (b : HBatch) : Le b b := ⟨fun _ _ h _ => h, fun _ x h => ⟨x, h, Or.inl rfl⟩, fun _ _ h => h⟩

theorem Le.trans {a b c : HBatch} (h : Le a b) (h' : Le b c) : Le a c := by
  refine ⟨fun loc x e1 e2 => h'.keep _ _ (h.keep _ _ e1 e2) e2, fun loc x e => ?_, fun id e k => h'.cache _ _ (h.cache _ _ k)⟩
  obtain ⟨y, k1, k2⟩ := h.ext _ _ e
  rcases k2 with rfl | k2
  · exact h'.ext _ _ k1
  · exact ⟨y, h'.keep _ _ k1 k2, Or.inr k2⟩

theorem Le.cached {b b' : HBatch} (h : Le b b') {id : TileId} (hc : (b.cache id).isSome) : (b'.cache id).isSome := by
  obtain ⟨e, he⟩ := Option.isSome_iff_exists.mp hc
  rw [h.cache _ _ he]; rfl

theorem PathAt.mono {b b' : HBatch} (hle : Le b b') {ver : Nat} {p : List Bool} {loc : Loc} (h : PathAt b ver p loc) :
    PathAt b' ver p loc := by
  induction h with
  | nil => exact .nil
  | snoc bit h1 h2 ih => exact .snoc bit ih (hle.keep _ _ h2 rfl)

theorem Orig.mono {b b' : HBatch} (hle : Le b b') {loc : Loc} {p : List Bool} {o : HNode}
    (h : Orig cs st pl b loc p o) : Orig cs st pl b' loc p o := by
  cases h with
  | root ver => exact .root ver
  | slot id q t m h1 h2 h3 => exact .slot id q t m (hle.cached h1) h2 h3

/-- the search for `v` in version `ver` has ended -/
def Done (b : HBatch) (ver : Nat) (v : Bytes) : Prop :=
  ∃ p loc x, On p v ∧ PathAt b ver p loc ∧ b.read loc = some x ∧ (x = .empty ∨ ∃ w c, x = .leaf w c)

theorem Done.mono {b b' : HBatch} (hle : Le b b') {ver : Nat} {v : Bytes} (h : Done b ver v) : Done b' ver v := by
  obtain ⟨p, loc, x, h1, h2, h3, h4⟩ := h
  refine ⟨p, loc, x, h1, h2.mono hle, hle.keep _ _ h3 ?_, h4⟩
  rcases h4 with rfl | ⟨w, c, rfl⟩ <;> rfl

/-- a cursor before it steps -/
def CI (b : HBatch) (c : Cursor) (ver : Nat) : Prop :=
  ∃ p loc x, On p c.vrf ∧ p.length = c.depth ∧ PathAt b ver p loc ∧ b.read loc = some x ∧ b.read c.loc = some x ∧
    (x.isExt = true → c.loc = loc)

theorem CI.mono {b b' : HBatch} (hle : Le b b') {c : Cursor} {ver : Nat} (h : CI b c ver) : CI b' c ver := by
  obtain ⟨p, loc, x, h1, h2, h3, h4, h5, h6⟩ := h
  cases hx : x.isExt with
  | false => exact ⟨p, loc, x, h1, h2, h3.mono hle, hle.keep _ _ h4 hx, hle.keep _ _ h5 hx, by simp [hx]⟩
  | true =>
    obtain ⟨y, k1, k2⟩ := hle.ext _ _ h4
    have := h6 hx
    exact ⟨p, loc, y, h1, h2, h3.mono hle, k1, by rw [this]; exact k1, fun _ => this⟩

/-- a cursor that waits for the tile `j` -/
def PI (cs : Suite) (st : Store) (X : TileId → List Bool → List Pair → Prop) (pl : TileId → List Bool) (b : HBatch)
    (c : Cursor) (j : TileId) (ver : Nat) : Prop :=
  ∃ p h S, On p c.vrf ∧ p.length = c.depth ∧ PathAt b ver p c.loc ∧ Orig cs st pl b c.loc p (.ext h j) ∧
    Ref cs st X pl j p S

theorem PI.mono {b b' : HBatch} (hle : Le b b') {c : Cursor} {j : TileId} {ver : Nat} (h : PI cs st X pl b c j ver) :
    PI cs st X pl b' c j ver := by
  obtain ⟨p, hh, S, h1, h2, h3, h4, h5⟩ := h
  exact ⟨p, hh, S, h1, h2, h3.mono hle, h4.mono hle, h5⟩

theorem deref_ok {b : HBatch} {loc : Loc} {x : HNode} (h : b.read loc = some x) : b.deref loc = .ok x := by
  unfold HBatch.deref; rw [h]; rfl

theorem step_spec (hc : Ctx cs st X pl) {b : HBatch} (hi : HI cs st pl Q b) {ver : Nat} {S0 : List Pair}
    (h0 : Holds cs st X ⟨ver, 0⟩ [] S0) {v : Bytes} (hv : v.length = cs.hashSize) : ∀ (fuel : Nat) (p : List Bool)
    (loc0 loc : Loc) (x : HNode), On p v → PathAt b ver p loc0 → b.read loc0 = some x → b.read loc = some x →
    (x.isExt = true → loc = loc0) → 8 * cs.hashSize + 1 ≤ fuel + p.length →
    (b.step v fuel p.length loc = .ok none ∧ Done b ver v) ∨
    ∃ j d loc', b.step v fuel p.length loc = .ok (some (j, d, loc')) ∧ PI cs st X pl b ⟨v, d, loc'⟩ j ver ∧
      p.length ≤ d ∧ (x.isExt = false → p.length < d) ∧ ∃ h, b.read loc' = some (.ext h j) := by
  intro fuel
  induction fuel with
  | zero => intro p loc0 loc x hon _ _ _ _ hf; have := hon.length_le; omega
  | succ f ih =>
    intro p loc0 loc x hon hp e1 e2 e3 hf
    obtain ⟨x', S, o, k1, k2, k3, k4⟩ := hi.path hc h0 hp
    rw [e1] at k1
    obtain rfl := Option.some.inj k1
    unfold HBatch.step
    rw [deref_ok e2]
    simp only [G.ok_bind]
    cases x with
    | empty => exact Or.inl ⟨rfl, p, loc0, _, hon, hp, e1, Or.inl rfl⟩
    | leaf w c => exact Or.inl ⟨rfl, p, loc0, _, hon, hp, e1, Or.inr ⟨w, c, rfl⟩⟩
    | ext h j =>
      right
      obtain rfl := e3 rfl
      have ho : o = .ext h j := by
        rcases k4 with k4 | k4
        · exact k4.symm
        · cases k4
      rw [ho] at k3
      exact ⟨j, p.length, loc, rfl, ⟨p, h, S, hon, rfl, hp, k3, k2.1⟩, le_refl _, (fun hx => by cases hx), h, e1⟩
    | ptr id q h =>
      obtain ⟨t1, t2, t3, _, Sl, Sr, rfl, ht⟩ := hi.child hc k2
      have hlt := t3.lt t1
      simp only
      rw [getBit_eq v p.length (by rw [hv]; exact hlt)]
      simp only [G.ok_bind]
      obtain ⟨y, _, f1, _, _, _⟩ := ht (bitAt v p.length)
      have := ih (p ++ [bitAt v p.length]) _ (.slot id (q ++ [bitAt v p.length])) y
        (hon.step (by rw [hv]; exact hlt)) (.snoc _ hp e1) f1 f1 (fun _ => rfl) (by simp; omega)
      rw [List.length_append, List.length_singleton] at this
      rcases this with this | ⟨j, d, loc', g1, g2, g3, g4, g5⟩
      · exact Or.inl this
      · exact Or.inr ⟨j, d, loc', g1, g2, by omega, fun _ => by omega, g5⟩

/-- how much work is left for a cursor -/
def wt (cs : Suite) (b : HBatch) (c : Cursor) : Nat :=
  match b.read c.loc with
  | some (.ext _ _) => 8 * cs.hashSize + 1 - c.depth
  | _ => 8 * cs.hashSize - c.depth

theorem wt_mono {b b' : HBatch} (hle : Le b b') {c : Cursor} {x : HNode} (hx : b.read c.loc = some x) :
    wt cs b' c ≤ wt cs b c := by
  obtain ⟨y, k1, k2⟩ := hle.ext _ _ hx
  unfold wt
  rw [hx, k1]
  rcases k2 with rfl | k2
  · exact le_refl _
  · have : (match some y with
      | some (.ext _ _) => 8 * cs.hashSize + 1 - c.depth
      | _ => 8 * cs.hashSize - c.depth) = 8 * cs.hashSize - c.depth := by
      cases y <;> first | rfl | cases k2
    rw [this]
    cases x <;> simp only <;> omega

def total (cs : Suite) (b : HBatch) (l : List Cursor) : Nat := (l.map (wt cs b)).sum

/-- the requests -/
structure Asked (cs : Suite) (st : Store) (X : TileId → List Bool → List Pair → Prop) (Q : Nat → Bytes → Prop) : Prop where
  len : ∀ ver v, Q ver v → v.length = cs.hashSize
  root : ∀ ver v, Q ver v → ∃ S, Holds cs st X ⟨ver, 0⟩ [] S

theorem stepAll_spec (hc : Ctx cs st X pl) (hq : Asked cs st X Q) {b : HBatch} (hi : HI cs st pl Q b) :
    ∀ l : List Cursor, (∀ c ∈ l, ∃ ver, Q ver c.vrf ∧ CI b c ver) →
    ∃ pend, b.stepAll l = .ok pend ∧
      (∀ x ∈ pend, (∃ ver, Q ver x.1.vrf ∧ PI cs st X pl b x.1 x.2 ver) ∧ ∃ h, b.read x.1.loc = some (.ext h x.2)) ∧
      total cs b (pend.map Prod.fst) ≤ total cs b l ∧
      ∀ c ∈ l, ∀ ver, Q ver c.vrf → CI b c ver → Done b ver c.vrf ∨
        ∃ x ∈ pend, x.1.vrf = c.vrf ∧ PI cs st X pl b x.1 x.2 ver := by
  intro l
  induction l with
  | nil => intro _; exact ⟨[], rfl, by simp, by simp [total], by simp⟩
  | cons c l ih =>
    intro hl
    obtain ⟨pend, e1, e2, e3, e4⟩ := ih (fun c hc => hl c (by simp [hc]))
    have key : ∀ ver, Q ver c.vrf → CI b c ver →
        (b.step c.vrf (8 * c.vrf.length + 1) c.depth c.loc = .ok none ∧ Done b ver c.vrf) ∨
        ∃ j d loc', b.step c.vrf (8 * c.vrf.length + 1) c.depth c.loc = .ok (some (j, d, loc')) ∧
          PI cs st X pl b ⟨c.vrf, d, loc'⟩ j ver ∧ wt cs b ⟨c.vrf, d, loc'⟩ ≤ wt cs b c ∧
          ∃ h, b.read loc' = some (.ext h j) := by
      rintro ver hQ ⟨p, loc, x, h1, h2, h3, h4, h5, h6⟩
      obtain ⟨S0, hS0⟩ := hq.root _ _ hQ
      have := step_spec hc hi hS0 (hq.len _ _ hQ) (8 * c.vrf.length + 1) p loc c.loc x h1 h3 h4 h5 h6
        (by rw [hq.len _ _ hQ]; omega)
      rw [h2] at this
      rcases this with this | ⟨j, d, loc', g1, g2, g3, g4, h, g5⟩
      · exact Or.inl this
      · refine Or.inr ⟨j, d, loc', g1, g2, ?_, h, g5⟩
        have := h1.length_le
        rw [hq.len _ _ hQ, h2] at this
        unfold wt
        simp only [g5, h5]
        cases x with
        | ext _ _ => simp only; omega
        | empty => have := g4 rfl; simp only; omega
        | leaf _ _ => have := g4 rfl; simp only; omega
        | ptr _ _ _ => have := g4 rfl; simp only; omega
    obtain ⟨ver0, hQ0, hCI0⟩ := hl c (by simp)
    rcases key ver0 hQ0 hCI0 with ⟨g1, g2⟩ | ⟨j, d, loc', g1, g2, g3, h, g4⟩
    · refine ⟨pend, ?_, e2, ?_, ?_⟩
      · unfold HBatch.stepAll; rw [g1, e1]; rfl
      · simp only [total, List.map_cons, List.sum_cons] at e3 ⊢; omega
      · intro c' hc' ver hQ hCI
        rcases List.mem_cons.mp hc' with rfl | hc'
        · rcases key ver hQ hCI with ⟨_, k⟩ | ⟨j, d, loc', k, _⟩
          · exact Or.inl k
          · rw [g1] at k; cases k
        · exact e4 c' hc' ver hQ hCI
    · refine ⟨(⟨c.vrf, d, loc'⟩, j) :: pend, ?_, ?_, ?_, ?_⟩
      · unfold HBatch.stepAll; rw [g1, e1]; rfl
      · intro x hx
        rcases List.mem_cons.mp hx with rfl | hx
        · exact ⟨⟨ver0, hQ0, g2⟩, h, g4⟩
        · exact e2 x hx
      · simp only [total, List.map_cons, List.sum_cons] at e3 ⊢; omega
      · intro c' hc' ver hQ hCI
        rcases List.mem_cons.mp hc' with rfl | hc'
        · rcases key ver hQ hCI with ⟨k, _⟩ | ⟨j', d', l', k, k2, _⟩
          · rw [g1] at k; cases k
          · rw [g1] at k; cases k
            exact Or.inr ⟨(⟨c'.vrf, d, loc'⟩, j), by simp, rfl, k2⟩
        · rcases e4 c' hc' ver hQ hCI with k | ⟨x, k1, k2, k3⟩
          · exact Or.inl k
          · exact Or.inr ⟨x, by simp [k1], k2, k3⟩

/-! ### serving a cursor -/

theorem at_prefix_parent {n m : Node} : ∀ (r : List Bool) {bit : Bool} {s : List Bool},
    n.at (r ++ bit :: s) = some m → ∃ l r' h i, n.at r = some (.parent l r' h i) := by
  intro r bit s h
  rw [Node.at_append] at h
  cases hr : n.at r with
  | none => rw [hr] at h; cases h
  | some k =>
    rw [hr] at h
    cases k with
    | parent l r' hh i => exact ⟨l, r', hh, i, rfl⟩
    | empty => simp [Node.at] at h
    | leaf _ _ => simp [Node.at] at h
    | ext _ _ => simp [Node.at] at h

/-- down inside a decoded tile -/
theorem walk_spec {b : HBatch} (hi : HI cs st pl Q b) {j : TileId} (hj : (b.cache j).isSome) {t : Tile}
    (ht : getTile cs st j = .ok t) {v : Bytes} {m : Node} : ∀ (s r : List Bool) (loc : Loc), On (pl j ++ (r ++ s)) v →
    t.root.at (r ++ s) = some m → m.isExt = false →
    (∀ n, t.root.at r = some n → n.isExt = false → b.read loc = some (n.shallow j r)) →
    ∃ loc', b.walk v s.length loc ((pl j).length + r.length) = .ok loc' ∧ b.read loc' = some (m.shallow j (r ++ s)) := by
  intro s
  induction s with
  | nil =>
    intro r loc _ hm hx hread
    rw [List.append_nil] at hm ⊢
    exact ⟨loc, rfl, hread m hm hx⟩
  | cons bit s ih =>
    intro r loc hon hm hx hread
    obtain ⟨l, r', h, i, hp⟩ := at_prefix_parent r hm
    have hrd := hread _ hp rfl
    have hon' : On (pl j ++ r ++ [bit]) v := by
      refine List.IsPrefix.trans ?_ hon
      rw [List.append_assoc]
      apply (List.prefix_append_right_inj _).mpr
      exact (List.prefix_append_right_inj _).mpr ⟨s, rfl⟩
    have hb := on_snoc.mp hon'
    rw [List.length_append] at hb
    rw [List.length_cons]
    unfold HBatch.walk
    rw [deref_ok hrd]
    simp only [G.ok_bind, Node.shallow]
    rw [getBit_eq v _ hb.2.1, hb.2.2]
    simp only [G.ok_bind]
    have e : r ++ bit :: s = (r ++ [bit]) ++ s := by simp
    rw [e] at hon hm ⊢
    have := ih (r ++ [bit]) (.slot j (r ++ [bit])) hon hm hx (by
      intro n hn hne
      obtain ⟨x, e1, e2⟩ := hi.cont _ _ _ (.slot j (r ++ [bit]) t n hj ht hn)
      rcases e2 with rfl | ⟨hh, k, e2, _⟩
      · exact e1
      · cases n with
        | ext _ _ => cases hne
        | empty => cases e2
        | leaf _ _ => cases e2
        | parent _ _ _ _ => cases e2)
    rw [List.length_append, List.length_singleton, ← Nat.add_assoc] at this
    exact this

/-- writing what a reference refers to -/
theorem write_spec' {b : HBatch} (hi : HI cs st pl Q b) {loc : Loc} {p : List Bool} {h : Bytes} {j : TileId} {x : HNode}
    (ho : Orig cs st pl b loc p (.ext h j)) (hv : Val cs st pl j p x) (hx : x.isExt = false) (hj : (b.cache j).isSome)
    (hhit : Hit Q p) :
    HI cs st pl Q (b.write loc x) ∧ Le b (b.write loc x) ∧ (b.write loc x).read loc = some x ∧
      (b.write loc x).cache = b.cache ∧ (b.write loc x).asked = b.asked := by
  have hcache : (b.write loc x).cache = b.cache := by cases loc <;> rfl
  have hasked : (b.write loc x).asked = b.asked := by cases loc <;> rfl
  have hself : (b.write loc x).read loc = some x := by
    generalize HNode.ext h j = oo at ho
    cases ho with
    | root ver => simp [HBatch.write, HBatch.read]
    | slot id q t m _ _ _ => simp [HBatch.write, HBatch.read]
  have hother : ∀ loc', loc' ≠ loc → (b.write loc x).read loc' = b.read loc' := by
    intro loc' hne
    cases loc with
    | copy n => rfl
    | root ver =>
      cases loc' with
      | root ver' =>
        simp only [HBatch.write, HBatch.read]
        rw [if_neg (by rintro rfl; exact hne rfl)]
      | slot _ _ => rfl
      | copy _ => rfl
    | slot id q =>
      cases loc' with
      | slot id' q' =>
        simp only [HBatch.write, HBatch.read]
        rw [if_neg (by rintro ⟨rfl, rfl⟩; exact hne rfl)]
      | root _ => rfl
      | copy _ => rfl
  obtain ⟨y, hy1, hy2⟩ := hi.cont _ _ _ ho
  refine ⟨⟨?_, ?_, ?_⟩, ⟨?_, ?_, ?_⟩, hself, hcache, hasked⟩
  · rw [hcache]; exact hi.cache
  · rw [hcache]
    intro id q z hz
    by_cases he : Loc.slot id q = loc
    · subst he
      exact hi.dom id q y hy1
    · have := hother _ he
      simp only [HBatch.read] at this
      rw [this] at hz
      exact hi.dom id q z hz
  · intro loc' p' o' ho'
    have ho'' : Orig cs st pl b loc' p' o' := by
      cases ho' with
      | root ver => exact .root ver
      | slot id q t m h1 h2 h3 => exact .slot id q t m (by rw [← hcache]; exact h1) h2 h3
    by_cases he : loc' = loc
    · subst he
      refine ⟨x, hself, Or.inr ?_⟩
      have : p' = p ∧ o' = .ext h j := by
        generalize hoe : HNode.ext h j = oo at ho
        cases ho'' with
        | root ver => cases ho; exact ⟨rfl, rfl⟩
        | slot id q t m h1 h2 h3 =>
          cases ho with
          | slot _ _ t' m' g1 g2 g3 =>
            rw [h2] at g2
            obtain rfl := Except.ok.inj g2
            rw [h3] at g3
            obtain rfl := Option.some.inj g3
            exact ⟨rfl, rfl⟩
      obtain ⟨rfl, rfl⟩ := this
      exact ⟨h, j, rfl, hv, by rw [hcache]; exact hj, hhit⟩
    · obtain ⟨z, z1, z2⟩ := hi.cont _ _ _ ho''
      refine ⟨z, by rw [hother _ he]; exact z1, ?_⟩
      rcases z2 with z2 | ⟨a, c, z2, z3, z4, z5⟩
      · exact Or.inl z2
      · exact Or.inr ⟨a, c, z2, z3, by rw [hcache]; exact z4, z5⟩
  · intro loc' z hz hzx
    by_cases he : loc' = loc
    · subst he
      rw [hy1] at hz
      obtain rfl := Option.some.inj hz
      rw [hself]
      rcases hy2 with rfl | ⟨a, c, e1, e2, _⟩
      · cases hzx
      · cases e1; rw [e2.unique hv]
    · rw [hother _ he]; exact hz
  · intro loc' z hz
    by_cases he : loc' = loc
    · subst he; exact ⟨x, hself, Or.inr hx⟩
    · exact ⟨z, by rw [hother _ he]; exact hz, Or.inl rfl⟩
  · rw [hcache]; exact fun _ _ h => h

theorem PathAt.rootVer {b : HBatch} {ver ver' : Nat} {p : List Bool} (h : PathAt b ver p (.root ver')) : ver' = ver := by
  cases h; rfl

/-- A search whose tile is there goes on in it; the others wait. -/
theorem serve_spec {b : HBatch} (hi : HI cs st pl Q b) {c : Cursor} {j : TileId} {ver : Nat}
    (h : PI cs st X pl b c j ver) (hQ : Q ver c.vrf) :
    ∃ b' c', b.serve c j = .ok (b', c') ∧ HI cs st pl Q b' ∧ Le b b' ∧ b'.cache = b.cache ∧ b'.asked = b.asked ∧
      c'.vrf = c.vrf ∧ (∀ ver', PI cs st X pl b c j ver' → CI b' c' ver') ∧
      (∀ r, r ≠ ver → b'.roots r = b.roots r) ∧ c'.depth = c.depth ∧ ((b.cache j).isSome → ∃ x, b'.read c'.loc = some x ∧ x.isExt = false) ∧ (b.cache j = none → c' = c) := by
  obtain ⟨p, hh, S, h1, h2, h3, h4, h5⟩ := h
  unfold HBatch.serve
  cases hcj : b.cache j with
  | none =>
    refine ⟨b, c, rfl, hi, Le.refl b, rfl, rfl, rfl, ?_, fun _ _ => rfl, rfl, by simp, fun _ => rfl⟩
    rintro ver' ⟨p', h', S', g1, g2, g3, g4, g5⟩
    obtain ⟨y, hy1, hy2⟩ := hi.cont _ _ _ g4
    exact ⟨p', c.loc, y, g1, g2, g3, hy1, hy1, fun _ => rfl⟩
  | some e =>
    have hj : (b.cache j).isSome := by rw [hcj]; rfl
    obtain ⟨t, m, q, a1, a2, rfl, a4, a5, a6⟩ := h5.get
    obtain ⟨t', k1, rfl⟩ := hi.cache _ _ hcj
    rw [a1] at k1
    obtain rfl := Except.ok.inj k1
    obtain ⟨loc', w1, w2⟩ := walk_spec hi hj a1 q [] (.copy (t.root.shallow j [])) h1 a4 a5 (by
      intro n hn _
      rw [Node.at_nil] at hn
      obtain rfl := Option.some.inj hn
      rfl)
    have hk : c.depth - t.depth = q.length := by rw [← h2, a2, List.length_append]; omega
    simp only
    rw [hk, a2]
    simp only [List.length_nil, Nat.add_zero, List.nil_append] at w1 w2
    rw [w1]
    simp only [G.ok_bind]
    rw [deref_ok w2]
    have hv : Val cs st pl j (pl j ++ q) (m.shallow j q) := ⟨t, m, q, a1, rfl, a4, rfl⟩
    have hx := hv.nonext h5
    obtain ⟨r1, r2, r3, r4, r5⟩ := write_spec' hi h4 hv hx hj ⟨ver, _, hQ, h1⟩
    have hread := r2.keep _ _ w2 hx
    have hroots : ∀ r, r ≠ ver → (b.write c.loc (m.shallow j q)).roots r = b.roots r := by
      intro r hr
      cases hl : c.loc with
      | slot _ _ => rfl
      | copy _ => rfl
      | root ver' =>
        rw [hl] at h3
        obtain rfl := h3.rootVer
        simp only [HBatch.write]
        rw [if_neg hr]
    refine ⟨_, _, rfl, r1, r2, r4, r5, rfl, ?_, hroots, rfl, fun _ => ⟨_, hread, hx⟩, by simp⟩
    rintro ver' ⟨p', h', S', g1, g2, g3, g4, g5⟩
    exact ⟨p', c.loc, _, g1, g2, g3.mono r2, r3, hread, by rw [hx]; simp⟩

end Katie.Prefix
