import Verif.Model.PrefixHeap
import Verif.Lemmas.PrefixHistory

/-
The memory of a batch search: every object is what some tile has at some path, except that references that have been
resolved are replaced by the node that they refer to.
-/

namespace Katie.Prefix
open Katie Katie.PrefixSpec

variable {cs : Suite} {st : Store} {X : TileId → List Bool → List Pair → Prop} {pl : TileId → List Bool}
  {Q : Nat → Bytes → Prop}

def HNode.isExt : HNode → Bool
  | .ext _ _ => true
  | _ => false

/-- what is known of the parents inside the tile `id` -/
abbrev Own (X : TileId → List Bool → List Pair → Prop) (id : TileId) (i : Option TileId) (q : List Bool) (T : List Pair) :
    Prop := i = some id ∧ 2 ≤ T.length ∧ X id q T

/-- the reference to `id` at the path `p` is to be found in the tile, and the tile begins at `pl id` -/
def Ref (cs : Suite) (st : Store) (X : TileId → List Bool → List Pair → Prop) (pl : TileId → List Bool)
    (id : TileId) (p : List Bool) (S : List Pair) : Prop :=
  Holds cs st X id p S ∧ pl id <+: p ∧ ∀ t, getTile cs st id = .ok t → t.depth = (pl id).length

/-- known references are good ones -/
structure Ctx (cs : Suite) (st : Store) (X : TileId → List Bool → List Pair → Prop) (pl : TileId → List Bool) : Prop where
  ref : ∀ id p S, X id p S → Ref cs st X pl id p S
  zero : ∀ id : TileId, id.ctr = 0 → pl id = []

theorem Ctx.root (hc : Ctx cs st X pl) {ver : Nat} {S : List Pair} (h : Holds cs st X ⟨ver, 0⟩ [] S) :
    Ref cs st X pl ⟨ver, 0⟩ [] S := by
  refine ⟨h, by rw [hc.zero _ rfl], fun t ht => ?_⟩
  obtain ⟨t', n, g1, g2, _⟩ := h
  rw [g1] at ht
  obtain rfl := Except.ok.inj ht
  rw [hc.zero _ rfl]
  simpa using g2

theorem Ref.get {id : TileId} {p : List Bool} {S : List Pair} (h : Ref cs st X pl id p S) :
    ∃ t m q, getTile cs st id = .ok t ∧ t.depth = (pl id).length ∧ p = pl id ++ q ∧ t.root.at q = some m ∧
      m.isExt = false ∧ Rep cs X (Own X id) p m S := by
  obtain ⟨⟨t, m, g1, g2, g3, g4, g5⟩, ⟨q, rfl⟩, hd⟩ := h
  rw [hd t g1, List.drop_left' rfl] at g3
  exact ⟨t, m, q, g1, hd t g1, rfl, g3, g4, g5⟩

/-- the node that a reference to `j` at the path `p` refers to -/
def Val (cs : Suite) (st : Store) (pl : TileId → List Bool) (j : TileId) (p : List Bool) (x : HNode) : Prop :=
  ∃ t m q, getTile cs st j = .ok t ∧ p = pl j ++ q ∧ t.root.at q = some m ∧ x = m.shallow j q

theorem Val.unique {j : TileId} {p : List Bool} {x y : HNode} (h : Val cs st pl j p x) (h' : Val cs st pl j p y) : x = y := by
  obtain ⟨t, m, q, a1, a2, a3, a4⟩ := h
  obtain ⟨t', m', q', b1, b2, b3, b4⟩ := h'
  rw [a1] at b1
  obtain rfl := Except.ok.inj b1
  rw [a2] at b2
  obtain rfl := List.append_cancel_left b2
  rw [a3] at b3
  obtain rfl := Option.some.inj b3
  rw [a4, b4]

theorem Val.nonext {j : TileId} {p : List Bool} {x : HNode} {S : List Pair} (h : Val cs st pl j p x)
    (hr : Ref cs st X pl j p S) : x.isExt = false := by
  obtain ⟨t, m, q, a1, _, a2, a3, a4, _⟩ := hr.get
  have : x = m.shallow j q := h.unique ⟨t, m, q, a1, a2, a3, rfl⟩
  subst this
  cases m <;> first | rfl | cases a4

/-- what a location had when its tile was decoded, and its path in the tree -/
inductive Orig (cs : Suite) (st : Store) (pl : TileId → List Bool) (b : HBatch) : Loc → List Bool → HNode → Prop
  | root (ver : Nat) : Orig cs st pl b (.root ver) [] (.ext [] ⟨ver, 0⟩)
  | slot (id : TileId) (q : List Bool) (t : Tile) (m : Node) : (b.cache id).isSome → getTile cs st id = .ok t →
      t.root.at q = some m → Orig cs st pl b (.slot id q) (pl id ++ q) (m.shallow id q)

/-- something that is searched for (in a version and for a VRF output, `Q`) is below `p` -/
def Hit (Q : Nat → Bytes → Prop) (p : List Bool) : Prop := ∃ ver v, Q ver v ∧ On p v

/-- what a location may have that had `o` -/
def Cont (cs : Suite) (st : Store) (pl : TileId → List Bool) (Q : Nat → Bytes → Prop) (b : HBatch) (p : List Bool)
    (o x : HNode) : Prop :=
  x = o ∨ ∃ h j, o = .ext h j ∧ Val cs st pl j p x ∧ (b.cache j).isSome ∧ Hit Q p

/-- the memory is in order -/
structure HI (cs : Suite) (st : Store) (pl : TileId → List Bool) (Q : Nat → Bytes → Prop) (b : HBatch) : Prop where
  cache : ∀ id e, b.cache id = some e → ∃ t, getTile cs st id = .ok t ∧ e = (t.depth, t.root.shallow id [])
  dom : ∀ id q x, b.slots id q = some x → (b.cache id).isSome
  cont : ∀ loc p o, Orig cs st pl b loc p o → ∃ x, b.read loc = some x ∧ Cont cs st pl Q b p o x

/-- the node `x` at path `p` represents the entries `S` -/
def HR (cs : Suite) (st : Store) (X : TileId → List Bool → List Pair → Prop) (pl : TileId → List Bool) (b : HBatch)
    (p : List Bool) (x : HNode) (S : List Pair) : Prop :=
  match x with
  | .empty => S = []
  | .leaf v c => S = [(v, c)] ∧ On p v ∧ v.length = cs.hashSize ∧ c.length = cs.hashSize
  | .ptr id q h => p = pl id ++ q ∧ (b.cache id).isSome ∧ ∃ t l r i, getTile cs st id = .ok t ∧
      t.root.at q = some (.parent l r h i) ∧ Rep cs X (Own X id) p (.parent l r h i) S
  | .ext h j => Ref cs st X pl j p S ∧ (p = [] ∨ (h = th cs p S ∧ X j p S ∧ Wf cs.hashSize p S))

theorem shallow_hr (hc : Ctx cs st X pl) {b : HBatch} {id : TileId} {t : Tile} {q : List Bool} {m : Node} {S : List Pair}
    (h1 : (b.cache id).isSome) (h2 : getTile cs st id = .ok t) (h3 : t.root.at q = some m)
    (h4 : Rep cs X (Own X id) (pl id ++ q) m S) : HR cs st X pl b (pl id ++ q) (m.shallow id q) S := by
  cases m with
  | empty => exact h4
  | leaf v c => exact h4
  | parent l r h i => exact ⟨rfl, h1, t, l, r, i, h2, h3, h4⟩
  | ext h j => exact ⟨hc.ref _ _ _ h4.2.1, Or.inr h4⟩

theorem val_hr (hc : Ctx cs st X pl) {b : HBatch} {j : TileId} {p : List Bool} {x : HNode} {S : List Pair}
    (h1 : (b.cache j).isSome) (hv : Val cs st pl j p x) (hr : Ref cs st X pl j p S) : HR cs st X pl b p x S := by
  obtain ⟨t, m, q, a1, _, rfl, a3, a4, a5⟩ := hr.get
  have : x = m.shallow j q := hv.unique ⟨t, m, q, a1, rfl, a3, rfl⟩
  subst this
  exact shallow_hr hc h1 a1 a3 a5

/-- the present value of a field of a decoded object -/
theorem cont_hr (hc : Ctx cs st X pl) {b : HBatch} {id : TileId} {t : Tile} {q : List Bool} {m : Node} {S : List Pair}
    {x : HNode} (h1 : (b.cache id).isSome) (h2 : getTile cs st id = .ok t) (h3 : t.root.at q = some m)
    (h4 : Rep cs X (Own X id) (pl id ++ q) m S) (h5 : Cont cs st pl Q b (pl id ++ q) (m.shallow id q) x) :
    HR cs st X pl b (pl id ++ q) x S ∧ (x = m.shallow id q ∨ x.isExt = false) := by
  rcases h5 with rfl | ⟨h, j, e1, e2, e3, _⟩
  · exact ⟨shallow_hr hc h1 h2 h3 h4, Or.inl rfl⟩
  · cases m with
    | empty => cases e1
    | leaf v c => cases e1
    | parent l r h i => cases e1
    | ext h' j' =>
      cases e1
      have hr := hc.ref _ _ _ h4.2.1
      exact ⟨val_hr hc e3 e2 hr, Or.inr (e2.nonext hr)⟩

/-- the children of an object in memory -/
theorem HI.child (hc : Ctx cs st X pl) {b : HBatch} (hi : HI cs st pl Q b) {p q : List Bool} {id : TileId} {h : Option Bytes}
    {S : List Pair} (hr : HR cs st X pl b p (.ptr id q h) S) :
    2 ≤ S.length ∧ X id p S ∧ Wf cs.hashSize p S ∧ (∀ x, h = some x → x = th cs p S) ∧ ∃ Sl Sr, S = Sl ++ Sr ∧
      ∀ bit, ∃ x o, b.slots id (q ++ [bit]) = some x ∧ HR cs st X pl b (p ++ [bit]) x (if bit then Sr else Sl) ∧
        Orig cs st pl b (.slot id (q ++ [bit])) (p ++ [bit]) o ∧ (x = o ∨ x.isExt = false) := by
  obtain ⟨rfl, h1, t, l, r, i, h2, h3, h4⟩ := hr
  have hwf := h4.wf
  obtain ⟨Sl, Sr, rfl, r1, r2, r3, r4⟩ := h4
  refine ⟨r3.2.1, r3.2.2, hwf, r4, Sl, Sr, rfl, fun bit => ?_⟩
  obtain ⟨m, hm, hrep⟩ : ∃ m, t.root.at (q ++ [bit]) = some m ∧
      Rep cs X (Own X id) (pl id ++ (q ++ [bit])) m (if bit then Sr else Sl) := by
    rw [← List.append_assoc, Node.at_append, h3]
    cases bit
    · exact ⟨l, by simp [Node.at], r1⟩
    · exact ⟨r, by simp [Node.at], r2⟩
  obtain ⟨x, hx, hcx⟩ := hi.cont _ _ _ (.slot id (q ++ [bit]) t m h1 h2 hm)
  obtain ⟨k1, k2⟩ := cont_hr hc h1 h2 hm hrep hcx
  rw [List.append_assoc]
  exact ⟨x, _, hx, k1, .slot id _ t m h1 h2 hm, k2⟩

theorem HI.root (hc : Ctx cs st X pl) {b : HBatch} (hi : HI cs st pl Q b) {ver : Nat} {S : List Pair}
    (h : Holds cs st X ⟨ver, 0⟩ [] S) :
    HR cs st X pl b [] (b.roots ver) S ∧ (b.roots ver = .ext [] ⟨ver, 0⟩ ∨ (b.roots ver).isExt = false) := by
  obtain ⟨x, hx, hcx⟩ := hi.cont _ _ _ (.root ver)
  obtain rfl : b.roots ver = x := Option.some.inj hx
  have hr := hc.root h
  rcases hcx with e | ⟨h', j, e1, e2, e3, _⟩
  · rw [e]; exact ⟨⟨hr, Or.inl rfl⟩, Or.inl rfl⟩
  · cases e1
    exact ⟨val_hr hc e3 e2 hr, Or.inr (e2.nonext hr)⟩

/-- the location of the node at a path of the tree of version `ver` -/
inductive PathAt (b : HBatch) (ver : Nat) : List Bool → Loc → Prop
  | nil : PathAt b ver [] (.root ver)
  | snoc {p : List Bool} {loc : Loc} {id : TileId} {q : List Bool} {h : Option Bytes} (bit : Bool) :
      PathAt b ver p loc → b.read loc = some (.ptr id q h) → PathAt b ver (p ++ [bit]) (.slot id (q ++ [bit]))

theorem PathAt.up {b : HBatch} {ver : Nat} {p : List Bool} {bit : Bool} {loc : Loc} (h : PathAt b ver (p ++ [bit]) loc) :
    ∃ loc0 id q hh, PathAt b ver p loc0 ∧ b.read loc0 = some (.ptr id q hh) ∧ loc = .slot id (q ++ [bit]) := by
  generalize e : p ++ [bit] = p' at h
  cases h with
  | nil => simp at e
  | snoc bit' h1 h2 =>
    obtain ⟨rfl, e2⟩ := List.append_inj' e rfl
    cases e2
    exact ⟨_, _, _, _, h1, h2, rfl⟩

theorem PathAt.unique {b : HBatch} {ver : Nat} {p : List Bool} {loc : Loc} (h : PathAt b ver p loc) :
    ∀ {loc' : Loc}, PathAt b ver p loc' → loc = loc' := by
  induction h with
  | nil => intro loc' h'; generalize e : ([] : List Bool) = p at h'; cases h' with
    | nil => rfl
    | snoc bit h1 h2 => simp at e
  | snoc bit h1 h2 ih =>
    intro loc' h'
    obtain ⟨loc0, id, q, hh, k1, k2, rfl⟩ := h'.up
    obtain rfl := ih k1
    rw [h2] at k2
    cases k2
    rfl

/-- a path passes through objects only -/
theorem PathAt.inner {b : HBatch} {ver : Nat} {p : List Bool} (r : List Bool) (hr : r ≠ []) : ∀ {loc : Loc},
    PathAt b ver (p ++ r) loc → ∃ loc0 id q h, PathAt b ver p loc0 ∧ b.read loc0 = some (.ptr id q h) := by
  induction r using List.reverseRecOn with
  | nil => exact absurd rfl hr
  | append_singleton r bit ih =>
    intro loc h
    rw [← List.append_assoc] at h
    obtain ⟨loc0, id, q, hh, k1, k2, rfl⟩ := h.up
    by_cases hr' : r = []
    · subst hr'; rw [List.append_nil] at k1; exact ⟨loc0, id, q, hh, k1, k2⟩
    · exact ih hr' k1

theorem HI.path (hc : Ctx cs st X pl) {b : HBatch} (hi : HI cs st pl Q b) {ver : Nat} {S0 : List Pair}
    (h0 : Holds cs st X ⟨ver, 0⟩ [] S0) {p : List Bool} {loc : Loc} (h : PathAt b ver p loc) :
    ∃ x S o, b.read loc = some x ∧ HR cs st X pl b p x S ∧ Orig cs st pl b loc p o ∧ (x = o ∨ x.isExt = false) := by
  induction h with
  | nil => obtain ⟨k1, k2⟩ := hi.root hc h0; exact ⟨_, _, _, rfl, k1, .root ver, k2⟩
  | snoc bit h1 h2 ih =>
    obtain ⟨x, S, o, e1, e2, e3, e4⟩ := ih
    rw [h2] at e1
    cases e1
    obtain ⟨_, _, _, _, Sl, Sr, rfl, k⟩ := hi.child hc e2
    obtain ⟨x, o, f1, f2, f3, f4⟩ := k bit
    exact ⟨x, _, o, f1, f2, f3, f4⟩

end Katie.Prefix
