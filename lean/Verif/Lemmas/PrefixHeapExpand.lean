import Verif.Lemmas.PrefixHeapMain

/-
The tree of one version that a batch search leaves in memory is the tree that `expand` makes.
-/

namespace Katie.Prefix
open Katie Katie.PrefixSpec

variable {cs : Suite} {st : Store} {X : TileId → List Bool → List Pair → Prop} {pl : TileId → List Bool}
  {Q : Nat → Bytes → Prop}

/-- a node of a decoded tile: what `expand` makes of it is what is in memory -/
def Same (cs : Suite) (st : Store) (W : List Bytes) (b : HBatch) (fuel : Nat) (p : List Bool) (m : Node) (x : HNode) : Prop :=
  ∃ n, b.tree fuel x = .ok n ∧ ∀ fuel', 2 * (8 * cs.hashSize - p.length) + (if m.isExt then 2 else 1) ≤ fuel' →
    expand cs st fuel' m (below id W p) p.length = .ok n

/-- from a node that is not a reference to any node -/
theorem same_cont (hc : Ctx cs st X pl) {b : HBatch} {ver : Nat} {W : List Bytes}
    (hW : ∀ v ∈ W, Done b ver v) (hQ : ∀ r v, Q r v → v ∈ W) {fuel : Nat}
    (ih : ∀ (id : TileId) (q : List Bool) (t : Tile) (m : Node) (loc : Loc) (S : List Pair), (b.cache id).isSome →
      getTile cs st id = .ok t → t.root.at q = some m → m.isExt = false → Rep cs X (Own X id) (pl id ++ q) m S →
      PathAt b ver (pl id ++ q) loc → b.read loc = some (m.shallow id q) →
      8 * cs.hashSize ≤ fuel + (pl id ++ q).length → Same cs st W b fuel (pl id ++ q) m (m.shallow id q))
    {id : TileId} {q : List Bool} {t : Tile} {m : Node} {loc : Loc} {S : List Pair} {x : HNode} (h1 : (b.cache id).isSome)
    (h2 : getTile cs st id = .ok t) (h3 : t.root.at q = some m) (h4 : Rep cs X (Own X id) (pl id ++ q) m S)
    (h5 : PathAt b ver (pl id ++ q) loc) (h6 : b.read loc = some x)
    (h7 : Cont cs st pl Q b (pl id ++ q) (m.shallow id q) x) (hf : 8 * cs.hashSize ≤ fuel + (pl id ++ q).length) :
    Same cs st W b fuel (pl id ++ q) m x := by
  cases hm : m.isExt with
  | false =>
    rcases h7 with rfl | ⟨h, j, e, _⟩
    · exact ih id q t m loc S h1 h2 h3 hm h4 h5 h6 hf
    · cases m <;> cases e
      cases hm
  | true =>
    cases m with
    | empty => cases hm
    | leaf _ _ => cases hm
    | parent _ _ _ _ => cases hm
    | ext h j =>
      rcases h7 with rfl | ⟨h', j', e, e2, e3, r, v, e4, e5⟩
      · have hb : below _root_.id W (pl id ++ q) = [] := by
          rw [List.eq_nil_iff_forall_not_mem]
          intro v hv
          obtain ⟨m1, m2⟩ := mem_below.mp hv
          exact (hW v m1).noExt h5 h6 m2
        refine ⟨.ext h j, by unfold Node.shallow HBatch.tree; rfl, fun fuel' hf' => ?_⟩
        rw [hb]
        cases fuel' with
        | zero => simp only [Node.isExt, if_true] at hf'; omega
        | succ f => rfl
      · cases e
        have hr := hc.ref _ _ _ h4.2.1
        obtain ⟨t', m', q', a1, a2, a3, a4, a5, a6⟩ := hr.get
        have hx : x = m'.shallow j q' := e2.unique ⟨t', m', q', a1, a3, a4, rfl⟩
        subst hx
        rw [a3] at h5 hf a6 e5 ⊢
        obtain ⟨n, n1, n2⟩ := ih j q' t' m' loc S e3 a1 a4 a5 a6 h5 h6 hf
        refine ⟨n, n1, fun fuel' hf' => ?_⟩
        cases fuel' with
        | zero => simp only [Node.isExt, if_true] at hf'; omega
        | succ f =>
          have hin : v ∈ below _root_.id W (pl j ++ q') := mem_below.mpr ⟨hQ _ _ e4, e5⟩
          have n3 := n2 f (by rw [a5]; simp only [Node.isExt, if_true] at hf'; simp only [Bool.false_eq_true, if_false]; omega)
          cases hb : below _root_.id W (pl j ++ q') with
          | nil => rw [hb] at hin; cases hin
          | cons w ws =>
            rw [hb] at n3
            unfold expand
            simp only
            rw [a1]
            simp only [G.ok_bind]
            have hv := mem_below.mp (by rw [hb]; simp : w ∈ below _root_.id W (pl j ++ q'))
            have hw := walkTile_at w q' t'.root m' (pl j) hv.2 a4
            rw [a2, show (pl j ++ q').length - (pl j).length = q'.length by simp, hw]
            exact n3

theorem same_all (hc : Ctx cs st X pl) {b : HBatch} (hi : HI cs st pl Q b) {ver : Nat} {W : List Bytes}
    (hlen : ∀ v ∈ W, v.length = cs.hashSize) (hW : ∀ v ∈ W, Done b ver v) (hQ : ∀ r v, Q r v → v ∈ W) : ∀ (fuel : Nat)
    (id : TileId) (q : List Bool) (t : Tile) (m : Node) (loc : Loc) (S : List Pair), (b.cache id).isSome →
      getTile cs st id = .ok t → t.root.at q = some m → m.isExt = false → Rep cs X (Own X id) (pl id ++ q) m S →
      PathAt b ver (pl id ++ q) loc → b.read loc = some (m.shallow id q) →
      8 * cs.hashSize ≤ fuel + (pl id ++ q).length → Same cs st W b fuel (pl id ++ q) m (m.shallow id q) := by
  intro fuel
  induction fuel with
  | zero =>
    intro id q t m loc S h1 h2 h3 h4 h5 h6 h7 hf
    cases m with
    | empty =>
      refine ⟨.empty, rfl, fun fuel' hf' => ?_⟩
      cases fuel' with
      | zero => simp [Node.isExt] at hf'
      | succ f => unfold expand; split <;> rfl
    | leaf v c =>
      refine ⟨.leaf v c, rfl, fun fuel' hf' => ?_⟩
      cases fuel' with
      | zero => simp [Node.isExt] at hf'
      | succ f => unfold expand; split <;> rfl
    | ext _ _ => cases h4
    | parent l r h i =>
      have hwf := h5.wf
      obtain ⟨Sl, Sr, rfl, r1, r2, r3, r4⟩ := h5
      have := hwf.lt r3.2.1
      omega
  | succ fuel ih =>
    intro id q t m loc S h1 h2 h3 h4 h5 h6 h7 hf
    cases m with
    | empty =>
      refine ⟨.empty, rfl, fun fuel' hf' => ?_⟩
      cases fuel' with
      | zero => simp [Node.isExt] at hf'
      | succ f => unfold expand; split <;> rfl
    | leaf v c =>
      refine ⟨.leaf v c, rfl, fun fuel' hf' => ?_⟩
      cases fuel' with
      | zero => simp [Node.isExt] at hf'
      | succ f => unfold expand; split <;> rfl
    | ext _ _ => cases h4
    | parent l r h i =>
      have hwf := h5.wf
      obtain ⟨Sl, Sr, rfl, r1, r2, r3, r4⟩ := h5
      have hlt := hwf.lt r3.2.1
      obtain rfl := r3.1
      have hl : t.root.at (q ++ [false]) = some l := by rw [Node.at_append, h3]; simp [Node.at]
      have hr : t.root.at (q ++ [true]) = some r := by rw [Node.at_append, h3]; simp [Node.at]
      obtain ⟨x, x1, x2⟩ := hi.cont _ _ _ (.slot id (q ++ [false]) t l h1 h2 hl)
      obtain ⟨y, y1, y2⟩ := hi.cont _ _ _ (.slot id (q ++ [true]) t r h1 h2 hr)
      have p1 := PathAt.snoc false h6 h7
      have p2 := PathAt.snoc true h6 h7
      rw [List.append_assoc] at p1 p2 r1 r2
      have hf' : ∀ bit, 8 * cs.hashSize ≤ fuel + (pl id ++ (q ++ [bit])).length := fun bit => by
        simp only [List.length_append, List.length_singleton] at hf ⊢; omega
      obtain ⟨n, n1, n2⟩ := same_cont hc hW hQ ih h1 h2 hl r1 p1 x1 x2 (hf' _)
      obtain ⟨k, k1, k2⟩ := same_cont hc hW hQ ih h1 h2 hr r2 p2 y1 y2 (hf' _)
      refine ⟨.parent n k h (some id), ?_, fun fuel' hf2 => ?_⟩
      · simp only [Node.shallow]
        unfold HBatch.tree
        rw [deref_ok (loc := .slot id (q ++ [false])) x1, deref_ok (loc := .slot id (q ++ [true])) y1]
        simp only [G.ok_bind]
        rw [n1]
        simp only [G.ok_bind]
        rw [k1]
        rfl
      · have hfl : ∀ bit (m : Node), 2 * (8 * cs.hashSize - (pl id ++ (q ++ [bit])).length) + (if m.isExt then 2 else 1) ≤
            2 * (8 * cs.hashSize - (pl id ++ q).length) := by
          intro bit m
          rw [← List.append_assoc]
          rw [List.length_append (bs := [bit]), List.length_singleton]
          split <;> omega
        cases fuel' with
        | zero => simp [Node.isExt] at hf2
        | succ f =>
          simp only [Node.isExt, Bool.false_eq_true, if_false] at hf2
          have n3 := n2 f (le_trans (hfl _ _) (by omega))
          have k3 := k2 f (le_trans (hfl _ _) (by omega))
          cases hb : below _root_.id W (pl id ++ q) with
          | nil =>
            have hnil : ∀ bit, below _root_.id W (pl id ++ (q ++ [bit])) = [] := fun bit =>
              below_nil_of_prefix (by rw [← List.append_assoc]; exact List.prefix_append _ _) hb
            have hex : ∀ (f : Nat) (m' n' : Node) (d : Nat), expand cs st f m' [] d = .ok n' → m' = n' := by
              intro f m' n' d he
              cases f with
              | zero => cases he
              | succ f => unfold expand at he; cases he; rfl
            rw [hnil] at n3 k3
            rw [hex _ _ _ _ n3, hex _ _ _ _ k3]
            rfl
          | cons w ws =>
            unfold expand
            simp only
            rw [← hb, splitVrfs_below hlen _ hlt]
            simp only [G.ok_bind]
            have hl1 : ∀ bit, (pl id ++ (q ++ [bit])).length = (pl id ++ q).length + 1 := fun bit => by simp; omega
            rw [hl1, ← List.append_assoc] at n3 k3
            rw [n3]
            simp only [G.ok_bind]
            rw [k3]
            rfl

/-- one version, loaded both ways -/
theorem loadVersion_same (hc : Ctx cs st X pl) {ver : Nat} {S : List Pair} (hroot : Holds cs st X ⟨ver, 0⟩ [] S)
    {W : List Bytes} (hlen : ∀ v ∈ W, v.length = cs.hashSize) (ord : MapOrder) :
    ∃ b n, loadAll cs st ord [⟨ver, W⟩] = .ok b ∧ b.tree (8 * cs.hashSize + 1) (b.roots ver) = .ok n ∧
      loadVersion cs st ver W = .ok n ∧ b.asked.flatten.Nodup := by
  have hw : ∀ r v, Wanted [⟨ver, W⟩] r v ↔ r = ver ∧ v ∈ W := by
    intro r v
    simp only [Wanted, List.mem_singleton, exists_eq_left]
    constructor <;> (rintro ⟨rfl, h⟩; exact ⟨rfl, h⟩)
  have hq : Asked cs st X (Wanted [⟨ver, W⟩]) :=
    ⟨fun r v h => hlen v ((hw r v).mp h).2, fun r v h => by rw [((hw r v).mp h).1]; exact ⟨S, hroot⟩⟩
  obtain ⟨b, h0, h1, h2, h3, h4⟩ := loadAll_spec hc hq ord
  by_cases hne : W = []
  · refine ⟨b, .ext [] ⟨ver, 0⟩, h0, ?_, ?_, h2.1⟩
    · rw [h3 ver (fun v hv => by have := ((hw ver v).mp hv).2; rw [hne] at this; cases this)]
      unfold HBatch.tree; rfl
    · rw [hne]; unfold loadVersion expand; rfl
  · obtain ⟨w, hwm⟩ := List.exists_mem_of_ne_nil W hne
    have hW : ∀ v ∈ W, Done b ver v := fun v hv => h4 ver v ((hw _ _).mpr ⟨rfl, hv⟩)
    have hQ : ∀ r v, Wanted [⟨ver, W⟩] r v → v ∈ W := fun r v h => ((hw r v).mp h).2
    obtain ⟨x, x1, x2⟩ := h1.cont _ _ _ (.root ver)
    obtain rfl : b.roots ver = x := Option.some.inj x1
    rcases x2 with x2 | ⟨hh, j, x2, x3, x4, _⟩
    · exact ((hW w hwm).noExt .nil (loc := .root ver) (hh := []) (j := ⟨ver, 0⟩) (by simp only [HBatch.read]; rw [x2]) (on_nil w)).elim
    · cases x2
      have hr := hc.root hroot
      obtain ⟨t, m, q, a1, a2, a3, a4, a5, a6⟩ := hr.get
      have hx : b.roots ver = m.shallow ⟨ver, 0⟩ q := x3.unique ⟨t, m, q, a1, a3, a4, rfl⟩
      have hp : PathAt b ver (pl ⟨ver, 0⟩ ++ q) (.root ver) := a3 ▸ .nil
      obtain ⟨n, n1, n2⟩ := same_all hc h1 hlen hW hQ (8 * cs.hashSize + 1) _ q t m (.root ver) S x4 a1 a4 a5 (a3 ▸ a6) hp
        (by simp only [HBatch.read]; rw [hx]) (by omega)
      refine ⟨b, n, h0, by rw [hx]; exact n1, ?_, h2.1⟩
      have n3 := n2 (2 * (8 * cs.hashSize) + 2) (by rw [a5]; simp only [Bool.false_eq_true, if_false]; omega)
      rw [← a3, below_root] at n3
      unfold loadVersion expand
      cases hW' : W with
      | nil => exact absurd hW' hne
      | cons v vs =>
        simp only
        rw [a1]
        simp only [G.ok_bind]
        rw [a2]
        have hpl : pl ⟨ver, 0⟩ = [] := hc.zero _ rfl
        rw [hpl] at a3 ⊢
        rw [List.nil_append] at a3
        rw [← a3, Node.at_nil] at a4
        obtain rfl := Option.some.inj a4
        rw [show 0 - ([] : List Bool).length = 0 by simp]
        have : walkTile v 0 t.root ([] : List Bool).length = .ok t.root := by cases t.root <;> rfl
        rw [this]
        rw [hW'] at n3
        exact n3

end Katie.Prefix
