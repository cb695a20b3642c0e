import Verif.Lemmas.PrefixHeapSearch

/-
The answers from the tree in memory are the answers of the recursive search.
-/

namespace Katie.Prefix
open Katie Katie.PrefixSpec

variable {cs : Suite} {X X' : TileId → List Bool → List Pair → Prop} {Y Y' : Option TileId → List Bool → List Pair → Prop}

theorem Wf.split_unique {hs : Nat} {p : List Bool} {Sl Sr Sl' Sr' : List Pair} (hl : Wf hs (p ++ [false]) Sl)
    (hr : Wf hs (p ++ [true]) Sr) (hl' : Wf hs (p ++ [false]) Sl') (hr' : Wf hs (p ++ [true]) Sr')
    (h : Sl ++ Sr = Sl' ++ Sr') : Sl = Sl' ∧ Sr = Sr' := by
  constructor
  · rw [← filter_left hl hr, h, filter_left hl' hr']
  · rw [← filter_right hl hr, h, filter_right hl' hr']

/-- A search in two trees that represent the same entries. -/
theorem look_same {v : Bytes} (hX : ∀ i q T, X i q T → ¬ On q v) (hX' : ∀ i q T, X' i q T → ¬ On q v)
    (hY : ∀ i q T, Y i q T → 2 ≤ T.length) (hY' : ∀ i q T, Y' i q T → 2 ≤ T.length) (hlen : v.length = cs.hashSize) :
    ∀ (n n' : Node) (p : List Bool) (S : List Pair), Rep cs X Y p n S → Rep cs X' Y' p n' S → On p v →
      look n p.length v = look n' p.length v := by
  intro n
  induction n with
  | empty =>
    intro n' p S h h' hon
    have : S = [] := h
    subst this
    cases n' with
    | empty => rfl
    | leaf w c => cases h'.1
    | parent l r hh i => obtain ⟨Sl, Sr, e, _, _, k, _⟩ := h'; have := hY' _ _ _ k; simp at this
    | ext hh i => exact absurd hon (hX' _ _ _ h'.2.1)
  | leaf w c =>
    intro n' p S h h' hon
    obtain ⟨rfl, _⟩ := h
    cases n' with
    | empty => cases h'
    | leaf w' c' => obtain ⟨e, _⟩ := h'; cases e; rfl
    | parent l r hh i => obtain ⟨Sl, Sr, e, _, _, k, _⟩ := h'; have := hY' _ _ _ k; simp at this
    | ext hh i => exact absurd hon (hX' _ _ _ h'.2.1)
  | ext hh i => intro n' p S h h' hon; exact absurd hon (hX _ _ _ h.2.1)
  | parent l r hh i ihl ihr =>
    intro n' p S h h' hon
    have hwf := h.wf
    obtain ⟨Sl, Sr, rfl, h1, h2, h3, h4⟩ := h
    have h2' := hY _ _ _ h3
    have hlt := hwf.lt h2'
    cases n' with
    | empty => rw [show Sl ++ Sr = [] from h'] at h2'; simp at h2'
    | leaf w' c' => rw [show Sl ++ Sr = _ from h'.1] at h2'; simp at h2'
    | ext hh i => exact absurd hon (hX' _ _ _ h'.2.1)
    | parent l' r' hh' i' =>
      obtain ⟨Tl, Tr, e, g1, g2, g3, g4⟩ := h'
      obtain ⟨rfl, rfl⟩ := Wf.split_unique h1.wf h2.wf g1.wf g2.wf e
      have hst := hon.step (by rw [hlen]; exact hlt)
      unfold look
      cases hb : bitAt v p.length with
      | true =>
        rw [hb] at hst
        have := ihr r' _ _ h2 g2 hst
        simpa using this
      | false =>
        rw [hb] at hst
        have := ihl l' _ _ h1 g1 hst
        simpa using this

/-- The copath of searches in two trees that represent the same entries. -/
theorem elems_same {V : List Bytes} (hX : ∀ i q T, X i q T → below id V q = []) (hX' : ∀ i q T, X' i q T → below id V q = [])
    (hY : ∀ i q T, Y i q T → 2 ≤ T.length) (hY' : ∀ i q T, Y' i q T → 2 ≤ T.length) :
    ∀ (n n' : Node) (p : List Bool) (S : List Pair), Rep cs X Y p n S → Rep cs X' Y' p n' S →
      elems cs V p n = elems cs V p n' := by
  intro n n' p S h h'
  by_cases hb : below id V p = []
  · have e : ∀ m : Node, elems cs V p m = [m.hash cs] := by
      intro m; cases m <;> simp [elems, hb]
    rw [e, e, h.hash_eq (fun i q T _ => hY i q T), h'.hash_eq (fun i q T _ => hY' i q T)]
  · induction n generalizing n' p S with
    | empty =>
      have : S = [] := h
      subst this
      cases n' with
      | empty => rfl
      | leaf w c => cases h'.1
      | parent l r hh i => obtain ⟨Sl, Sr, e, _, _, k, _⟩ := h'; have := hY' _ _ _ k; simp at this
      | ext hh i => exact absurd (hX' _ _ _ h'.2.1) hb
    | leaf w c =>
      obtain ⟨rfl, _⟩ := h
      cases n' with
      | empty => cases h'
      | leaf w' c' => obtain ⟨e, _⟩ := h'; cases e; rfl
      | parent l r hh i => obtain ⟨Sl, Sr, e, _, _, k, _⟩ := h'; have := hY' _ _ _ k; simp at this
      | ext hh i => exact absurd (hX' _ _ _ h'.2.1) hb
    | ext hh i => exact absurd (hX _ _ _ h.2.1) hb
    | parent l r hh i ihl ihr =>
      obtain ⟨Sl, Sr, rfl, h1, h2, h3, h4⟩ := h
      have h2' := hY _ _ _ h3
      cases n' with
      | empty => rw [show Sl ++ Sr = [] from h'] at h2'; simp at h2'
      | leaf w' c' => rw [show Sl ++ Sr = _ from h'.1] at h2'; simp at h2'
      | ext hh i => exact absurd (hX' _ _ _ h'.2.1) hb
      | parent l' r' hh' i' =>
        obtain ⟨Tl, Tr, e, g1, g2, g3, g4⟩ := h'
        obtain ⟨rfl, rfl⟩ := Wf.split_unique h1.wf h2.wf g1.wf g2.wf e
        have side : ∀ (m m' : Node) (b : Bool) (T : List Pair), Rep cs X Y (p ++ [b]) m T → Rep cs X' Y' (p ++ [b]) m' T →
            (below id V (p ++ [b]) ≠ [] → elems cs V (p ++ [b]) m = elems cs V (p ++ [b]) m') →
            elems cs V (p ++ [b]) m = elems cs V (p ++ [b]) m' := by
          intro m m' b T k1 k2 k3
          by_cases hb' : below id V (p ++ [b]) = []
          · have e : ∀ m : Node, elems cs V (p ++ [b]) m = [m.hash cs] := by
              intro m; cases m <;> simp [elems, hb']
            rw [e, e, k1.hash_eq (fun i q T _ => hY i q T), k2.hash_eq (fun i q T _ => hY' i q T)]
          · exact k3 hb'
        simp only [elems, if_neg hb]
        rw [side l l' false Sl h1 g1 (ihl l' _ _ h1 g1), side r r' true Sr h2 g2 (ihr r' _ _ h2 g2)]

/-- The proof builder on two trees that represent the same entries. -/
theorem builder_same {V : List Bytes} (hlen : ∀ v ∈ V, v.length = cs.hashSize) {n n' : Node} {S : List Pair}
    (hX : ∀ i q T, X i q T → below id V q = []) (hX' : ∀ i q T, X' i q T → below id V q = [])
    (hY : ∀ i q T, Y i q T → 2 ≤ T.length) (hY' : ∀ i q T, Y' i q T → 2 ≤ T.length)
    (h : Rep cs X Y [] n S) (h' : Rep cs X' Y' [] n' S) : runProofBuilder cs n V = runProofBuilder cs n' V := by
  rw [runProofBuilder_eq hlen hX h hY, runProofBuilder_eq hlen hX' h' hY', elems_same hX hX' hY hY' n n' [] S h h']
  have key : ∀ v ∈ V, look n 0 v = look n' 0 v := by
    intro v hv
    have no : ∀ q, below id V q = [] → ¬ On q v := by
      intro q hq hon
      have : v ∈ below id V q := mem_below.mpr ⟨hv, hon⟩
      rw [hq] at this; cases this
    exact look_same (fun i q T k => no q (hX i q T k)) (fun i q T k => no q (hX' i q T k)) hY hY' (hlen v hv) n n' [] S h h'
      (on_nil v)
  rw [List.map_congr_left (fun v hv => by rw [key v hv]), List.map_congr_left (f := fun v => (look n 0 v).2)
    (fun v hv => by rw [key v hv])]

end Katie.Prefix
