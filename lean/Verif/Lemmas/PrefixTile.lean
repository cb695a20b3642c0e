import Verif.Lemmas.PrefixProof
import Verif.Lemmas.Uvarint

/-
Tiles: splitting a tree, encoding, and reading back.
-/

namespace Katie.Prefix
open Katie Katie.PrefixSpec

variable {cs : Suite} {X X' : TileId → List Bool → List Pair → Prop}
  {Y Y' : Option TileId → List Bool → List Pair → Prop}

/-! ### Paths -/

theorem Node.at_append (n : Node) (q r : List Bool) : n.at (q ++ r) = (n.at q).bind (fun m => m.at r) := by
  induction q generalizing n with
  | nil => cases n <;> simp [Node.at]
  | cons b q ih =>
    cases n with
    | parent x y h i => cases b <;> simp [Node.at, ih]
    | empty => simp [Node.at]
    | leaf v c => simp [Node.at]
    | ext h i => simp [Node.at]

theorem Node.at_nil (n : Node) : n.at [] = some n := by cases n <;> simp [Node.at]

theorem Rep.at {p q : List Bool} {n m : Node} {S : List Pair} (h : Rep cs X Y p n S) (hm : n.at q = some m) :
    ∃ T, Rep cs X Y (p ++ q) m T ∧ (∀ X' : TileId → List Bool → List Pair → Prop,
      (∀ id q T, X id q T → X' id q T) →
      ∀ m', Rep cs X' Y (p ++ q) m' T → Rep cs X' Y p (n.put q m') S) := by
  induction q generalizing n p S with
  | nil =>
    rw [Node.at_nil] at hm
    obtain rfl := Option.some.inj hm
    refine ⟨S, by simpa using h, fun X' hX m' h' => ?_⟩
    have : n.put [] m' = m' := by cases n <;> rfl
    rw [this]; simpa using h'
  | cons b q ih =>
    cases n with
    | empty => simp [Node.at] at hm
    | leaf v c => simp [Node.at] at hm
    | ext hh i => simp [Node.at] at hm
    | parent l r hh i =>
      obtain ⟨Sl, Sr, rfl, h1, h2, h3, h4⟩ := h
      cases b with
      | false =>
        obtain ⟨T, g1, g2⟩ := ih h1 hm
        refine ⟨T, by simpa using g1, fun X' hX m' h' => ?_⟩
        exact ⟨Sl, Sr, rfl, g2 X' hX m' (by simpa using h'), h2.mono hX (fun _ _ _ _ hy => hy), h3, h4⟩
      | true =>
        obtain ⟨T, g1, g2⟩ := ih h2 hm
        refine ⟨T, by simpa using g1, fun X' hX m' h' => ?_⟩
        exact ⟨Sl, Sr, rfl, h1.mono hX (fun _ _ _ _ hy => hy), g2 X' hX m' (by simpa using h'), h3, h4⟩

theorem Node.at_put (n m' : Node) (q q' : List Bool) (h : ¬ q <+: q') (h' : ¬ q' <+: q) :
    (n.put q m').at q' = n.at q' := by
  induction q generalizing n q' with
  | nil => exact absurd List.nil_prefix h
  | cons b q ih =>
    cases q' with
    | nil => exact absurd List.nil_prefix h'
    | cons b' q' =>
      cases n with
      | empty => cases b <;> rfl
      | leaf v c => cases b <;> rfl
      | ext hh i => cases b <;> rfl
      | parent l r hh i =>
        cases b <;> cases b'
        · have h1 : ¬ q <+: q' := fun hc => h (List.cons_prefix_cons.mpr ⟨rfl, hc⟩)
          have h2 : ¬ q' <+: q := fun hc => h' (List.cons_prefix_cons.mpr ⟨rfl, hc⟩)
          exact ih l q' h1 h2
        · rfl
        · rfl
        · have h1 : ¬ q <+: q' := fun hc => h (List.cons_prefix_cons.mpr ⟨rfl, hc⟩)
          have h2 : ¬ q' <+: q := fun hc => h' (List.cons_prefix_cons.mpr ⟨rfl, hc⟩)
          exact ih r q' h1 h2

/-- the two paths separate -/
def Apart (q q' : List Bool) : Prop := ¬ q <+: q' ∧ ¬ q' <+: q

theorem Apart.symm {q q' : List Bool} (h : Apart q q') : Apart q' q := ⟨h.2, h.1⟩

theorem Apart.ext {q q' : List Bool} (h : Apart q q') (b : Bool) : Apart q (q' ++ [b]) := by
  refine ⟨?_, fun hc => h.2 ((List.prefix_append _ _).trans hc)⟩
  intro hc
  rcases List.prefix_or_prefix_of_prefix hc (List.prefix_append q' [b]) with h1 | h1
  · exact h.1 h1
  · exact h.2 h1

theorem apart_children (q : List Bool) : Apart (q ++ [false]) (q ++ [true]) := by
  constructor
  · intro h
    have := h.eq_of_length (by simp)
    simp at this
  · intro h
    have := h.eq_of_length (by simp)
    simp at this

/-! ### Sizes -/

theorem Node.size_pos (n : Node) : 0 < n.size := by cases n <;> simp [Node.size]

/-- size of the node a queued path points to -/
def qsize (root : Node) (q : List Bool) : Nat :=
  match root.at q with
  | some m => m.size
  | none => 0

/-- total size of the nodes in the queue -/
def qtotal (root : Node) (queue : List (List Bool)) : Nat := (queue.map (qsize root)).sum

/-- total size of a list of ejected nodes -/
def etotal (l : List (Node × Nat)) : Nat := (l.map (fun x => x.1.size)).sum

theorem etotal_append (a b : List (Node × Nat)) : etotal (a ++ b) = etotal a + etotal b := by
  simp [etotal]

theorem qtotal_put {root m' : Node} {q : List Bool} {queue : List (List Bool)}
    (h : ∀ x ∈ queue, Apart q x) : qtotal (root.put q m') queue = qtotal root queue := by
  unfold qtotal
  congr 1
  apply List.map_congr_left
  intro x hx
  unfold qsize
  rw [Node.at_put _ _ _ _ (h x hx).1 (h x hx).2]

/-- where an ejected or queued node belongs: its path and entries -/
abbrev Place := List Bool × List Pair

/-- What is known of external references while splitting: the old ones, and the places assigned to the
counters of the new version. -/
def XG (X : TileId → List Bool → List Pair → Prop) (ver : Nat) (P : List Place) :
    TileId → List Bool → List Pair → Prop :=
  fun id q T => X id q T ∨ (id.ver = ver ∧ P[id.ctr]? = some (q, T) ∧ 0 < id.ctr)

theorem XG.mono {ver : Nat} {P : List Place} (Q : List Place) (id : TileId) (q : List Bool) (T : List Pair)
    (h : XG X ver P id q T) : XG X ver (P ++ Q) id q T := by
  rcases h with h | ⟨h1, h2, h3⟩
  · exact Or.inl h
  · refine Or.inr ⟨h1, ?_, h3⟩
    have : id.ctr < P.length := by
      by_contra hc; rw [List.getElem?_eq_none (by omega)] at h2; cases h2
    rw [List.getElem?_append_left this]; exact h2

/-- a list of nodes with depths and their places -/
def Placed (cs : Suite) (X : TileId → List Bool → List Pair → Prop) (l : List (Node × Nat))
    (P : List Place) : Prop :=
  List.Forall₂ (fun x (y : Place) => x.2 = y.1.length ∧ Rep cs X Two y.1 x.1 y.2) l P

theorem Placed.mono {l : List (Node × Nat)} {P : List Place} (h : Placed cs X l P)
    (hX : ∀ id q T, X id q T → X' id q T) : Placed cs X' l P := by
  unfold Placed at h ⊢
  induction h with
  | nil => exact List.Forall₂.nil
  | cons a _ ih => exact List.Forall₂.cons ⟨a.1, a.2.mono hX (fun _ _ _ _ hy => hy)⟩ ih

def Node.isParent : Node → Bool
  | .parent _ _ _ _ => true
  | _ => false

def Node.isExt : Node → Bool
  | .ext _ _ => true
  | _ => false

theorem Node.put_isParent (n m : Node) (q : List Bool) (hq : q ≠ []) (h : n.isParent = true) :
    (n.put q m).isParent = true := by
  cases n with
  | parent l r hh i =>
    cases q with
    | nil => exact absurd rfl hq
    | cons b q => cases b <;> rfl
  | empty => cases h
  | leaf v c => cases h
  | ext hh i => cases h

theorem put_nonext (n m : Node) (q : List Bool) (hq : q ≠ []) : (n.put q m).isExt = n.isExt := by
  cases q with
  | nil => exact absurd rfl hq
  | cons b q => cases n <;> cases b <;> rfl

/-- The loop of `makeTile`.  `P` are the places of the counters assigned so far, whose length is
`ctrOffset + 1` plus the number of ejected nodes. -/
theorem makeTileLoop_spec (ver ctrOffset : Nat) (p : List Bool) (S : List Pair) :
    ∀ (fuel : Nat) (queue : List (List Bool)) (weight : Nat) (ejected : List (Node × Nat)) (root : Node)
      (P E : List Place),
      P.length = ctrOffset + 1 → 
      Rep cs (XG X ver (P ++ E)) Two p root S →
      Placed cs (XG X ver (P ++ E)) ejected E →
      (∀ x ∈ ejected, x.1.isParent = true) →
      queue.Pairwise Apart → (∀ q ∈ queue, (root.at q).isSome) →
      qtotal root queue ≤ fuel →
      ∃ root' ejected' E', makeTileLoop cs ver ctrOffset p.length fuel queue weight ejected root =
          .ok (root', ejected') ∧
        Rep cs (XG X ver (P ++ E')) Two p root' S ∧
        Placed cs (XG X ver (P ++ E')) ejected' E' ∧ (E <+: E') ∧
        (∀ x ∈ ejected', x.1.isParent = true) ∧
        etotal ejected' ≤ etotal ejected + qtotal root queue ∧
        ((∀ q ∈ queue, q ≠ []) → root'.isExt = root.isExt ∧ root'.isParent = root.isParent) := by
  intro fuel
  induction fuel with
  | zero =>
    intro queue weight ejected root P E hP hrep hpl hpar hap hat hf
    cases queue with
    | nil => exact ⟨root, ejected, E, by simp [makeTileLoop], hrep, hpl, List.prefix_refl _, hpar, by simp,
        fun _ => ⟨rfl, rfl⟩⟩
    | cons q queue =>
      exfalso
      obtain ⟨m, hm⟩ := Option.isSome_iff_exists.mp (hat q (by simp))
      have := m.size_pos
      simp only [qtotal, List.map_cons, List.sum_cons, qsize, hm] at hf
      omega
  | succ fuel ih =>
    intro queue weight ejected root P E hP hrep hpl hpar hap hat hf
    cases queue with
    | nil => exact ⟨root, ejected, E, by simp [makeTileLoop], hrep, hpl, List.prefix_refl _, hpar, by simp,
        fun _ => ⟨rfl, rfl⟩⟩
    | cons q queue =>
      obtain ⟨m, hm⟩ := Option.isSome_iff_exists.mp (hat q (by simp))
      have hap' := List.pairwise_cons.mp hap
      have hq0 : qtotal root (q :: queue) = m.size + qtotal root queue := by
        simp [qtotal, qsize, hm]
      have hat' : ∀ x ∈ queue, (root.at x).isSome := fun x hx => hat x (by simp [hx])
      -- a node that is not a parent is skipped
      have skip : m.isParent = false →
          makeTileLoop cs ver ctrOffset p.length (fuel + 1) (q :: queue) weight ejected root =
          makeTileLoop cs ver ctrOffset p.length fuel queue weight ejected root := by
        intro hnp
        rw [makeTileLoop]
        rw [hm]
        cases m with
        | parent l r h i => cases hnp
        | empty => rfl
        | leaf v c => rfl
        | ext h i => rfl
      by_cases hmp : m.isParent = false
      · rw [skip hmp]
        have := m.size_pos
        obtain ⟨root', ej', E', g1, g2, g3, g4, g5, g6, g7⟩ := ih queue weight ejected root P E hP hrep hpl hpar
          hap'.2 hat' (by omega)
        exact ⟨root', ej', E', g1, g2, g3, g4, g5, by omega, fun hne => g7 (fun x hx => hne x (by simp [hx]))⟩
      · cases m with
        | empty => exact absurd rfl hmp
        | leaf v c => exact absurd rfl hmp
        | ext h i => exact absurd rfl hmp
        | parent l r h i =>
          rw [makeTileLoop]
          rw [hm]
          simp only
          have hatl : root.at (q ++ [false]) = some l := by
            rw [Node.at_append, hm]; simp [Node.at, Node.at_nil]
          have hatr : root.at (q ++ [true]) = some r := by
            rw [Node.at_append, hm]; simp [Node.at, Node.at_nil]
          have hq2 : qtotal root (queue ++ [q ++ [false], q ++ [true]]) = qtotal root queue + l.size + r.size := by
            have e1 : qsize root (q ++ [false]) = l.size := by unfold qsize; rw [hatl]
            have e2 : qsize root (q ++ [true]) = r.size := by unfold qsize; rw [hatr]
            simp only [qtotal, List.map_append, List.sum_append, List.map_cons, List.map_nil,
              List.sum_cons, List.sum_nil, e1, e2]
            omega
          have hsz : (Node.parent l r h i).size = l.size + r.size + 1 := rfl
          generalize weight + 1 + l.weight cs + r.weight cs +
            (if shouldStoreIntermediate (p.length + q.length) = true then cs.hashSize else 0) -
            (Node.parent l r h i).weight cs = nw
          by_cases hfit : nw ≤ maxTileWeight
          · rw [if_pos hfit]
            -- included: the children join the queue
            obtain ⟨root', ej', E', g1, g2, g3, g4, g5, g6, g7⟩ := ih (queue ++ [q ++ [false], q ++ [true]]) nw ejected root P E
              hP hrep hpl hpar
              (by
                rw [List.pairwise_append]
                refine ⟨hap'.2, ?_, ?_⟩
                · simp [apart_children]
                · intro x hx y hy
                  have := (hap'.1 x hx).symm
                  simp only [List.mem_cons, List.not_mem_nil, or_false] at hy
                  rcases hy with rfl | rfl
                  · exact this.ext false
                  · exact this.ext true)
              (by
                intro x hx
                rcases List.mem_append.mp hx with hx | hx
                · exact hat' x hx
                · simp only [List.mem_cons, List.not_mem_nil, or_false] at hx
                  rcases hx with rfl | rfl
                  · rw [hatl]; rfl
                  · rw [hatr]; rfl)
              (by omega)
            refine ⟨root', ej', E', g1, g2, g3, g4, g5, ?_, ?_⟩
            · omega
            · intro hne
              apply g7
              intro x hx
              rcases List.mem_append.mp hx with hx | hx
              · exact hne x (by simp [hx])
              · simp only [List.mem_cons, List.not_mem_nil, or_false] at hx
                rcases hx with rfl | rfl <;> simp
          · rw [if_neg hfit]
            -- ejected
            obtain ⟨T, hT, hput⟩ := hrep.at hm
            have hlen : ejected.length = E.length := hpl.length_eq
            have hhash := hT.hash_eq (fun i q T _ h => h)
            have hidx : ctrOffset + (ejected ++ [(Node.parent l r h i, p.length + q.length)]).length =
                (P ++ E).length := by simp; omega
            have hget : (P ++ (E ++ [(p ++ q, T)]))[(P ++ E).length]? = some (p ++ q, T) := by
              rw [← List.append_assoc, List.getElem?_append_right (by omega)]; simp
            have hmono : ∀ id q' T', XG X ver (P ++ E) id q' T' → XG X ver (P ++ (E ++ [(p ++ q, T)])) id q' T' := by
              intro id q' T' hx
              rw [← List.append_assoc]; exact hx.mono _
            have hrep2 : Rep cs (XG X ver (P ++ (E ++ [(p ++ q, T)]))) Two p
                (root.put q (.ext ((Node.parent l r h i).hash cs)
                  ⟨ver, ctrOffset + (ejected ++ [(Node.parent l r h i, p.length + q.length)]).length⟩)) S := by
              apply hput _ hmono
              refine ⟨hhash, Or.inr ⟨rfl, ?_, ?_⟩, hT.wf⟩
              · rw [hidx]; exact hget
              · simp only; rw [hidx]; simp; omega
            obtain ⟨root', ej', E', g1, g2, g3, g4, g5, g6, g7⟩ := ih queue weight
              (ejected ++ [(.parent l r h i, p.length + q.length)]) _ P (E ++ [(p ++ q, T)]) hP hrep2
              (by
                have h1 := hpl.mono hmono
                refine List.rel_append h1 (List.Forall₂.cons ⟨by simp, hT.mono hmono (fun _ _ _ _ hy => hy)⟩ List.Forall₂.nil))
              (by
                intro x hx
                rcases List.mem_append.mp hx with hx | hx
                · exact hpar x hx
                · simp only [List.mem_singleton] at hx; subst hx; rfl)
              hap'.2
              (by
                intro x hx
                rw [Node.at_put _ _ _ _ (hap'.1 x hx).1 (hap'.1 x hx).2]
                exact hat' x hx)
              (by
                rw [qtotal_put (fun x hx => hap'.1 x hx)]
                omega)
            refine ⟨root', ej', E', g1, g2, g3, ((List.prefix_append _ _).trans g4), g5, ?_, ?_⟩
            · rw [qtotal_put (fun x hx => hap'.1 x hx), etotal_append] at g6
              rw [hq0]
              have : etotal [(Node.parent l r h i, p.length + q.length)] = (Node.parent l r h i).size := by
                simp [etotal]
              omega
            · intro hne
              have h0 := hne q (by simp)
              obtain ⟨a1, a2⟩ := g7 (fun x hx => hne x (by simp [hx]))
              have : root.isParent = true := by
                cases root with
                | parent _ _ _ _ => rfl
                | empty => cases q with
                  | nil => exact absurd rfl h0
                  | cons b q => simp [Node.at] at hm
                | leaf _ _ => cases q with
                  | nil => exact absurd rfl h0
                  | cons b q => simp [Node.at] at hm
                | ext _ _ => cases q with
                  | nil => exact absurd rfl h0
                  | cons b q => simp [Node.at] at hm
              refine ⟨by rw [a1, put_nonext _ _ _ h0], by rw [a2, Node.put_isParent _ _ _ h0 this, this]⟩

/-- A hash size for which two leaves always fit into a tile.  All registered suites have 32. -/
def Small (cs : Suite) : Prop := cs.hashSize ≤ 32

theorem Node.weight_le (hs : Small cs) (n : Node) : n.weight cs ≤ 65 := by
  unfold Small at hs
  cases n <;> simp only [Node.weight] <;> omega

theorem makeTile_spec (hsm : Small cs) (ver ctrOffset : Nat) (p : List Bool) (S : List Pair) (root : Node)
    (P : List Place) (hP : P.length = ctrOffset + 1) (hrep : Rep cs (XG X ver P) Two p root S)
    (hne : root.isExt = false) :
    ∃ root' ejected E, makeTile cs ver ctrOffset root p.length = .ok (root', ejected) ∧
      Rep cs (XG X ver (P ++ E)) Two p root' S ∧ Placed cs (XG X ver (P ++ E)) ejected E ∧
      (∀ x ∈ ejected, x.1.isParent = true) ∧ etotal ejected < root.size ∧
      root'.isExt = false ∧ root'.isParent = root.isParent := by
  unfold makeTile
  cases root with
  | ext h i => cases hne
  | empty => exact ⟨.empty, [], [], rfl, by simpa using hrep, List.Forall₂.nil, by simp, by simp [etotal, Node.size], rfl, rfl⟩
  | leaf v c => exact ⟨.leaf v c, [], [], rfl, by simpa using hrep, List.Forall₂.nil, by simp, by simp [etotal, Node.size], rfl, rfl⟩
  | parent l r h i =>
    have hsz : (Node.parent l r h i).size = (l.size + r.size) + 1 := rfl
    rw [hsz, makeTileLoop]
    simp only [Node.at_nil, List.length_nil, List.nil_append, Nat.add_zero]
    have hw : (Node.parent l r h i).weight cs + 1 + l.weight cs + r.weight cs +
        (if shouldStoreIntermediate p.length = true then cs.hashSize else 0) -
        (Node.parent l r h i).weight cs ≤ maxTileWeight := by
      have h1 := l.weight_le hsm
      have h2 := r.weight_le hsm
      have h3 : (if shouldStoreIntermediate p.length = true then cs.hashSize else 0) ≤ 32 := by
        unfold Small at hsm
        split <;> omega
      unfold maxTileWeight
      omega
    rw [if_pos hw]
    obtain ⟨root', ej, E, g1, g2, g3, _, g5, g6, g7⟩ := makeTileLoop_spec (cs := cs) (X := X) ver ctrOffset p S
      (l.size + r.size) [[false], [true]] _ [] (.parent l r h i) P [] hP (by simpa using hrep) List.Forall₂.nil
      (by simp) (by simpa using apart_children []) (by simp [Node.at, Node.at_nil])
      (by simp [qtotal, qsize, Node.at, Node.at_nil])
    refine ⟨root', ej, E, g1, g2, g3, g5, ?_, ?_⟩
    · have : qtotal (.parent l r h i) [[false], [true]] = l.size + r.size := by
        simp [qtotal, qsize, Node.at, Node.at_nil]
      have e0 : etotal [] = 0 := rfl
      omega
    · exact g7 (by simp)

/-- The tiles written so far sit at the places `P`. -/
def Tiled (cs : Suite) (X : TileId → List Bool → List Pair → Prop) (ver : Nat) (out : List Tile)
    (P : List Place) : Prop :=
  ∀ c t, out[c]? = some t → ∃ q T, P[c]? = some (q, T) ∧ t.id = ⟨ver, c⟩ ∧ t.depth = q.length ∧
    t.root.isExt = false ∧ (0 < c → t.root.isParent = true) ∧ Rep cs X Two q t.root T

theorem splitLoop_spec (hsm : Small cs) (ver B : Nat) (y0 : Place) : ∀ (fuel : Nat) (queue : List (Node × Nat)) (out : List Tile)
    (P Q : List Place),
    P.length = out.length → (P ++ Q)[0]? = some y0 →
    Tiled cs (XG X ver (P ++ Q)) ver out P → Placed cs (XG X ver (P ++ Q)) queue Q →
    (∀ x ∈ queue, x.1.isExt = false) → (∀ x ∈ queue, x.1.isParent = true ∨ out.length = 0) →
    (out.length = 0 → queue.length ≤ 1) →
    etotal queue ≤ fuel → out.length + etotal queue ≤ B →
    ∃ tiles P', splitLoop cs ver fuel queue out = .ok tiles ∧ P'.length = tiles.length ∧
      P'[0]? = some y0 ∧ Tiled cs (XG X ver P') ver tiles P' ∧ tiles.length ≤ B := by
  intro fuel
  induction fuel with
  | zero =>
    intro queue out P Q hl h0 ht hp hne hpar h1 hf hB
    cases queue with
    | nil =>
      have : Q = [] := by cases hp; rfl
      subst this
      exact ⟨out, P, by simp [splitLoop], hl, by simpa using h0, by simpa using ht, by omega⟩
    | cons x queue =>
      have := x.1.size_pos
      simp [etotal] at hf
      omega
  | succ fuel ih =>
    intro queue out P Q hl h0 ht hp hne hpar h1 hf hB
    cases queue with
    | nil =>
      have : Q = [] := by cases hp; rfl
      subst this
      exact ⟨out, P, by simp [splitLoop], hl, by simpa using h0, by simpa using ht, by omega⟩
    | cons x queue =>
      obtain ⟨nd, depth⟩ := x
      cases Q with
      | nil => cases hp
      | cons y Q =>
        obtain ⟨q, T⟩ := y
        unfold Placed at hp
        rw [List.forall₂_cons] at hp
        obtain ⟨⟨hd, hrep⟩, hrest⟩ := hp
        simp only at hd hrep
        subst hd
        have hQl : queue.length = Q.length := hrest.length_eq
        obtain ⟨root', ej, E, g1, g2, g3, g4, g5, g6, g7⟩ := makeTile_spec hsm ver (out.length + queue.length) q T nd
          (P ++ (q, T) :: Q) (by simp; omega) hrep (hne (nd, q.length) (by simp))
        unfold splitLoop
        rw [g1]
        simp only [G.ok_bind]
        have hmono : ∀ id q' T', XG X ver (P ++ (q, T) :: Q) id q' T' →
            XG X ver (P ++ (q, T) :: Q ++ E) id q' T' := fun id q' T' hx => hx.mono E
        have hassoc : (P ++ [(q, T)]) ++ (Q ++ E) = P ++ (q, T) :: Q ++ E := by simp
        have het : etotal ((nd, q.length) :: queue) = nd.size + etotal queue := by simp [etotal]
        obtain ⟨tiles, P', k1, k2, k3, k4, k5⟩ := ih (queue ++ ej) (out ++ [⟨⟨ver, out.length⟩, q.length, root'⟩])
          (P ++ [(q, T)]) (Q ++ E) (by simp [hl])
          (by
            rw [hassoc, List.getElem?_append_left (by simp only [List.length_append, List.length_cons]; omega)]; exact h0)
          (by
            rw [hassoc]
            intro c t hc
            by_cases hcl : c < out.length
            · rw [List.getElem?_append_left hcl] at hc
              obtain ⟨q', T', m1, m2, m3, m4, m5, m6⟩ := ht c t hc
              refine ⟨q', T', ?_, m2, m3, m4, m5, m6.mono hmono (fun _ _ _ _ hy => hy)⟩
              rw [List.getElem?_append_left (by omega)]; exact m1
            · rw [List.getElem?_append_right (by omega)] at hc
              have hc0 : c - out.length = 0 := by
                by_contra hcc
                rw [List.getElem?_eq_none (by simp; omega)] at hc; cases hc
              rw [hc0] at hc
              have hcc : c = out.length := by omega
              simp only [List.getElem?_cons_zero, Option.some.injEq] at hc
              subst hc
              refine ⟨q, T, ?_, by rw [hcc], rfl, g6, ?_, g2⟩
              · rw [hcc, ← hl]; simp
              · intro hpos
                simp only
                rw [g7]
                rcases hpar (nd, q.length) (by simp) with h | h
                · exact h
                · omega)
          (by
            rw [hassoc]
            exact List.rel_append (Placed.mono (l := queue) hrest hmono) g3)
          (by
            intro x hx
            rcases List.mem_append.mp hx with hx | hx
            · exact hne x (by simp [hx])
            · have := g4 x hx
              cases hxx : x.1 <;> rw [hxx] at this <;> simp_all [Node.isExt, Node.isParent])
          (by
            intro x hx
            left
            rcases List.mem_append.mp hx with hx | hx
            · rcases hpar x (by simp [hx]) with h | h
              · exact h
              · have := h1 h
                have : queue = [] := List.eq_nil_of_length_eq_zero (by simp only [List.length_cons] at this; omega)
                subst this; cases hx
            · exact g4 x hx)
          (by simp) (by rw [etotal_append]; omega)
          (by rw [etotal_append]; simp; omega)
        exact ⟨tiles, P', k1, k2, k3, k4, k5⟩

theorem splitIntoTiles_spec (hsm : Small cs) (ver : Nat) (root : Node) (S : List Pair)
    (hrep : Rep cs X Two [] root S) (hne : root.isExt = false) :
    ∃ tiles P, splitIntoTiles cs ver root = .ok tiles ∧ P.length = tiles.length ∧
      P[0]? = some ([], S) ∧ Tiled cs (XG X ver P) ver tiles P ∧ tiles.length ≤ root.size := by
  unfold splitIntoTiles
  exact splitLoop_spec hsm ver root.size ([], S) root.size [(root, 0)] [] [] [([], S)] rfl rfl
    (by intro c t h; simp at h)
    (List.Forall₂.cons ⟨rfl, hrep.mono (fun _ _ _ h => Or.inl h) (fun _ _ _ _ h => h)⟩ List.Forall₂.nil)
    (by simpa using hne) (by simp) (by simp) (by simp [etotal]) (by simp [etotal])

end Katie.Prefix
