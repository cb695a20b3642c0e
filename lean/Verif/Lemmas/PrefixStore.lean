import Verif.Lemmas.PrefixTile
import Verif.Lemmas.Log

/-
The database of tiles: encoding, decoding, loading a version.
-/

namespace Katie.Prefix
open Katie Katie.PrefixSpec

variable {cs : Suite} {X X' : TileId → List Bool → List Pair → Prop}
  {Y Y' : Option TileId → List Bool → List Pair → Prop}

/-- the hash has the declared size -/
theorem th_length (hcs : cs.Good) {p : List Bool} {S : List Pair} (h : Wf cs.hashSize p S) :
    (th cs p S).length = cs.hashSize := by
  match S, h with
  | [], _ => unfold th; cases (8 * cs.hashSize - p.length) <;> simp [trieHash]
  | [(v, c)], _ => unfold th; cases (8 * cs.hashSize - p.length) <;> simp [trieHash, hcs.2]
  | a :: b :: S, h =>
    have hlt := h.lt (by simp)
    unfold th
    have e : 8 * cs.hashSize - p.length = (8 * cs.hashSize - (p.length + 1)) + 1 := by omega
    rw [e, trieHash_two _ _ _ _ _ (by simp)]
    exact hcs.2 _

/-- What a decoded node looks like: cached hashes at every fourth level, parents know their tile. -/
def Node.decoded (cs : Suite) (id : TileId) : Node → Nat → Node
  | .parent l r h i, d => .parent (l.decoded cs id (d + 1)) (r.decoded cs id (d + 1))
      (if shouldStoreIntermediate d then some ((Node.parent l r h i).hash cs) else none) (some id)
  | n, _ => n

/-- bounds that make a reference encodable -/
def Encodable (id : TileId) : Prop := id.ver < 2 ^ 64 ∧ id.ctr < 2 ^ 64

theorem unmarshalNode_marshal (hcs : cs.Good) (id : TileId) (hX : ∀ j q T, X j q T → Encodable j) (n : Node) :
    ∀ (p : List Bool) (S : List Pair) (rest : Bytes) (fuel : Nat), Rep cs X Two p n S → n.size ≤ fuel →
      unmarshalNode cs id fuel p.length (n.marshal cs p.length ++ rest) =
        .ok (n.decoded cs id p.length, rest) := by
  induction n with
  | empty =>
    intro p S rest fuel hrep hf
    obtain ⟨f, rfl⟩ : ∃ f, fuel = f + 1 := ⟨fuel - 1, by simp [Node.size] at hf; omega⟩
    simp [unmarshalNode, Node.marshal, readByte, Node.decoded]
  | leaf v c =>
    intro p S rest fuel hrep hf
    obtain ⟨f, rfl⟩ : ∃ f, fuel = f + 1 := ⟨fuel - 1, by simp [Node.size] at hf; omega⟩
    obtain ⟨_, _, h1, h2⟩ := hrep
    simp [unmarshalNode, Node.marshal, readByte, Node.decoded, readFull_append _ _ _ h1,
      readFull_append _ _ _ h2]
  | ext h i =>
    intro p S rest fuel hrep hf
    obtain ⟨f, rfl⟩ : ∃ f, fuel = f + 1 := ⟨fuel - 1, by simp [Node.size] at hf; omega⟩
    have h1 : h.length = cs.hashSize := by rw [hrep.1]; exact th_length hcs hrep.2.2
    have he := hX _ _ _ hrep.2.1
    simp [unmarshalNode, Node.marshal, readByte, Node.decoded, readFull_append _ _ _ h1,
      readUvarint_enc _ he.1, readUvarint_enc _ he.2]
  | parent l r h i ihl ihr =>
    intro p S rest fuel hrep hf
    have hsz : (Node.parent l r h i).size = l.size + r.size + 1 := rfl
    obtain ⟨f, rfl⟩ : ∃ f, fuel = f + 1 := ⟨fuel - 1, by omega⟩
    have hl := l.size_pos
    have hr := r.size_pos
    have hhl : ((Node.parent l r h i).hash cs).length = cs.hashSize := by
      rw [hrep.hash_eq (fun _ _ _ _ h => h)]; exact th_length hcs hrep.wf
    obtain ⟨Sl, Sr, rfl, h1, h2, h3, h4⟩ := hrep
    have e1 := fun rest => ihl (p ++ [false]) Sl rest f h1 (by omega)
    have e2 := fun rest => ihr (p ++ [true]) Sr rest f h2 (by omega)
    simp only [List.length_append, List.length_singleton] at e1 e2
    unfold unmarshalNode Node.marshal
    simp only [List.cons_append, readByte, G.pure_eq, G.ok_bind, List.append_assoc, if_true]
    cases hsi : shouldStoreIntermediate p.length with
    | true =>
      simp only [if_true]
      rw [readFull_append _ _ _ hhl]
      simp only [G.ok_bind]
      rw [e1]
      simp only [G.ok_bind]
      rw [e2]
      simp [Node.decoded, hsi]
    | false =>
      simp only [Bool.false_eq_true, if_false, List.nil_append]
      rw [e1]
      simp only [G.ok_bind]
      rw [e2]
      simp [Node.decoded, hsi]

theorem Node.size_le_marshal (n : Node) : ∀ d, n.size ≤ (n.marshal cs d).length := by
  induction n with
  | empty => intro d; simp [Node.size, Node.marshal]
  | leaf v c => intro d; simp [Node.size, Node.marshal]
  | ext h i => intro d; simp [Node.size, Node.marshal]
  | parent l r h i ihl ihr =>
    intro d
    have := ihl (d + 1)
    have := ihr (d + 1)
    simp only [Node.size, Node.marshal, List.length_cons, List.length_append]
    omega

/-- A tile is read back as written. -/
theorem unmarshalTile_marshal (hcs : cs.Good) (hX : ∀ j q T, X j q T → Encodable j) (t : Tile) (p : List Bool)
    (S : List Pair) (hrep : Rep cs X Two p t.root S) (hd : t.depth = p.length) (h255 : t.depth ≤ 255)
    (id : TileId) :
    ∃ raw, t.marshal cs = .ok raw ∧
      unmarshalTile cs id raw = .ok ⟨id, t.depth, t.root.decoded cs id t.depth⟩ := by
  refine ⟨UInt8.ofNat t.depth :: t.root.marshal cs t.depth, ?_, ?_⟩
  · unfold Tile.marshal; rw [if_neg (by omega)]; rfl
  · unfold unmarshalTile
    have e : (UInt8.ofNat t.depth).toNat = t.depth := by simp; omega
    simp only [readByte, G.pure_eq, G.ok_bind, e]
    have h := unmarshalNode_marshal hcs id hX t.root p S [] ((t.root.marshal cs t.depth).length + 1) hrep
      (by have := t.root.size_le_marshal (cs := cs) t.depth; omega)
    rw [← hd, List.append_nil] at h
    rw [h]
    simp

theorem decoded_isExt (id : TileId) (n : Node) (d : Nat) : (n.decoded cs id d).isExt = n.isExt := by
  cases n <;> rfl

theorem decoded_isParent (id : TileId) (n : Node) (d : Nat) : (n.decoded cs id d).isParent = n.isParent := by
  cases n <;> rfl

/-- knowledge about the parents of a decoded tile -/
def InTile (id : TileId) (i : Option TileId) (_ : List Bool) (T : List Pair) : Prop :=
  i = some id ∧ 2 ≤ T.length

theorem Rep.decoded {id : TileId} (n : Node) : ∀ {p : List Bool} {S : List Pair}, Rep cs X Two p n S →
    Rep cs X (InTile id) p (n.decoded cs id p.length) S := by
  induction n with
  | empty => intro p S h; exact h
  | leaf v c => intro p S h; exact h
  | ext hh i => intro p S h; exact h
  | parent l r hh i ihl ihr =>
    intro p S h
    have hash := h.hash_eq (fun _ _ _ _ h => h)
    obtain ⟨Sl, Sr, rfl, h1, h2, h3, h4⟩ := h
    have g1 := ihl h1
    have g2 := ihr h2
    simp only [List.length_append, List.length_singleton] at g1 g2
    refine ⟨Sl, Sr, rfl, g1, g2, ⟨rfl, h3⟩, ?_⟩
    intro x hx
    split at hx
    · rw [← Option.some.inj hx]; exact hash
    · cases hx

/-- Every parent is found at its path. -/
theorem Rep.self {p : List Bool} {n : Node} {S : List Pair} (h : Rep cs X Y p n S) :
    Rep cs X (fun i q T => Y i q T ∧ ∃ m, n.at (q.drop p.length) = some m ∧ m.isParent = true ∧
      p <+: q ∧ Rep cs X Y q m T) p n S := by
  induction n generalizing p S with
  | empty => exact h
  | leaf v c => exact h
  | ext hh i => exact h
  | parent l r hh i ihl ihr =>
    have hself := h
    obtain ⟨Sl, Sr, rfl, h1, h2, h3, h4⟩ := h
    refine ⟨Sl, Sr, rfl, (ihl h1).mono (fun _ _ _ h => h) ?_, (ihr h2).mono (fun _ _ _ h => h) ?_, ?_, h4⟩
    · rintro i q T hq ⟨a1, m, a2, a3, a4, a5⟩
      refine ⟨a1, m, ?_, a3, (List.prefix_append _ _).trans a4, a5⟩
      obtain ⟨t, rfl⟩ := a4
      rw [List.drop_left' rfl] at a2
      rw [List.append_assoc, List.drop_left' rfl]
      simpa [Node.at] using a2
    · rintro i q T hq ⟨a1, m, a2, a3, a4, a5⟩
      refine ⟨a1, m, ?_, a3, (List.prefix_append _ _).trans a4, a5⟩
      obtain ⟨t, rfl⟩ := a4
      rw [List.drop_left' rfl] at a2
      rw [List.append_assoc, List.drop_left' rfl]
      simpa [Node.at] using a2
    · exact ⟨h3, _, by simp [Node.at_nil], rfl, List.prefix_refl _, hself⟩

/-! ### The store -/

/-- In the store, tile `id` holds at path `p` a node representing `S`. -/
def Holds (cs : Suite) (st : Store) (X : TileId → List Bool → List Pair → Prop) (id : TileId) (p : List Bool)
    (S : List Pair) : Prop :=
  ∃ t n, getTile cs st id = .ok t ∧ t.depth ≤ p.length ∧ t.root.at (p.drop t.depth) = some n ∧
    n.isExt = false ∧ Rep cs X (fun i q T => i = some id ∧ 2 ≤ T.length ∧ X id q T) p n S

/-- Every known reference is stored, and belongs to a version up to `ver`. -/
structure Closed (cs : Suite) (st : Store) (ver : Nat) (X : TileId → List Bool → List Pair → Prop) : Prop where
  holds : ∀ id p S, X id p S → Holds cs st X id p S
  two : ∀ id p S, X id p S → 2 ≤ S.length
  enc : ∀ id p S, X id p S → Encodable id
  ver : ∀ id p S, X id p S → id.ver ≤ ver
  place : ∃ pl : TileId → List Bool, (∀ id, id.ctr = 0 → pl id = []) ∧
    ∀ id p S, X id p S → pl id <+: p ∧ ∀ t, getTile cs st id = .ok t → t.depth = (pl id).length

theorem walkTile_at (v : Bytes) (t : List Bool) : ∀ (n m : Node) (p : List Bool),
    On (p ++ t) v → n.at t = some m → walkTile v t.length n p.length = .ok m := by
  induction t with
  | nil => intro n m p _ h; rw [Node.at_nil] at h; obtain rfl := Option.some.inj h; cases n <;> rfl
  | cons b t ih =>
    intro n m p hon h
    cases n with
    | empty => simp [Node.at] at h
    | leaf v c => simp [Node.at] at h
    | ext hh i => simp [Node.at] at h
    | parent l r hh i =>
      have hon' : On ((p ++ [b]) ++ t) v := by simpa using hon
      have hb : On (p ++ [b]) v := (List.prefix_append _ _).trans hon'
      obtain ⟨_, hlt, hbit⟩ := on_snoc.mp hb
      simp only [List.length_cons, walkTile]
      rw [getBit_eq _ _ hlt, hbit]
      simp only [G.ok_bind]
      have e : p.length + 1 = (p ++ [b]).length := by simp
      rw [e]
      cases b with
      | true => simp only [if_true]; exact ih r m _ hon' h
      | false => simp only [Bool.false_eq_true, if_false]; exact ih l m _ hon' h

theorem splitVrfs_below {V : List Bytes} {hs : Nat} (hlen : ∀ v ∈ V, v.length = hs) (p : List Bool)
    (hp : p.length < 8 * hs) :
    splitVrfs (below id V p) p.length = .ok (below id V (p ++ [false]), below id V (p ++ [true])) := by
  have gen : ∀ L : List Bytes, (∀ v ∈ L, v.length = hs) →
      (below id L p).mapM (fun v => getBit v p.length) =
        (.ok ((below id L p).map (fun v => bitAt v p.length)) : G (List Bool)) ∧
      (((below id L p).zip ((below id L p).map (fun v => bitAt v p.length))).filter (fun x => !x.2)).map Prod.fst =
        below id L (p ++ [false]) ∧
      (((below id L p).zip ((below id L p).map (fun v => bitAt v p.length))).filter (fun x => x.2)).map Prod.fst =
        below id L (p ++ [true]) := by
    intro L
    induction L with
    | nil => intro _; exact ⟨rfl, rfl, rfl⟩
    | cons v L ih =>
      intro hl
      have ⟨i1, i2, i3⟩ := ih (fun x hx => hl x (by simp [hx]))
      have hlv := hl v (by simp)
      by_cases hon : On p v
      · have hst := hon.step (by rw [hlv]; exact hp)
        have e0 : below id (v :: L) p = v :: below id L p := by simp [below, hon]
        cases hb : bitAt v p.length with
        | true =>
          rw [hb] at hst
          have hn : ¬ On (p ++ [false]) v := by intro h; have := h.bit; rw [hb] at this; cases this
          have e1 : below id (v :: L) (p ++ [true]) = v :: below id L (p ++ [true]) := by simp [below, hst]
          have e2 : below id (v :: L) (p ++ [false]) = below id L (p ++ [false]) := by simp [below, hn]
          rw [e0, e1, e2, List.mapM_cons, getBit_eq _ _ (by rw [hlv]; exact hp), i1]
          simp [hb, i2, i3]
        | false =>
          rw [hb] at hst
          have hn : ¬ On (p ++ [true]) v := by intro h; have := h.bit; rw [hb] at this; cases this
          have e1 : below id (v :: L) (p ++ [true]) = below id L (p ++ [true]) := by simp [below, hn]
          have e2 : below id (v :: L) (p ++ [false]) = v :: below id L (p ++ [false]) := by simp [below, hst]
          rw [e0, e1, e2, List.mapM_cons, getBit_eq _ _ (by rw [hlv]; exact hp), i1]
          simp [hb, i2, i3]
      · have h0 : ¬ On (p ++ [false]) v := fun h => hon h.up
        have h1 : ¬ On (p ++ [true]) v := fun h => hon h.up
        have e0 : below id (v :: L) p = below id L p := by simp [below, hon]
        have e1 : below id (v :: L) (p ++ [true]) = below id L (p ++ [true]) := by simp [below, h1]
        have e2 : below id (v :: L) (p ++ [false]) = below id L (p ++ [false]) := by simp [below, h0]
        rw [e0, e1, e2]; exact ⟨i1, i2, i3⟩
  obtain ⟨h1, h2, h3⟩ := gen V hlen
  unfold splitVrfs
  rw [h1]
  simp only [G.ok_bind, G.pure_eq, h2, h3]

/-- what is known of the parents of a loaded tree -/
def Loaded (X : TileId → List Bool → List Pair → Prop) (i : Option TileId) (q : List Bool) (T : List Pair) : Prop :=
  2 ≤ T.length ∧ ∃ j, i = some j ∧ X j q T

/-- `expand` keeps the represented entries, resolves every reference on a requested path, and depends only on
the known references' tiles. -/
theorem expand_spec {st : Store} {ver : Nat} (hc : Closed cs st ver X) {V : List Bytes}
    (hlen : ∀ v ∈ V, v.length = cs.hashSize) (fuel : Nat) : ∀ (n : Node) (p : List Bool) (S : List Pair),
    Rep cs X (Loaded X) p n S → 2 * (8 * cs.hashSize - p.length) + (if n.isExt then 2 else 1) ≤ fuel →
    ∃ n', (∀ st' : Store, (∀ id q T, X id q T → st'.lookup id = st.lookup id) →
        expand cs st' fuel n (below id V p) p.length = .ok n') ∧
      Rep cs (fun i q T => X i q T ∧ below id V q = []) (Loaded X) p n' S ∧
      (below id V p ≠ [] → n'.isExt = false) := by
  induction fuel with
  | zero => intro n p S _ hf; split at hf <;> omega
  | succ f ih =>
    intro n p S hrep hf
    cases hb : below id V p with
    | nil =>
      refine ⟨n, fun st' _ => by simp [expand], ?_, by simp⟩
      clear hf ih
      have : ∀ q, p <+: q → below id V q = [] := fun q hq => below_nil_of_prefix hq hb
      clear hb
      induction n generalizing p S with
      | empty => exact hrep
      | leaf v c => exact hrep
      | ext hh i => exact ⟨hrep.1, ⟨hrep.2.1, this p (List.prefix_refl _)⟩, hrep.2.2⟩
      | parent l r hh i ihl ihr =>
        obtain ⟨Sl, Sr, rfl, h1, h2, h3, h4⟩ := hrep
        exact ⟨Sl, Sr, rfl, ihl _ _ h1 (fun q hq => this q ((List.prefix_append _ _).trans hq)),
          ihr _ _ h2 (fun q hq => this q ((List.prefix_append _ _).trans hq)), h3, h4⟩
    | cons v vs =>
      cases n with
      | empty => exact ⟨.empty, fun st' _ => by simp [expand], hrep, fun _ => rfl⟩
      | leaf w c => exact ⟨.leaf w c, fun st' _ => by simp [expand], hrep, fun _ => rfl⟩
      | parent l r h i =>
        have hwf := hrep.wf
        obtain ⟨Sl, Sr, rfl, h1, h2, h3, h4⟩ := hrep
        have hlt := hwf.lt h3.1
        have fl : ∀ b (m : Node), 2 * (8 * cs.hashSize - (p ++ [b]).length) + (if m.isExt then 2 else 1) ≤ f := by
          intro b m
          simp only [Node.isExt, Bool.false_eq_true, if_false] at hf
          simp only [List.length_append, List.length_singleton]
          split <;> omega
        obtain ⟨l', el, rl, _⟩ := ih l (p ++ [false]) Sl h1 (fl _ _)
        obtain ⟨r', er, rr, _⟩ := ih r (p ++ [true]) Sr h2 (fl _ _)
        refine ⟨.parent l' r' h i, ?_, ⟨Sl, Sr, rfl, rl, rr, h3, h4⟩, fun _ => rfl⟩
        intro st' hst'
        unfold expand
        simp only
        rw [← hb, splitVrfs_below hlen p hlt]
        simp only [G.ok_bind]
        have e1 := el st' hst'
        have e2 := er st' hst'
        simp only [List.length_append, List.length_singleton] at e1 e2
        rw [e1]
        simp only [G.ok_bind]
        rw [e2]
        rfl
      | ext h id =>
        obtain ⟨t, m, g1, g2, g3, g4, g5⟩ := hc.holds _ _ _ hrep.2.1
        have g5' : Rep cs X (Loaded X) p m S :=
          g5.mono (fun _ _ _ h => h) (fun i q T _ h => ⟨h.2.1, id, h.1, h.2.2⟩)
        obtain ⟨n', en, rn, xn⟩ := ih m p S g5' (by
          rw [g4]; simp only [Node.isExt, if_true] at hf; simp; omega)
        refine ⟨n', ?_, rn, fun _ => xn (by rw [hb]; simp)⟩
        intro st' hst'
        unfold expand
        simp only
        have hg : getTile cs st' id = .ok t := by
          unfold getTile at g1 ⊢
          rw [hst' _ _ _ hrep.2.1]; exact g1
        rw [hg]
        simp only [G.ok_bind]
        have hv := mem_below.mp (by rw [hb]; simp : v ∈ below _root_.id V p)
        have hw : walkTile v (p.length - t.depth) t.root t.depth = .ok m := by
          have := walkTile_at v (p.drop t.depth) t.root m (p.take t.depth)
            (by rw [List.take_append_drop]; exact hv.2) g3
          simp only [List.length_drop, List.length_take] at this
          rwa [Nat.min_eq_left g2] at this
        rw [hw]
        simp only [G.ok_bind]
        have := en st' hst'
        rw [hb] at this
        exact this

/-- Loading a version for a non-empty list of VRF outputs. -/
theorem loadVersion_spec {st : Store} {ver v : Nat} (hc : Closed cs st ver X) {S : List Pair}
    (hroot : Holds cs st X ⟨v, 0⟩ [] S) {V : List Bytes} (hV : V ≠ [])
    (hlen : ∀ v ∈ V, v.length = cs.hashSize) :
    ∃ n', (∀ st' : Store, (∀ id q T, X id q T → st'.lookup id = st.lookup id) →
        st'.lookup ⟨v, 0⟩ = st.lookup ⟨v, 0⟩ → loadVersion cs st' v V = .ok n') ∧
      Rep cs (fun i q T => X i q T ∧ below id V q = []) (Loaded X) [] n' S ∧ n'.isExt = false := by
  obtain ⟨t, m, g1, g2, g3, g4, g5⟩ := hroot
  have g5' : Rep cs X (Loaded X) [] m S :=
    g5.mono (fun _ _ _ h => h) (fun i q T _ h => ⟨h.2.1, _, h.1, h.2.2⟩)
  obtain ⟨n', en, rn, xn⟩ := expand_spec hc hlen (2 * (8 * cs.hashSize) + 2) m [] S g5' (by
    rw [g4]; simp)
  rw [below_root] at en xn
  refine ⟨n', ?_, rn, xn hV⟩
  intro st' hst' hl
  unfold loadVersion
  obtain ⟨w, ws, rfl⟩ : ∃ w ws, V = w :: ws := by
    cases V with
    | nil => exact absurd rfl hV
    | cons w ws => exact ⟨w, ws, rfl⟩
  unfold expand
  simp only
  have hg : getTile cs st' ⟨v, 0⟩ = .ok t := by
    unfold getTile at g1 ⊢
    rw [hl]; exact g1
  rw [hg]
  simp only [G.ok_bind]
  have hd : t.depth = 0 := by simpa using g2
  rw [hd] at g3
  simp only [List.drop_nil, Node.at_nil, Option.some.injEq] at g3
  subst g3
  have hw : walkTile w (0 - t.depth) t.root t.depth = .ok t.root := by
    rw [Nat.zero_sub]; cases t.root <;> rfl
  rw [hw]
  exact en st' hst'

end Katie.Prefix
