import Verif.Lemmas.PrefixTrie
import Verif.Lemmas.PrefixProof
import Verif.Lemmas.PrefixStore

/-
What equal hashes say about two trees.
-/

namespace Katie.Prefix
open Katie Katie.PrefixSpec

variable {cs : Suite}

/-- The strings hashed when hashing a node without cached hashes. -/
def Node.inputs (cs : Suite) : Node → List Bytes
  | .leaf v c => [2 :: (v ++ c)]
  | .parent l r h i => (3 :: (l.hash cs ++ r.hash cs)) :: (Node.inputs cs l ++ Node.inputs cs r)
  | _ => []

/-- sizes are right and no hash is cached -/
def Node.Sized (hs : Nat) : Node → Prop
  | .empty => True
  | .leaf v _ => v.length = hs
  | .parent l r h _ => h = none ∧ Node.Sized hs l ∧ Node.Sized hs r
  | .ext h _ => h.length = hs

/-- the two trees say the same wherever both say something -/
def Agree : Node → Node → Prop
  | .ext _ _, _ => True
  | _, .ext _ _ => True
  | .empty, .empty => True
  | .leaf v c, .leaf v' c' => v = v' ∧ c = c'
  | .parent l r _ _, .parent l' r' _ _ => Agree l l' ∧ Agree r r'
  | _, _ => False

theorem Node.hash_length (hcs : cs.Good) (n : Node) (h : n.Sized cs.hashSize) :
    (n.hash cs).length = cs.hashSize := by
  cases n with
  | empty => simp [Node.hash]
  | leaf v c => simp [Node.hash, hcs.len]
  | parent l r hh i => obtain ⟨rfl, _, _⟩ := h; simp [Node.hash, hcs.len]
  | ext hh i => exact h

theorem agree_of_hash (hcs : cs.Good) (n : Node) : ∀ (m : Node), n.Sized cs.hashSize → m.Sized cs.hashSize →
    n.hash cs = m.hash cs →
    Agree n m ∨ Collides cs.H (n.inputs cs) (m.inputs cs) ∨
      ZeroDigest cs.H cs.hashSize (n.inputs cs ++ m.inputs cs) := by
  induction n with
  | ext hh i => intro m _ _ _; left; cases m <;> exact trivial
  | empty =>
    intro m _ hm h
    cases m with
    | ext hh i => exact Or.inl trivial
    | empty => exact Or.inl trivial
    | leaf v c => right; right; exact ⟨_, by simp [Node.inputs], h.symm⟩
    | parent l r hh i =>
      obtain ⟨rfl, _, _⟩ := hm
      right; right; exact ⟨_, by simp [Node.inputs], h.symm⟩
  | leaf v c =>
    intro m hn hm h
    cases m with
    | ext hh i => exact Or.inl trivial
    | empty => right; right; exact ⟨_, by simp [Node.inputs], h⟩
    | leaf v' c' =>
      by_cases he : (2 :: (v ++ c) : Bytes) = 2 :: (v' ++ c')
      · left
        have := List.append_inj (List.cons.inj he).2 (by rw [show v.length = _ from hn, show v'.length = _ from hm])
        exact this
      · right; left
        exact ⟨_, by simp [Node.inputs], _, by simp [Node.inputs], he, h⟩
    | parent l r hh i =>
      obtain ⟨rfl, _, _⟩ := hm
      right; left
      exact ⟨2 :: (v ++ c), by simp [Node.inputs], 3 :: (l.hash cs ++ r.hash cs), by simp [Node.inputs], by simp, h⟩
  | parent l r hh i ihl ihr =>
    intro m hn hm h
    obtain ⟨rfl, hl, hr⟩ := hn
    cases m with
    | ext hh i => exact Or.inl trivial
    | empty => right; right; exact ⟨_, by simp [Node.inputs], h⟩
    | leaf v' c' =>
      right; left
      exact ⟨3 :: (l.hash cs ++ r.hash cs), by simp [Node.inputs], 2 :: (v' ++ c'), by simp [Node.inputs], by simp, h⟩
    | parent l' r' hh' i' =>
      obtain ⟨rfl, hl', hr'⟩ := hm
      by_cases he : (3 :: (l.hash cs ++ r.hash cs) : Bytes) = 3 :: (l'.hash cs ++ r'.hash cs)
      · obtain ⟨e1, e2⟩ := List.append_inj (List.cons.inj he).2
          (by rw [Node.hash_length hcs l hl, Node.hash_length hcs l' hl'])
        have sub : ∀ {A A' B B' : List Bytes}, (∀ x ∈ A, x ∈ A') → (∀ x ∈ B, x ∈ B') →
            (Collides cs.H A B ∨ ZeroDigest cs.H cs.hashSize (A ++ B)) →
            (Collides cs.H A' B' ∨ ZeroDigest cs.H cs.hashSize (A' ++ B')) := by
          rintro A A' B B' hA hB (⟨a, ha, b, hb, h⟩ | ⟨a, ha, h⟩)
          · exact Or.inl ⟨a, hA a ha, b, hB b hb, h⟩
          · refine Or.inr ⟨a, ?_, h⟩
            rcases List.mem_append.mp ha with ha | ha
            · exact List.mem_append_left _ (hA a ha)
            · exact List.mem_append_right _ (hB a ha)
        rcases ihl l' hl hl' e1 with a1 | a1
        · rcases ihr r' hr hr' e2 with a2 | a2
          · exact Or.inl ⟨a1, a2⟩
          · right
            exact sub (fun x hx => by simp [Node.inputs, hx]) (fun x hx => by simp [Node.inputs, hx]) a2
        · right
          exact sub (fun x hx => by simp [Node.inputs, hx]) (fun x hx => by simp [Node.inputs, hx]) a1
      · right; left
        exact ⟨_, by simp [Node.inputs], _, by simp [Node.inputs], he, h⟩

/-! ### The full tree of a map -/

/-- the trie over `S` as a node -/
def full (k d : Nat) (S : List Pair) : Node :=
  match k, S with
  | _, [] => .empty
  | _, [(v, c)] => .leaf v c
  | 0, _ :: _ :: _ => .empty
  | k + 1, a :: b :: S =>
    .parent (full k (d + 1) ((a :: b :: S).filter fun e => !bitAt e.1 d))
      (full k (d + 1) ((a :: b :: S).filter fun e => bitAt e.1 d)) none none

/-- where the path of `v` ends: an empty node or a leaf, or nowhere -/
def Node.term : Node → Nat → Bytes → Option (Option Pair)
  | .empty, _, _ => some none
  | .leaf w c, _, _ => some (some (w, c))
  | .ext _ _, _, _ => none
  | .parent l r _ _, d, v => if bitAt v d then Node.term r (d + 1) v else Node.term l (d + 1) v

theorem Agree.term {n m : Node} (h : Agree n m) {d : Nat} {v : Bytes} {a b : Option Pair}
    (hn : n.term d v = some a) (hm : m.term d v = some b) : a = b := by
  induction n generalizing m d with
  | ext hh i => simp [Node.term] at hn
  | empty =>
    cases m with
    | ext hh i => simp [Node.term] at hm
    | empty => simp [Node.term] at hn hm; rw [← hn, ← hm]
    | leaf v c => exact h.elim
    | parent l r hh i => exact h.elim
  | leaf w c =>
    cases m with
    | ext hh i => simp [Node.term] at hm
    | empty => exact h.elim
    | leaf w' c' => obtain ⟨rfl, rfl⟩ := h; simp [Node.term] at hn hm; rw [← hn, ← hm]
    | parent l r hh i => exact h.elim
  | parent l r hh i ihl ihr =>
    cases m with
    | ext hh i => simp [Node.term] at hm
    | empty => exact h.elim
    | leaf w' c' => exact h.elim
    | parent l' r' hh' i' =>
      unfold Node.term at hn hm
      by_cases hb : bitAt v d = true
      · rw [if_pos hb] at hn hm; exact ihr h.2 hn hm
      · rw [if_neg hb] at hn hm; exact ihl h.1 hn hm

theorem full_two (k d : Nat) (S : List Pair) (h : 2 ≤ S.length) :
    full (k + 1) d S = .parent (full k (d + 1) (S.filter fun e => !bitAt e.1 d))
      (full k (d + 1) (S.filter fun e => bitAt e.1 d)) none none := by
  match S, h with
  | a :: b :: S, _ => rw [full]

theorem trieInputs_two (H : Bytes → Bytes) (hs k d : Nat) (S : List Pair) (h : 2 ≤ S.length) :
    trieInputs H hs (k + 1) d S =
      (3 :: (trieHash H hs k (d + 1) (S.filter fun e => !bitAt e.1 d) ++
        trieHash H hs k (d + 1) (S.filter fun e => bitAt e.1 d))) ::
      (trieInputs H hs k (d + 1) (S.filter fun e => !bitAt e.1 d) ++
        trieInputs H hs k (d + 1) (S.filter fun e => bitAt e.1 d)) := by
  match S, h with
  | a :: b :: S, _ => rw [trieInputs]

theorem Wf.filter {hs : Nat} {p : List Bool} {S : List Pair} (h : Wf hs p S) (hlt : p.length < 8 * hs) :
    Wf hs (p ++ [false]) (S.filter fun e => !bitAt e.1 p.length) ∧
    Wf hs (p ++ [true]) (S.filter fun e => bitAt e.1 p.length) := by
  have hs' : ∀ e ∈ S, On (p ++ [bitAt e.1 p.length]) e.1 :=
    fun e he => (h.on e he).step (by rw [(h.len e he).1]; exact hlt)
  refine ⟨⟨?_, fun e he => h.len e (List.mem_filter.mp he).1,
      h.nodup.sublist (List.Sublist.map _ List.filter_sublist)⟩,
    ⟨?_, fun e he => h.len e (List.mem_filter.mp he).1, h.nodup.sublist (List.Sublist.map _ List.filter_sublist)⟩⟩
  · intro e he
    obtain ⟨h1, h2⟩ := List.mem_filter.mp he
    have := hs' e h1
    rw [show bitAt e.1 p.length = false by simpa using h2] at this
    exact this
  · intro e he
    obtain ⟨h1, h2⟩ := List.mem_filter.mp he
    have := hs' e h1
    rw [show bitAt e.1 p.length = true from h2] at this
    exact this

theorem full_spec (k : Nat) : ∀ (p : List Bool) (S : List Pair), k + p.length = 8 * cs.hashSize →
    Wf cs.hashSize p S →
    (full k p.length S).hash cs = trieHash cs.H cs.hashSize k p.length S ∧
    (full k p.length S).inputs cs = trieInputs cs.H cs.hashSize k p.length S ∧
    (full k p.length S).Sized cs.hashSize ∧
    ∀ v, ∃ t, (full k p.length S).term p.length v = some t ∧ (∀ e, t = some e → e ∈ S) ∧
      (∀ c, (v, c) ∈ S → t = some (v, c)) := by
  induction k with
  | zero =>
    intro p S hk hS
    match S, hS with
    | [], hS => simp [full, Node.hash, trieHash, Node.inputs, trieInputs, Node.Sized, Node.term]
    | [(v, c)], hS =>
      refine ⟨by simp [full, Node.hash, trieHash], by simp [full, Node.inputs, trieInputs],
        by simpa [full, Node.Sized] using (hS.len (v, c) (by simp)).1, fun w => ⟨_, by simp [full, Node.term]; rfl, by simp, ?_⟩⟩
      intro c' hc; simp at hc; rw [hc.1, hc.2]
    | a :: b :: S, hS => have := hS.lt (by simp); omega
  | succ k ih =>
    intro p S hk hS
    by_cases h2 : 2 ≤ S.length
    · have hlt := hS.lt h2
      obtain ⟨wl, wr⟩ := hS.filter hlt
      obtain ⟨l1, l2, l3, l4⟩ := ih _ _ (by simp; omega) wl
      obtain ⟨r1, r2, r3, r4⟩ := ih _ _ (by simp; omega) wr
      simp only [List.length_append, List.length_singleton] at l1 l2 l3 l4 r1 r2 r3 r4
      rw [full_two _ _ _ h2]
      refine ⟨?_, ?_, ⟨rfl, l3, r3⟩, ?_⟩
      · rw [trieHash_two _ _ _ _ _ h2, ← l1, ← r1]; rfl
      · rw [trieInputs_two _ _ _ _ _ h2, ← l1, ← r1, ← l2, ← r2]; rfl
      · intro v
        unfold Node.term
        by_cases hb : bitAt v p.length = true
        · rw [if_pos hb]
          obtain ⟨t, t1, t2, t3⟩ := r4 v
          exact ⟨t, t1, fun e he => (List.mem_filter.mp (t2 e he)).1,
            fun c hc => t3 c (List.mem_filter.mpr ⟨hc, hb⟩)⟩
        · rw [if_neg hb]
          obtain ⟨t, t1, t2, t3⟩ := l4 v
          exact ⟨t, t1, fun e he => (List.mem_filter.mp (t2 e he)).1,
            fun c hc => t3 c (List.mem_filter.mpr ⟨hc, by simpa using hb⟩)⟩
    · match S, hS, h2 with
      | [], hS, _ => simp [full, Node.hash, trieHash, Node.inputs, trieInputs, Node.Sized, Node.term]
      | [(v, c)], hS, _ =>
        refine ⟨by simp [full, Node.hash, trieHash], by simp [full, Node.inputs, trieInputs],
          by simpa [full, Node.Sized] using (hS.len (v, c) (by simp)).1, fun w => ⟨_, by simp [full, Node.term]; rfl, by simp, ?_⟩⟩
        intro c' hc; simp at hc; rw [hc.1, hc.2]
      | a :: b :: S, hS, h2 => simp at h2

/-- the full tree of a map -/
def fullRoot (cs : Suite) (S : List Pair) : Node := full (8 * cs.hashSize) 0 S

theorem fullRoot_spec {S : List Pair} (hS : IsMap cs.hashSize S) :
    (fullRoot cs S).hash cs = rootHash cs.H cs.hashSize S ∧
    (fullRoot cs S).inputs cs = rootInputs cs.H cs.hashSize S ∧
    (fullRoot cs S).Sized cs.hashSize ∧
    ∀ v, ∃ t, (fullRoot cs S).term 0 v = some t ∧ (∀ e, t = some e → e ∈ S) ∧
      (∀ c, (v, c) ∈ S → t = some (v, c)) :=
  full_spec (8 * cs.hashSize) [] S (by simp) ((wf_root_iff _ _).mpr hS)

theorem rootHash_inj (hcs : cs.Good) {S T : List Pair} (hS : IsMap cs.hashSize S) (hT : IsMap cs.hashSize T)
    (h : rootHash cs.H cs.hashSize S = rootHash cs.H cs.hashSize T) :
    (∀ e, e ∈ S ↔ e ∈ T) ∨
    Collides cs.H (rootInputs cs.H cs.hashSize S) (rootInputs cs.H cs.hashSize T) ∨
    ZeroDigest cs.H cs.hashSize (rootInputs cs.H cs.hashSize S ++ rootInputs cs.H cs.hashSize T) := by
  obtain ⟨s1, s2, s3, s4⟩ := fullRoot_spec (cs := cs) hS
  obtain ⟨t1, t2, t3, t4⟩ := fullRoot_spec (cs := cs) hT
  rcases agree_of_hash hcs _ _ s3 t3 (by rw [s1, t1, h]) with ha | ha
  · left
    intro e
    obtain ⟨a, a1, a2, a3⟩ := s4 e.1
    obtain ⟨b, b1, b2, b3⟩ := t4 e.1
    have hab := ha.term a1 b1
    subst hab
    exact ⟨fun he => b2 _ (a3 e.2 he), fun he => a2 _ (b3 e.2 he)⟩
  · right; rw [s2, t2] at ha; exact ha

/-! ### What the verifier's tree says -/

/-- the leaves of a tree -/
def Node.leaves : Node → List Pair
  | .leaf v c => [(v, c)]
  | .parent l r _ _ => Node.leaves l ++ Node.leaves r
  | _ => []

/-- no hash cached, VRF outputs of the right size; nothing said about copath hashes -/
def Node.Bare (hs : Nat) : Node → Prop
  | .leaf v _ => v.length = hs
  | .parent l r h _ => h = none ∧ Node.Bare hs l ∧ Node.Bare hs r
  | _ => True

/-- the leaf a result names -/
def namedLeaf : Res → Option Pair
  | .nonInclusionLeaf v c _ => some (v, c)
  | _ => none

/-- What a result says about the end of the path of its entry. -/
def Says (e : Entry) (res : Res) (named : List Pair) (t : Option Pair) : Prop :=
  if res.isInclusion then ∃ c, t = some (e.vrf, c) ∧ (c = e.com ∨ (e.vrf, c) ∈ named)
  else t = none ∨ ∃ v c, t = some (v, c) ∧ (v ≠ e.vrf ∨ namedLeaf res = some (v, c))

theorem term_mem {n : Node} : ∀ {d : Nat} {v : Bytes} {x : Pair}, n.term d v = some (some x) → x ∈ n.leaves := by
  induction n with
  | empty => intro d v x h; simp [Node.term] at h
  | leaf w c => intro d v x h; simp [Node.term] at h; simp [Node.leaves, h]
  | ext hh i => intro d v x h; simp [Node.term] at h
  | parent l r hh i ihl ihr =>
    intro d v x h
    unfold Node.term at h
    unfold Node.leaves
    split at h
    · exact List.mem_append_right _ (ihr h)
    · exact List.mem_append_left _ (ihl h)

theorem addAux_spec {hs : Nat} {e : Entry} {res : Res} (hlen : e.vrf.length = hs)
    (hres : ∀ x, namedLeaf res = some x → x.1.length = hs) (fuel : Nat) : ∀ (n n' : Node) (d : Nat),
    addToSkeletonAux e res fuel n d = .ok n' →
    (∀ w t, n.term d w = some t → n'.term d w = some t) ∧
    (∃ t, n'.term d e.vrf = some t ∧ Says e res n.leaves t) ∧
    (∀ x ∈ n'.leaves, x ∈ n.leaves ∨ namedLeaf res = some x ∨ (res.isInclusion = true ∧ x = (e.vrf, e.com))) ∧
    (n.Bare hs → n'.Bare hs) := by
  induction fuel with
  | zero => intro n n' d h; simp [addToSkeletonAux] at h
  | succ f ih =>
    intro n n' d h
    cases n with
    | empty =>
      unfold addToSkeletonAux at h
      simp only at h
      split at h
      · cases h
      · rename_i hc
        rw [← Except.ok.inj h]
        refine ⟨fun _ _ h => h, ⟨none, rfl, ?_⟩, fun x hx => Or.inl hx, fun h => h⟩
        have hi : res.isInclusion = false := by
          cases hh : res.isInclusion with
          | true => exact absurd (Or.inr hh) hc
          | false => rfl
        unfold Says; rw [hi]; exact Or.inl rfl
    | leaf v c =>
      unfold addToSkeletonAux at h
      simp only at h
      split at h
      · cases h
      · rename_i hc
        rw [← Except.ok.inj h]
        refine ⟨fun _ _ h => h, ⟨some (v, c), rfl, ?_⟩, fun x hx => Or.inl hx, fun h => h⟩
        have hi : res.isInclusion = (e.vrf == v) := by
          by_contra hh; exact hc (Or.inr hh)
        unfold Says
        rw [hi]
        by_cases hv : e.vrf = v
        · subst hv; simp [Node.leaves]
        · have hv' : (e.vrf == v) = false := by rw [beq_eq_false_iff_ne]; exact hv
          rw [hv']; simp; exact Or.inl (fun hh => hv hh.symm)
    | parent l r hh i =>
      unfold addToSkeletonAux at h
      simp only at h
      obtain ⟨b, hb, h⟩ := G.bind_eq_ok.mp h
      have hbit : b = bitAt e.vrf d := by
        by_cases hd : d < 8 * e.vrf.length
        · rw [getBit_eq _ _ hd] at hb; exact (Except.ok.inj hb).symm
        · rw [getBit_panic _ _ (by omega)] at hb; cases hb
      cases b with
      | true =>
        rw [if_pos rfl] at h
        obtain ⟨r', hr', h⟩ := G.bind_eq_ok.mp h
        rw [← Except.ok.inj h]
        obtain ⟨a1, ⟨t, a2, a3⟩, a4, a5⟩ := ih r r' (d + 1) hr'
        refine ⟨?_, ⟨t, ?_, ?_⟩, ?_, ?_⟩
        · intro w t hw
          unfold Node.term at hw ⊢
          split
          · rename_i hw'; rw [if_pos hw'] at hw; exact a1 w t hw
          · rename_i hw'; rw [if_neg hw'] at hw; exact hw
        · unfold Node.term; rw [if_pos hbit.symm]; exact a2
        · unfold Says at a3 ⊢
          split
          · rename_i hi
            rw [if_pos hi] at a3
            obtain ⟨c, c1, c2⟩ := a3
            refine ⟨c, c1, c2.imp_right (fun h => List.mem_append_right _ h)⟩
          · rename_i hi
            rw [if_neg hi] at a3; exact a3
        · intro x hx
          rcases List.mem_append.mp hx with hx | hx
          · exact Or.inl (List.mem_append_left _ hx)
          · exact (a4 x hx).imp_left (fun h => List.mem_append_right _ h)
        · intro hB; exact ⟨hB.1, hB.2.1, a5 hB.2.2⟩
      | false =>
        rw [if_neg (by simp)] at h
        obtain ⟨l', hl', h⟩ := G.bind_eq_ok.mp h
        rw [← Except.ok.inj h]
        obtain ⟨a1, ⟨t, a2, a3⟩, a4, a5⟩ := ih l l' (d + 1) hl'
        refine ⟨?_, ⟨t, ?_, ?_⟩, ?_, ?_⟩
        · intro w t hw
          unfold Node.term at hw ⊢
          split
          · rename_i hw'; rw [if_pos hw'] at hw; exact hw
          · rename_i hw'; rw [if_neg hw'] at hw; exact a1 w t hw
        · unfold Node.term; rw [if_neg (by rw [← hbit]; simp)]; exact a2
        · unfold Says at a3 ⊢
          split
          · rename_i hi
            rw [if_pos hi] at a3
            obtain ⟨c, c1, c2⟩ := a3
            refine ⟨c, c1, c2.imp_right (fun h => List.mem_append_left _ h)⟩
          · rename_i hi
            rw [if_neg hi] at a3; exact a3
        · intro x hx
          rcases List.mem_append.mp hx with hx | hx
          · exact (a4 x hx).imp_left (fun h => List.mem_append_left _ h)
          · exact Or.inl (List.mem_append_right _ hx)
        · intro hB; exact ⟨hB.1, a5 hB.2.1, hB.2.2⟩
    | ext hh i =>
      unfold addToSkeletonAux at h
      simp only at h
      split at h
      · cases h
      · split at h
        · rw [← Except.ok.inj h]
          cases res with
          | inclusion k =>
            exact ⟨by simp [Node.term], ⟨_, rfl, e.com, rfl, Or.inl rfl⟩,
              fun x hx => by simp [terminalNode, Node.leaves] at hx; exact Or.inr (Or.inr ⟨rfl, hx⟩),
              fun _ => hlen⟩
          | nonInclusionLeaf v c k =>
            exact ⟨by simp [Node.term], ⟨_, rfl, Or.inr ⟨v, c, rfl, Or.inr rfl⟩⟩,
              fun x hx => by simp [terminalNode, Node.leaves] at hx; exact Or.inr (Or.inl (by rw [hx]; rfl)),
              fun _ => hres _ rfl⟩
          | nonInclusionParent k =>
            exact ⟨by simp [Node.term], ⟨_, rfl, Or.inl rfl⟩,
              fun x hx => by simp [terminalNode, Node.leaves] at hx, fun _ => trivial⟩
        · obtain ⟨a1, ⟨t, a2, a3⟩, a4, a5⟩ := ih _ _ _ h
          refine ⟨by simp [Node.term], ⟨t, a2, ?_⟩, ?_, fun _ => a5 ⟨rfl, trivial, trivial⟩⟩
          · simpa [Node.leaves, blank] using a3
          · simpa [Node.leaves, blank] using a4

theorem fill_spec {hs : Nat} (n : Node) : ∀ (es es' : List Bytes) (n' : Node), fillInCopath n es = .ok (n', es') →
    n.Bare hs → (∀ x ∈ es, x.length = hs) →
    n'.Sized hs ∧ (∀ x ∈ es', x.length = hs) ∧ (∀ d w t, n.term d w = some t → n'.term d w = some t) ∧
    n'.leaves = n.leaves := by
  induction n with
  | empty =>
    intro es es' n' h _ hes
    obtain ⟨rfl, rfl⟩ := Prod.mk.inj (Except.ok.inj h)
    exact ⟨trivial, hes, fun _ _ _ h => h, rfl⟩
  | leaf v c =>
    intro es es' n' h hb hes
    obtain ⟨rfl, rfl⟩ := Prod.mk.inj (Except.ok.inj h)
    exact ⟨hb, hes, fun _ _ _ h => h, rfl⟩
  | ext hh i =>
    intro es es' n' h hb hes
    cases es with
    | nil => simp [fillInCopath] at h
    | cons x es =>
      obtain ⟨rfl, rfl⟩ := Prod.mk.inj (Except.ok.inj h)
      exact ⟨hes x (by simp), fun y hy => hes y (by simp [hy]), by simp [Node.term], rfl⟩
  | parent l r hh i ihl ihr =>
    intro es es' n' h hb hes
    unfold fillInCopath at h
    obtain ⟨⟨l', es1⟩, h1, h⟩ := G.bind_eq_ok.mp h
    obtain ⟨⟨r', es2⟩, h2, h⟩ := G.bind_eq_ok.mp h
    obtain ⟨rfl, rfl⟩ := Prod.mk.inj (Except.ok.inj h)
    obtain ⟨a1, a2, a3, a4⟩ := ihl _ _ _ h1 hb.2.1 hes
    obtain ⟨b1, b2, b3, b4⟩ := ihr _ _ _ h2 hb.2.2 a2
    refine ⟨⟨hb.1, a1, b1⟩, b2, ?_, ?_⟩
    · intro d w t ht
      unfold Node.term at ht ⊢
      split
      · rename_i hw; rw [if_pos hw] at ht; exact b3 _ _ _ ht
      · rename_i hw; rw [if_neg hw] at ht; exact a3 _ _ _ ht
    · simp only [Node.leaves]; rw [a4, b4]

/-- the copath elements are determined by the hash of the filled-in skeleton -/
theorem fill_unique (hcs : cs.Good) (n : Node) : ∀ (es es' r r' : List Bytes) (m m' : Node),
    fillInCopath n es = .ok (m, r) → fillInCopath n es' = .ok (m', r') → n.Bare cs.hashSize →
    (∀ x ∈ es, x.length = cs.hashSize) → (∀ x ∈ es', x.length = cs.hashSize) → m.hash cs = m'.hash cs →
    (∃ k, es = k ++ r ∧ es' = k ++ r') ∨ Collides cs.H (m.inputs cs) (m'.inputs cs) := by
  induction n with
  | empty =>
    intro es es' r r' m m' h h' _ _ _ _
    obtain ⟨rfl, rfl⟩ := Prod.mk.inj (Except.ok.inj h)
    obtain ⟨rfl, rfl⟩ := Prod.mk.inj (Except.ok.inj h')
    exact Or.inl ⟨[], rfl, rfl⟩
  | leaf v c =>
    intro es es' r r' m m' h h' _ _ _ _
    obtain ⟨rfl, rfl⟩ := Prod.mk.inj (Except.ok.inj h)
    obtain ⟨rfl, rfl⟩ := Prod.mk.inj (Except.ok.inj h')
    exact Or.inl ⟨[], rfl, rfl⟩
  | ext hh i =>
    intro es es' r r' m m' h h' _ _ _ he
    cases es with
    | nil => simp [fillInCopath] at h
    | cons x es =>
      cases es' with
      | nil => simp [fillInCopath] at h'
      | cons x' es' =>
        obtain ⟨rfl, rfl⟩ := Prod.mk.inj (Except.ok.inj h)
        obtain ⟨rfl, rfl⟩ := Prod.mk.inj (Except.ok.inj h')
        obtain rfl : x = x' := he
        exact Or.inl ⟨[x], rfl, rfl⟩
  | parent l rt hh i ihl ihr =>
    intro es es' r r' m m' h h' hb hes hes' he
    unfold fillInCopath at h h'
    obtain ⟨⟨l1, es1⟩, h1, h⟩ := G.bind_eq_ok.mp h
    obtain ⟨⟨r1, es2⟩, h2, h⟩ := G.bind_eq_ok.mp h
    obtain ⟨rfl, rfl⟩ := Prod.mk.inj (Except.ok.inj h)
    obtain ⟨⟨l1', es1'⟩, h1', h'⟩ := G.bind_eq_ok.mp h'
    obtain ⟨⟨r1', es2'⟩, h2', h'⟩ := G.bind_eq_ok.mp h'
    obtain ⟨rfl, rfl⟩ := Prod.mk.inj (Except.ok.inj h')
    obtain ⟨rfl, hbl, hbr⟩ := hb
    obtain ⟨a1, a2, _, _⟩ := fill_spec _ _ _ _ h1 hbl hes
    obtain ⟨b1, b2, _, _⟩ := fill_spec _ _ _ _ h1' hbl hes'
    obtain ⟨c1, _, _, _⟩ := fill_spec _ _ _ _ h2 hbr a2
    obtain ⟨d1, _, _, _⟩ := fill_spec _ _ _ _ h2' hbr b2
    have mono : ∀ {A A' B B' : List Bytes}, Collides cs.H A B → (∀ x ∈ A, x ∈ A') → (∀ x ∈ B, x ∈ B') →
        Collides cs.H A' B' := by
      rintro A A' B B' ⟨a, ha, b, hb, h⟩ hA hB
      exact ⟨a, hA a ha, b, hB b hb, h⟩
    by_cases hc : (3 :: (l1.hash cs ++ r1.hash cs) : Bytes) = 3 :: (l1'.hash cs ++ r1'.hash cs)
    · obtain ⟨e1, e2⟩ := List.append_inj (List.cons.inj hc).2
        (by rw [Node.hash_length hcs _ a1, Node.hash_length hcs _ b1])
      rcases ihl _ _ _ _ _ _ h1 h1' hbl hes hes' e1 with ⟨k, k1, k2⟩ | hk
      · rcases ihr _ _ _ _ _ _ h2 h2' hbr a2 b2 e2 with ⟨j, j1, j2⟩ | hj
        · left
          refine ⟨k ++ j, ?_, ?_⟩
          · rw [k1, j1, List.append_assoc]
          · rw [k2, j2, List.append_assoc]
        · right
          exact mono hj (fun x hx => by simp [Node.inputs, hx]) (fun x hx => by simp [Node.inputs, hx])
      · right
        exact mono hk (fun x hx => by simp [Node.inputs, hx]) (fun x hx => by simp [Node.inputs, hx])
    · right
      exact ⟨_, by simp [Node.inputs], _, by simp [Node.inputs], hc, he⟩

theorem addAll_spec {hs : Nat} {N : List Pair} (es : List Entry) : ∀ (rs : List Res) (n n' : Node),
    addAll n es rs = .ok n' → (∀ e ∈ es, e.vrf.length = hs) →
    (∀ r ∈ rs, ∀ x, namedLeaf r = some x → x.1.length = hs ∧ x ∈ N) → (es.map Entry.vrf).Nodup →
    (∀ x ∈ n.leaves, x ∈ N ∨ x.1 ∉ es.map Entry.vrf) →
    (∀ w t, n.term 0 w = some t → n'.term 0 w = some t) ∧
    (n.Bare hs → n'.Bare hs) ∧
    (∀ e r, (e, r) ∈ es.zip rs → ∃ t, n'.term 0 e.vrf = some t ∧ Says e r N t) := by
  induction es with
  | nil =>
    intro rs n n' h _ _ _ _
    unfold addAll at h
    rw [← Except.ok.inj h]
    exact ⟨fun _ _ h => h, fun h => h, by simp⟩
  | cons e es ih =>
    intro rs n n' h hlen hnamed hnd hlv
    cases rs with
    | nil => simp [addAll] at h
    | cons r rs =>
      unfold addAll at h
      obtain ⟨n1, h1, h⟩ := G.bind_eq_ok.mp h
      obtain ⟨a1, ⟨t, a2, a3⟩, a4, a5⟩ := addAux_spec (hlen e (by simp))
        (fun x hx => (hnamed r (by simp) x hx).1) _ _ _ _ h1
      simp only [List.map_cons, List.nodup_cons] at hnd
      obtain ⟨b1, b2, b3⟩ := ih rs n1 n' h (fun x hx => hlen x (by simp [hx]))
        (fun x hx => hnamed x (by simp [hx])) hnd.2 (by
          intro x hx
          rcases a4 x hx with hx | hx | ⟨_, rfl⟩
          · rcases hlv x hx with hx | hx
            · exact Or.inl hx
            · right; simp only [List.map_cons, List.mem_cons, not_or] at hx; exact hx.2
          · exact Or.inl (hnamed r (by simp) x hx).2
          · exact Or.inr hnd.1)
      refine ⟨fun w t hw => b1 w t (a1 w t hw), fun hB => b2 (a5 hB), ?_⟩
      intro e' r' hmem
      rw [List.zip_cons_cons, List.mem_cons] at hmem
      rcases hmem with hmem | hmem
      · obtain ⟨rfl, rfl⟩ := Prod.mk.inj hmem
        refine ⟨t, b1 _ _ a2, ?_⟩
        unfold Says at a3 ⊢
        split
        · rename_i hi
          rw [if_pos hi] at a3
          obtain ⟨c, c1, c2⟩ := a3
          refine ⟨c, c1, ?_⟩
          rcases c2 with c2 | c2
          · exact Or.inl c2
          · right
            rcases hlv _ c2 with c2 | c2
            · exact c2
            · simp at c2
        · rename_i hi
          rw [if_neg hi] at a3; exact a3
      · exact b3 e' r' hmem

/-- A proof as it is read off the wire: hashes, VRF outputs and commitments have the suite's size. -/
structure WireProof (hs : Nat) (p : Proof) : Prop where
  elements : ∀ x ∈ p.elements, x.length = hs
  named : ∀ v c d, Res.nonInclusionLeaf v c d ∈ p.results → v.length = hs ∧ c.length = hs

/-- the leaves named by the results of a proof -/
def Proof.named (p : Proof) : List Pair := p.results.filterMap namedLeaf

/-- What an evaluated proof says. -/
theorem evaluate_spec {es : List Entry} {p : Proof} {n : Node} (hp : WireProof cs.hashSize p)
    (h : evaluate cs es p = .ok n) :
    n.Sized cs.hashSize ∧ es.length = p.results.length ∧ (∀ e ∈ es, e.vrf.length = cs.hashSize) ∧
    (es.map Entry.vrf).Nodup ∧
    (∀ e r, (e, r) ∈ es.zip p.results → ∃ t, n.term 0 e.vrf = some t ∧ Says e r p.named t) := by
  unfold evaluate at h
  obtain ⟨_, h1, h⟩ := G.bind_eq_ok.mp h
  obtain ⟨c1, c2⟩ := (checkEntries_ok cs true _ es).mp h1
  split at h
  · cases h
  rename_i hl
  obtain ⟨n1, h2, h⟩ := G.bind_eq_ok.mp h
  obtain ⟨⟨n2, rest⟩, h3, h⟩ := G.bind_eq_ok.mp h
  simp only at h
  split at h
  · cases h
  obtain rfl := Except.ok.inj h
  have hnamed : ∀ r ∈ p.results, ∀ x, namedLeaf r = some x → x.1.length = cs.hashSize ∧ x ∈ p.named := by
    intro r hr x hx
    refine ⟨?_, List.mem_filterMap.mpr ⟨r, hr, hx⟩⟩
    cases r with
    | nonInclusionLeaf v c d =>
      obtain rfl := Option.some.inj hx
      exact (hp.named v c d hr).1
    | inclusion d => cases hx
    | nonInclusionParent d => cases hx
  obtain ⟨_, b2, b3⟩ := addAll_spec (N := p.named) es p.results blank n1 h2 (fun e he => (c1 e he).1) hnamed c2
    (by simp [blank, Node.leaves])
  obtain ⟨d1, _, d3, _⟩ := fill_spec n1 _ _ _ h3 (b2 trivial) hp.elements
  refine ⟨d1, by simpa using hl, fun e he => (c1 e he).1, c2, ?_⟩
  intro e r her
  obtain ⟨t, t1, t2⟩ := b3 e r her
  exact ⟨t, d3 _ _ _ t1, t2⟩

/-- the same results and the same root: the same copath elements -/
theorem evaluate_unique (hcs : cs.Good) {es : List Entry} {p p' : Proof} {n n' : Node}
    (hp : WireProof cs.hashSize p) (hp' : WireProof cs.hashSize p') (hr : p.results = p'.results)
    (h : evaluate cs es p = .ok n) (h' : evaluate cs es p' = .ok n') (he : n.hash cs = n'.hash cs) :
    p = p' ∨ Collides cs.H (n.inputs cs) (n'.inputs cs) := by
  unfold evaluate at h h'
  obtain ⟨_, h1, h⟩ := G.bind_eq_ok.mp h
  obtain ⟨c1, c2⟩ := (checkEntries_ok cs true _ es).mp h1
  split at h
  · cases h
  obtain ⟨n1, h2, h⟩ := G.bind_eq_ok.mp h
  obtain ⟨⟨n2, rest⟩, h3, h⟩ := G.bind_eq_ok.mp h
  simp only at h
  split at h
  · cases h
  rename_i hl1
  obtain rfl := Except.ok.inj h
  obtain ⟨_, h1', h'⟩ := G.bind_eq_ok.mp h'
  split at h'
  · cases h'
  obtain ⟨n1', h2', h'⟩ := G.bind_eq_ok.mp h'
  obtain ⟨⟨n2', rest'⟩, h3', h'⟩ := G.bind_eq_ok.mp h'
  simp only at h'
  split at h'
  · cases h'
  rename_i hl1'
  obtain rfl := Except.ok.inj h'
  rw [← hr, h2] at h2'
  cases h2'
  have hnamed : ∀ r ∈ p.results, ∀ x, namedLeaf r = some x → x.1.length = cs.hashSize ∧ x ∈ p.named := by
    intro r hr x hx
    refine ⟨?_, List.mem_filterMap.mpr ⟨r, hr, hx⟩⟩
    cases r with
    | nonInclusionLeaf v c d =>
      obtain rfl := Option.some.inj hx
      exact (hp.named v c d hr).1
    | inclusion d => cases hx
    | nonInclusionParent d => cases hx
  obtain ⟨_, b2, _⟩ := addAll_spec (N := p.named) es p.results blank n1 h2 (fun e he => (c1 e he).1) hnamed c2
    (by simp [blank, Node.leaves])
  rcases fill_unique hcs n1 _ _ _ _ _ _ h3 h3' (b2 trivial) hp.elements hp'.elements he with ⟨k, k1, k2⟩ | hc
  · left
    simp only [ne_eq, not_not, List.length_eq_zero_iff] at hl1 hl1'
    subst hl1; subst hl1'
    cases p; cases p'
    simp only at hr k1 k2
    rw [hr, k1, k2]
  · exact Or.inr hc

end Katie.Prefix
