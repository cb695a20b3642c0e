import Verif.Lemmas.PrefixStuck

/-
An entry of a map that a change does not remove is in every map that the changed tree can be the tree of.
-/

namespace Katie.Prefix
open Katie Katie.PrefixSpec

variable {cs : Suite}

/-- no parent node belongs to a tile -/
def NoIds : Node → Prop
  | .parent l r _ i => i = none ∧ NoIds l ∧ NoIds r
  | _ => True

theorem addAux_noIds {e : Entry} {res : Res} (fuel : Nat) : ∀ (n n' : Node) (d : Nat),
    addToSkeletonAux e res fuel n d = .ok n' → NoIds n → NoIds n' := by
  induction fuel with
  | zero => intro n n' d h; simp [addToSkeletonAux] at h
  | succ f ih =>
    intro n n' d h hc
    cases n with
    | empty =>
      unfold addToSkeletonAux at h
      simp only at h
      split at h
      · cases h
      · rw [← Except.ok.inj h]; trivial
    | leaf v c =>
      unfold addToSkeletonAux at h
      simp only at h
      split at h
      · cases h
      · rw [← Except.ok.inj h]; trivial
    | parent l r hh i =>
      unfold addToSkeletonAux at h
      simp only at h
      obtain ⟨b, -, h⟩ := G.bind_eq_ok.mp h
      split at h
      · obtain ⟨r', hr', h⟩ := G.bind_eq_ok.mp h
        rw [← Except.ok.inj h]
        exact ⟨hc.1, hc.2.1, ih _ _ _ hr' hc.2.2⟩
      · obtain ⟨l', hl', h⟩ := G.bind_eq_ok.mp h
        rw [← Except.ok.inj h]
        exact ⟨hc.1, ih _ _ _ hl' hc.2.1, hc.2.2⟩
    | ext hh i =>
      unfold addToSkeletonAux at h
      simp only at h
      split at h
      · cases h
      split at h
      · rw [← Except.ok.inj h]
        cases res <;> trivial
      · exact ih _ _ _ h ⟨rfl, trivial, trivial⟩

theorem addAll_noIds (es : List Entry) : ∀ (rs : List Res) (n n' : Node), addAll n es rs = .ok n' → NoIds n → NoIds n' := by
  induction es with
  | nil => intro rs n n' h hc; unfold addAll at h; rw [← Except.ok.inj h]; exact hc
  | cons e es ih =>
    intro rs n n' h hc
    cases rs with
    | nil => simp [addAll] at h
    | cons r rs =>
      unfold addAll at h
      obtain ⟨n1, h1, h⟩ := G.bind_eq_ok.mp h
      exact ih rs n1 n' h (addAux_noIds _ _ _ _ h1 hc)

theorem fill_noIds (n : Node) : ∀ (es es' : List Bytes) (n' : Node), fillInCopath n es = .ok (n', es') → NoIds n → NoIds n' := by
  induction n with
  | empty => intro es es' n' h hs; obtain ⟨rfl, rfl⟩ := Prod.mk.inj (Except.ok.inj h); exact hs
  | leaf v c => intro es es' n' h hs; obtain ⟨rfl, rfl⟩ := Prod.mk.inj (Except.ok.inj h); exact hs
  | ext hh i =>
    intro es es' n' h _
    cases es with
    | nil => simp [fillInCopath] at h
    | cons x es => obtain ⟨rfl, rfl⟩ := Prod.mk.inj (Except.ok.inj h); trivial
  | parent l r hh i ihl ihr =>
    intro es es' n' h hc
    unfold fillInCopath at h
    obtain ⟨⟨l', es1⟩, h1, h⟩ := G.bind_eq_ok.mp h
    obtain ⟨⟨r', es2⟩, h2, h⟩ := G.bind_eq_ok.mp h
    obtain ⟨rfl, rfl⟩ := Prod.mk.inj (Except.ok.inj h)
    exact ⟨hc.1, ihl _ _ _ h1 hc.2.1, ihr _ _ _ h2 hc.2.2⟩

theorem evaluate_noIds {es : List Entry} {p : Proof} {n : Node} (h : evaluate cs es p = .ok n) : NoIds n := by
  unfold evaluate at h
  obtain ⟨_, h1, h⟩ := G.bind_eq_ok.mp h
  split at h
  · cases h
  obtain ⟨n1, h2, h⟩ := G.bind_eq_ok.mp h
  obtain ⟨⟨n2, rest⟩, h3, h⟩ := G.bind_eq_ok.mp h
  simp only at h
  split at h
  · cases h
  obtain rfl := Except.ok.inj h
  exact fill_noIds _ _ _ _ h3 (addAll_noIds es _ _ _ h2 trivial)

/-! ### a tree that contains an entry -/

/-- Following the path of the entry `e` from the node, which is at `p`, there is the leaf `e`, or an unexplored node with the hash of
a map that contains `e`, for which the strings `I` were hashed.  The parent nodes on the way have property `F`. -/
def Opens (cs : Suite) (I : List Bytes) (F : Option Bytes → Option TileId → Prop) (e : Pair) : List Bool → Node → Prop
  | _, .empty => False
  | _, .leaf v c => (v, c) = e
  | p, .ext h _ => ∃ S, Wf cs.hashSize p S ∧ e ∈ S ∧ h = th cs p S ∧
      ∀ s ∈ trieInputs cs.H cs.hashSize (8 * cs.hashSize - p.length) p.length S, s ∈ I
  | p, .parent l r h i => F h i ∧ if bitAt e.1 p.length then Opens cs I F e (p ++ [true]) r else Opens cs I F e (p ++ [false]) l

theorem opens_cacheHashes {I : List Bytes} {e : Pair} (n : Node) : ∀ p, Opens cs I (fun _ i => i = none) e p n →
    Opens cs I (fun _ i => i = none) e p (n.cacheHashes cs) := by
  induction n with
  | empty => intro p h; exact h
  | leaf v c => intro p h; exact h
  | ext h i => intro p h; exact h
  | parent l r hh i ihl ihr =>
    intro p h
    cases hh with
    | some x => exact h
    | none =>
      obtain ⟨h1, h2⟩ := h
      refine ⟨h1, ?_⟩
      split
      · next hb => rw [if_pos hb] at h2; exact ihr _ h2
      · next hb => rw [if_neg hb] at h2; exact ihl _ h2

theorem opens_collapse {I : List Bytes} {e : Pair} {p : List Bool} {l r : Node}
    (h : if bitAt e.1 p.length then Opens cs I (fun h _ => h = none) e (p ++ [true]) r
      else Opens cs I (fun h _ => h = none) e (p ++ [false]) l) : Opens cs I (fun h _ => h = none) e p (collapse l r) := by
  by_cases hb : bitAt e.1 p.length = true
  · rw [if_pos hb] at h
    cases r with
    | empty => exact h.elim
    | leaf v c =>
      cases l with
      | empty => exact h
      | _ => exact ⟨rfl, by rw [if_pos hb]; exact h⟩
    | _ => cases l <;> exact ⟨rfl, by rw [if_pos hb]; exact h⟩
  · rw [if_neg hb] at h
    cases l with
    | empty => exact h.elim
    | leaf v c =>
      cases r with
      | empty => exact h
      | _ => exact ⟨rfl, by rw [if_neg hb]; exact h⟩
    | _ => cases r <;> exact ⟨rfl, by rw [if_neg hb]; exact h⟩

/-- Adding and removing entries keeps an entry that is not removed. -/
theorem addRemove_opens {I : List Bytes} {e : Pair} : ∀ (fuel : Nat) (n n' : Node) (add : List Entry) (remove : List Bytes)
    (p : List Bool), e.1 ∉ remove → addRemoveEntries cs fuel n add remove p.length = .ok n' →
    Opens cs I (fun _ i => i = none) e p n → Opens cs I (fun h _ => h = none) e p n' := by
  intro fuel
  induction fuel with
  | zero => intro n n' add remove p _ h; cases h
  | succ f ih =>
    intro n n' add remove p hr h ho
    unfold addRemoveEntries at h
    split at h
    · cases n with
      | parent l r hh i =>
        obtain rfl : i = none := ho.1
        cases h
      | empty => exact ho.elim
      | leaf v c => obtain rfl := Except.ok.inj h; exact ho
      | ext hh i => obtain rfl := Except.ok.inj h; exact ho
    · cases n with
      | empty => exact ho.elim
      | ext hh i => cases h
      | leaf v c =>
        obtain rfl : (v, c) = e := ho
        simp only at h
        rw [if_neg hr] at h
        split at h
        · obtain ⟨b, hb, h⟩ := G.bind_eq_ok.mp h
          have hd : p.length < 8 * v.length := by
            by_contra hd
            rw [getBit_panic _ _ (by omega)] at hb; cases hb
          rw [getBit_eq _ _ hd] at hb
          have hb := Except.ok.inj hb
          split at h
          · next hbt =>
            refine ih _ _ _ _ p (by simp) h ⟨rfl, ?_⟩
            rw [if_pos (by rw [hb]; exact hbt)]
            rfl
          · next hbt =>
            refine ih _ _ _ _ p (by simp) h ⟨rfl, ?_⟩
            rw [if_neg (by rw [hb]; exact hbt)]
            rfl
        · obtain rfl := Except.ok.inj h; rfl
      | parent l r hh i =>
        simp only at h
        obtain ⟨⟨la, ra⟩, -, h⟩ := G.bind_eq_ok.1 h
        obtain ⟨⟨lr, rr⟩, hs, h⟩ := G.bind_eq_ok.1 h
        obtain ⟨l', hl', h⟩ := G.bind_eq_ok.1 h
        obtain ⟨r', hr', h⟩ := G.bind_eq_ok.1 h
        obtain rfl := Except.ok.inj h
        unfold splitBit at hs
        obtain ⟨k, -, hs⟩ := G.bind_eq_ok.1 hs
        obtain ⟨rfl, rfl⟩ := Prod.mk.inj (Except.ok.inj hs)
        apply opens_collapse
        have h2 := ho.2
        split
        · next hb =>
          rw [if_pos hb] at h2
          exact ih _ _ _ _ (p ++ [true]) (fun hm => hr (List.mem_of_mem_drop hm)) (by simpa using hr') h2
        · next hb =>
          rw [if_neg hb] at h2
          exact ih _ _ _ _ (p ++ [false]) (fun hm => hr (List.mem_of_mem_take hm)) (by simpa using hl') h2

/-! ### hashes -/

/-- the strings of two trees -/
abbrev Bad (cs : Suite) (A B : List Bytes) : Prop := Collides cs.H A B ∨ ZeroDigest cs.H cs.hashSize (A ++ B)

theorem Bad.mono {A A' B B' : List Bytes} (h : Bad cs A B) (hA : ∀ x ∈ A, x ∈ A') (hB : ∀ x ∈ B, x ∈ B') : Bad cs A' B' := by
  rcases h with ⟨a, ha, b, hb, h⟩ | ⟨a, ha, h⟩
  · exact Or.inl ⟨a, hA a ha, b, hB b hb, h⟩
  · refine Or.inr ⟨a, ?_, h⟩
    rcases List.mem_append.mp ha with ha | ha
    · exact List.mem_append_left _ (hA a ha)
    · exact List.mem_append_right _ (hB a ha)

/-- A parent node with the hash of a trie is the parent node of that trie. -/
theorem parent_hash (hcs : cs.Good) {p : List Bool} {l r : Node} {i : Option TileId} {T : List Pair} (hl : HashLen cs.hashSize l)
    (hT : Wf cs.hashSize p T) (h : (Node.parent l r none i).hash cs = th cs p T) :
    (p.length < 8 * cs.hashSize ∧ l.hash cs = th cs (p ++ [false]) (T.filter fun e => !bitAt e.1 p.length) ∧
      r.hash cs = th cs (p ++ [true]) (T.filter fun e => bitAt e.1 p.length) ∧
      (∀ s ∈ trieInputs cs.H cs.hashSize (8 * cs.hashSize - (p ++ [false]).length) (p ++ [false]).length
        (T.filter fun e => !bitAt e.1 p.length), s ∈ trieInputs cs.H cs.hashSize (8 * cs.hashSize - p.length) p.length T) ∧
      (∀ s ∈ trieInputs cs.H cs.hashSize (8 * cs.hashSize - (p ++ [true]).length) (p ++ [true]).length
        (T.filter fun e => bitAt e.1 p.length), s ∈ trieInputs cs.H cs.hashSize (8 * cs.hashSize - p.length) p.length T)) ∨
    Bad cs ((Node.parent l r none i).inputs cs) (trieInputs cs.H cs.hashSize (8 * cs.hashSize - p.length) p.length T) := by
  by_cases hS2 : T.length ≤ 1
  · right
    match T, hS2 with
    | [], _ =>
      right
      refine ⟨3 :: (l.hash cs ++ r.hash cs), by simp [Node.inputs], ?_⟩
      rw [show cs.H (3 :: (l.hash cs ++ r.hash cs)) = (Node.parent l r none i).hash cs from rfl, h]
      unfold th; cases 8 * cs.hashSize - p.length <;> simp [trieHash]
    | [(v', c')], _ =>
      have hth : th cs p [(v', c')] = cs.H (2 :: (v' ++ c')) := by
        unfold th; cases 8 * cs.hashSize - p.length <;> simp [trieHash]
      left
      refine ⟨3 :: (l.hash cs ++ r.hash cs), by simp [Node.inputs], 2 :: (v' ++ c'), ?_, by simp, ?_⟩
      · cases 8 * cs.hashSize - p.length <;> simp [trieInputs]
      · rw [← hth, ← h]; rfl
  have hS2 : 2 ≤ T.length := by omega
  have hlt := hT.lt hS2
  obtain ⟨k, hk⟩ : ∃ k, 8 * cs.hashSize - p.length = k + 1 := ⟨8 * cs.hashSize - p.length - 1, by omega⟩
  obtain ⟨wl, wr⟩ := hT.filter hlt
  have hk' : 8 * cs.hashSize - (p.length + 1) = k := by omega
  have h' := h
  unfold th at h' ⊢
  simp only [List.length_append, List.length_singleton, hk']
  rw [hk, trieHash_two _ _ _ _ _ hS2] at h'
  have hin := trieInputs_two cs.H cs.hashSize k p.length T hS2
  rw [hk, hin]
  generalize hSl : List.filter (fun e => !bitAt e.1 p.length) T = Sl at h' wl
  generalize hSr : List.filter (fun e => bitAt e.1 p.length) T = Sr at h' wr
  by_cases he : (3 :: (l.hash cs ++ r.hash cs) : Bytes) =
      3 :: (trieHash cs.H cs.hashSize k (p.length + 1) Sl ++ trieHash cs.H cs.hashSize k (p.length + 1) Sr)
  · left
    have hlen : (trieHash cs.H cs.hashSize k (p.length + 1) Sl).length = cs.hashSize := by
      have := (full_spec (cs := cs) k (p ++ [false]) Sl (by simp; omega) wl)
      have h2 := Node.hash_length hcs _ this.2.2.1
      rw [this.1] at h2
      simpa using h2
    obtain ⟨e1, e2⟩ := List.append_inj (List.cons.inj he).2 (by rw [hl.length hcs, hlen])
    exact ⟨hlt, e1, e2, fun s hs => by simp [hs], fun s hs => by simp [hs]⟩
  · right; left
    refine ⟨_, List.mem_cons_self .., _, List.mem_cons_self .., he, ?_⟩
    rw [← h']; rfl

theorem leaf_hash {p : List Bool} {v c : Bytes} {T : List Pair} (hv : v.length = cs.hashSize) (hT : Wf cs.hashSize p T)
    (h : (Node.leaf v c).hash cs = th cs p T) :
    T = [(v, c)] ∨
    Bad cs ((Node.leaf v c).inputs cs) (trieInputs cs.H cs.hashSize (8 * cs.hashSize - p.length) p.length T) := by
  match T, hT with
  | [], _ =>
    right; right
    refine ⟨2 :: (v ++ c), by simp [Node.inputs], ?_⟩
    rw [show cs.H (2 :: (v ++ c)) = (Node.leaf v c).hash cs from rfl, h]
    unfold th; cases 8 * cs.hashSize - p.length <;> simp [trieHash]
  | [(v', c')], hT =>
    have hth : th cs p [(v', c')] = cs.H (2 :: (v' ++ c')) := by
      unfold th; cases 8 * cs.hashSize - p.length <;> simp [trieHash]
    by_cases he : (2 :: (v ++ c) : Bytes) = 2 :: (v' ++ c')
    · left
      obtain ⟨e1, e2⟩ := List.append_inj (List.cons.inj he).2 (by rw [hv, (hT.len (v', c') (by simp)).1])
      rw [e1, e2]
    · right; left
      refine ⟨2 :: (v ++ c), by simp [Node.inputs], 2 :: (v' ++ c'), ?_, he, ?_⟩
      · cases 8 * cs.hashSize - p.length <;> simp [trieInputs]
      · rw [← hth, ← h]; rfl
  | a :: b :: T, hT =>
    right; left
    have h2 : 2 ≤ (a :: b :: T).length := by simp
    have hlt := hT.lt h2
    obtain ⟨k, hk⟩ : ∃ k, 8 * cs.hashSize - p.length = k + 1 := ⟨8 * cs.hashSize - p.length - 1, by omega⟩
    unfold th at h
    rw [hk, trieHash_two _ _ _ _ _ h2] at h
    rw [hk, trieInputs_two _ _ _ _ _ h2]
    exact ⟨2 :: (v ++ c), by simp [Node.inputs], _, List.mem_cons_self .., by simp, h⟩

/-- A tree with the hash of a trie contains the entries of the trie. -/
theorem opens_of_hash (hcs : cs.Good) {I : List Bytes} {e : Pair} (n : Node) : ∀ (p : List Bool) (S : List Pair),
    Wf cs.hashSize p S → e ∈ S → n.Sized cs.hashSize → NoIds n → n.hash cs = th cs p S →
    (∀ s ∈ trieInputs cs.H cs.hashSize (8 * cs.hashSize - p.length) p.length S, s ∈ I) →
    Opens cs I (fun _ i => i = none) e p n ∨ Bad cs (n.inputs cs) I := by
  induction n with
  | empty =>
    intro p S hS he _ _ h hI
    right; right
    have h0 : th cs p S = List.replicate cs.hashSize 0 := h.symm
    match S, hS, he with
    | [(v', c')], _, _ =>
      have hth : th cs p [(v', c')] = cs.H (2 :: (v' ++ c')) := by
        unfold th; cases 8 * cs.hashSize - p.length <;> simp [trieHash]
      refine ⟨2 :: (v' ++ c'), List.mem_append_right _ (hI _ ?_), by rw [← hth, h0]⟩
      cases 8 * cs.hashSize - p.length <;> simp [trieInputs]
    | a :: b :: S, hS, _ =>
      have h2 : 2 ≤ (a :: b :: S).length := by simp
      have hlt := hS.lt h2
      obtain ⟨k, hk⟩ : ∃ k, 8 * cs.hashSize - p.length = k + 1 := ⟨8 * cs.hashSize - p.length - 1, by omega⟩
      unfold th at h0
      rw [hk, trieHash_two _ _ _ _ _ h2] at h0
      rw [hk, trieInputs_two _ _ _ _ _ h2] at hI
      exact ⟨_, List.mem_append_right _ (hI _ (List.mem_cons_self ..)), h0⟩
  | leaf v c =>
    intro p S hS he hsz _ h hI
    rcases leaf_hash hsz hS h with rfl | hB
    · left; exact (List.mem_singleton.1 he).symm
    · right; exact hB.mono (fun _ h => h) hI
  | ext hh i =>
    intro p S hS he _ _ h hI
    left
    exact ⟨S, hS, he, h, hI⟩
  | parent l r hh i ihl ihr =>
    intro p S hS he hsz hid h hI
    obtain ⟨rfl, hs1, hs2⟩ := hsz
    rcases parent_hash hcs (hashLen_of_sized _ hs1) hS h with ⟨k1, k2, k3, k4, k5⟩ | hB
    swap
    · right; exact hB.mono (fun _ h => h) hI
    obtain ⟨wl, wr⟩ := hS.filter k1
    by_cases hb : bitAt e.1 p.length = true
    · rcases ihr _ _ wr (List.mem_filter.2 ⟨he, hb⟩) hs2 hid.2.2 k3 (fun s hs => hI s (k5 s hs)) with ho | hB
      · left; exact ⟨hid.1, by rw [if_pos hb]; exact ho⟩
      · right; exact hB.mono (fun s hs => by simp [Node.inputs, hs]) (fun _ h => h)
    · rcases ihl _ _ wl (List.mem_filter.2 ⟨he, by simpa using hb⟩) hs1 hid.2.1 k2 (fun s hs => hI s (k4 s hs)) with ho | hB
      · left; exact ⟨hid.1, by rw [if_neg hb]; exact ho⟩
      · right; exact hB.mono (fun s hs => by simp [Node.inputs, hs]) (fun _ h => h)

/-- If a tree that contains an entry has the hash of a trie, then the entry is in the trie. -/
theorem mem_of_opens (hcs : cs.Good) {I J : List Bytes} {e : Pair} (hel : e.1.length = cs.hashSize) (n : Node) :
    ∀ (p : List Bool) (T : List Pair), Wf cs.hashSize p T → p.length ≤ 8 * cs.hashSize → HashLen cs.hashSize n →
    Opens cs I (fun h _ => h = none) e p n → n.hash cs = th cs p T →
    (∀ s ∈ trieInputs cs.H cs.hashSize (8 * cs.hashSize - p.length) p.length T, s ∈ J) →
    e ∈ T ∨ Bad cs (n.inputs cs ++ I) J := by
  induction n with
  | empty => intro p T _ _ _ ho; exact ho.elim
  | leaf v c =>
    intro p T hT _ _ ho h hJ
    obtain rfl : (v, c) = e := ho
    rcases leaf_hash hel hT h with rfl | hB
    · left; simp
    · right; exact hB.mono (fun _ h => List.mem_append_left _ h) hJ
  | ext hh i =>
    intro p T hT hp _ ho h hJ
    obtain ⟨S, hS, he, rfl, hI⟩ := ho
    obtain ⟨s1, s2, s3, s4⟩ := full_spec (cs := cs) (8 * cs.hashSize - p.length) p S (by omega) hS
    obtain ⟨t1, t2, t3, t4⟩ := full_spec (cs := cs) (8 * cs.hashSize - p.length) p T (by omega) hT
    rcases agree_of_hash hcs _ _ s3 t3 (by rw [s1, t1]; exact h) with ha | ha
    · left
      obtain ⟨a, a1, a2, a3⟩ := s4 e.1
      obtain ⟨b, b1, b2, b3⟩ := t4 e.1
      have hab := ha.term a1 b1
      subst hab
      exact b2 _ (a3 e.2 he)
    · right
      rw [s2, t2] at ha
      exact Bad.mono ha (fun s hs => List.mem_append_right _ (hI s hs)) hJ
  | parent l r hh i ihl ihr =>
    intro p T hT hp hl ho h hJ
    obtain ⟨rfl, ho⟩ := ho
    rcases parent_hash hcs hl.2.1 hT h with ⟨k1, k2, k3, k4, k5⟩ | hB
    swap
    · right; exact hB.mono (fun _ h => List.mem_append_left _ h) hJ
    obtain ⟨wl, wr⟩ := hT.filter k1
    by_cases hb : bitAt e.1 p.length = true
    · rw [if_pos hb] at ho
      rcases ihr _ _ wr (by simp; omega) hl.2.2 ho k3 (fun s hs => hJ s (k5 s hs)) with he | hB
      · left; exact (List.mem_filter.1 he).1
      · right
        refine Bad.mono hB (fun s hs => ?_) (fun _ h => h)
        rcases List.mem_append.1 hs with hs | hs
        · exact List.mem_append_left _ (by simp [Node.inputs, hs])
        · exact List.mem_append_right _ hs
    · rw [if_neg hb] at ho
      rcases ihl _ _ wl (by simp; omega) hl.2.1 ho k2 (fun s hs => hJ s (k4 s hs)) with he | hB
      · left; exact (List.mem_filter.1 he).1
      · right
        refine Bad.mono hB (fun s hs => ?_) (fun _ h => h)
        rcases List.mem_append.1 hs with hs | hs
        · exact List.mem_append_left _ (by simp [Node.inputs, hs])
        · exact List.mem_append_right _ hs

end Katie.Prefix
