import Verif.Lemmas.PrefixKeeps

/-
What is in a tree after a change: what was added, and what was there and was not removed.
-/

namespace Katie.Prefix
open Katie Katie.PrefixSpec

variable {cs : Suite}

/-- the leaves are where their VRF outputs lead -/
def Routed : List Bool → Node → Prop
  | p, .leaf v _ => On p v
  | p, .parent l r _ _ => Routed (p ++ [false]) l ∧ Routed (p ++ [true]) r
  | _, _ => True

theorem routed_front {p q : List Bool} {v c : Bytes} (h : Routed (p ++ q) (.leaf v c)) : Routed p (.leaf v c) :=
  (List.prefix_append p q).trans h

theorem routed_cacheHashes (n : Node) : ∀ p, Routed p n → Routed p (n.cacheHashes cs) := by
  induction n with
  | empty => intro p h; exact h
  | leaf v c => intro p h; exact h
  | ext h i => intro p h; exact h
  | parent l r hh i ihl ihr =>
    intro p h
    cases hh with
    | some x => exact h
    | none => exact ⟨ihl _ h.1, ihr _ h.2⟩

/-- A tree with the hash of a trie has its leaves where they belong. -/
theorem routed_of_hash (hcs : cs.Good) (n : Node) : ∀ (p : List Bool) (S : List Pair) (I : List Bytes),
    Wf cs.hashSize p S → n.Sized cs.hashSize → n.hash cs = th cs p S →
    (∀ s ∈ trieInputs cs.H cs.hashSize (8 * cs.hashSize - p.length) p.length S, s ∈ I) →
    Routed p n ∨ Bad cs (n.inputs cs) I := by
  induction n with
  | empty => intro p S I _ _ _ _; exact Or.inl trivial
  | ext h i => intro p S I _ _ _ _; exact Or.inl trivial
  | leaf v c =>
    intro p S I hS hsz h hI
    rcases leaf_hash hsz hS h with rfl | hB
    · left; exact hS.on (v, c) (List.mem_singleton.2 rfl)
    · right; exact hB.mono (fun _ h => h) hI
  | parent l r hh i ihl ihr =>
    intro p S I hS hsz h hI
    obtain ⟨rfl, hs1, hs2⟩ := hsz
    rcases parent_hash hcs (hashLen_of_sized _ hs1) hS h with ⟨k1, k2, k3, k4, k5⟩ | hB
    swap
    · right; exact hB.mono (fun _ h => h) hI
    obtain ⟨wl, wr⟩ := hS.filter k1
    rcases ihl _ _ I wl hs1 k2 (fun s hs => hI s (k4 s hs)) with h1 | hB
    swap
    · right; exact hB.mono (fun s hs => by simp [Node.inputs, hs]) (fun _ h => h)
    rcases ihr _ _ I wr hs2 k3 (fun s hs => hI s (k5 s hs)) with h2 | hB
    swap
    · right; exact hB.mono (fun s hs => by simp [Node.inputs, hs]) (fun _ h => h)
    exact Or.inl ⟨h1, h2⟩

theorem getBit_within {v : Bytes} {d : Nat} {b : Bool} (h : getBit v d = .ok b) : d < 8 * v.length := by
  by_contra hd
  rw [getBit_panic _ _ (by omega)] at h
  cases h

/-! ### splitting a list of entries -/

/-- a sorted list of entries for the node at `p` -/
structure Here {α : Type} (key : α → Bytes) (hs : Nat) (p : List Bool) (L : List α) : Prop where
  sorted : Sorted key L
  len : ∀ a ∈ L, (key a).length = hs
  on : ∀ a ∈ L, On p (key a)

theorem here_nil {α : Type} (key : α → Bytes) (hs : Nat) (p : List Bool) : Here key hs p [] :=
  ⟨List.Pairwise.nil, by simp, by simp⟩

theorem here_below {α : Type} {key : α → Bytes} {hs : Nat} {p : List Bool} {L : List α} (h : Here key hs p L) (q : List Bool) :
    Here key hs q (below key L q) :=
  ⟨h.sorted.filter _, fun a ha => h.len a (mem_below.1 ha).1, fun _ ha => (mem_below.1 ha).2⟩

theorem splitBit_here {α : Type} {key : α → Bytes} {hs : Nat} {p : List Bool} {L a b : List α} (h : Here key hs p L)
    (hs' : splitBit key L p.length = .ok (a, b)) : a = below key L (p ++ [false]) ∧ b = below key L (p ++ [true]) := by
  by_cases hL : L = []
  · subst hL
    rw [splitBit_nil] at hs'
    obtain ⟨rfl, rfl⟩ := Prod.mk.inj (Except.ok.inj hs')
    exact ⟨rfl, rfl⟩
  · have hp : p.length < 8 * hs := by
      have hs' := hs'
      unfold splitBit at hs'
      obtain ⟨i, hi, -⟩ := G.bind_eq_ok.1 hs'
      cases L with
      | nil => exact absurd rfl hL
      | cons x L =>
        simp only [List.length_cons] at hi
        unfold searchBit at hi
        rw [if_pos (by omega)] at hi
        split at hi
        · cases hi
        · rename_i y hy
          obtain ⟨b, hb, _⟩ := G.bind_eq_ok.1 hi
          have := getBit_within hb
          rw [h.len y (List.mem_of_getElem? hy)] at this
          exact this
    have hb : below key L p = L := by
      unfold below
      rw [List.filter_eq_self]
      intro x hx
      simp [h.on x hx]
    have := splitBit_below h.sorted h.len p hp
    rw [hb, hs'] at this
    obtain ⟨rfl, rfl⟩ := Prod.mk.inj (Except.ok.inj this)
    exact ⟨rfl, rfl⟩

/-! ### the changed tree -/

theorem routed_collapse {p : List Bool} {l r : Node} (hl : Routed (p ++ [false]) l) (hr : Routed (p ++ [true]) r) :
    Routed p (collapse l r) := by
  cases l <;> cases r <;> first | exact trivial | exact ⟨hl, hr⟩ | exact routed_front hl | exact routed_front hr

theorem addRemove_routed : ∀ (fuel : Nat) (n n' : Node) (add : List Entry) (remove : List Bytes) (p : List Bool),
    Here Entry.vrf cs.hashSize p add → addRemoveEntries cs fuel n add remove p.length = .ok n' → Routed p n → Routed p n' := by
  intro fuel
  induction fuel with
  | zero => intro n n' add remove p _ h; cases h
  | succ f ih =>
    intro n n' add remove p ha h hn
    unfold addRemoveEntries at h
    split at h
    · cases n with
      | parent l r hh i =>
        cases i with
        | none => cases h
        | some i => obtain rfl := Except.ok.inj h; trivial
      | empty => obtain rfl := Except.ok.inj h; exact hn
      | leaf v c => obtain rfl := Except.ok.inj h; exact hn
      | ext hh i => obtain rfl := Except.ok.inj h; exact hn
    · cases n with
      | empty =>
        match add, ha, h with
        | [], _, h => obtain rfl := Except.ok.inj h; trivial
        | [x], ha, h => obtain rfl := Except.ok.inj h; exact ha.on x (List.mem_singleton.2 rfl)
        | x :: y :: l, ha, h => exact ih _ _ _ _ p ha h ⟨trivial, trivial⟩
      | ext hh i => cases h
      | leaf v c =>
        simp only at h
        split at h
        · split at h
          · exact ih _ _ _ _ p ha h trivial
          · obtain rfl := Except.ok.inj h; trivial
        split at h
        · obtain ⟨b, hb, h⟩ := G.bind_eq_ok.mp h
          have hd : p.length < 8 * v.length := getBit_within hb
          rw [getBit_eq _ _ hd] at hb
          have hb := Except.ok.inj hb
          split at h
          · next hbt => exact ih _ _ _ _ p ha h ⟨trivial, on_snoc.2 ⟨hn, hd, hb.trans hbt⟩⟩
          · next hbt => exact ih _ _ _ _ p ha h ⟨on_snoc.2 ⟨hn, hd, hb.trans (by simpa using hbt)⟩, trivial⟩
        · obtain rfl := Except.ok.inj h; exact hn
      | parent l r hh i =>
        simp only at h
        obtain ⟨⟨la, ra⟩, hsa, h⟩ := G.bind_eq_ok.1 h
        obtain ⟨⟨lr, rr⟩, hs, h⟩ := G.bind_eq_ok.1 h
        obtain ⟨l', hl', h⟩ := G.bind_eq_ok.1 h
        obtain ⟨r', hr', h⟩ := G.bind_eq_ok.1 h
        obtain rfl := Except.ok.inj h
        obtain ⟨rfl, rfl⟩ := splitBit_here ha hsa
        exact routed_collapse (ih _ _ _ _ (p ++ [false]) (here_below ha _) (by simpa using hl') hn.1)
          (ih _ _ _ _ (p ++ [true]) (here_below ha _) (by simpa using hr') hn.2)

/-- leaves have VRF outputs, and unexplored nodes hashes, of the right length; no parent belongs to a tile -/
def Fine (hs : Nat) : Node → Prop
  | .empty => True
  | .leaf v _ => v.length = hs
  | .parent l r _ i => i = none ∧ Fine hs l ∧ Fine hs r
  | .ext h _ => h.length = hs

theorem fine_of_sized {hs : Nat} (n : Node) : n.Sized hs → NoIds n → Fine hs n := by
  induction n with
  | empty => intro _ _; trivial
  | leaf v c => intro h _; exact h
  | ext hh i => intro h _; exact h
  | parent l r hh i ihl ihr => intro h h'; exact ⟨h'.1, ihl h.2.1 h'.2.1, ihr h.2.2 h'.2.2⟩

theorem fine_cacheHashes {hs : Nat} (n : Node) : Fine hs n → Fine hs (n.cacheHashes cs) := by
  induction n with
  | empty => intro h; exact h
  | leaf v c => intro h; exact h
  | ext hh i => intro h; exact h
  | parent l r hh i ihl ihr =>
    intro h
    cases hh with
    | some x => exact h
    | none => exact ⟨h.1, ihl h.2.1, ihr h.2.2⟩

theorem sized_collapse {hs : Nat} {l r : Node} (hl : l.Sized hs ∧ NoIds l) (hr : r.Sized hs ∧ NoIds r) :
    (collapse l r).Sized hs ∧ NoIds (collapse l r) := by
  cases l <;> cases r <;>
    first | exact ⟨trivial, trivial⟩ | exact ⟨⟨rfl, hl.1, hr.1⟩, rfl, hl.2, hr.2⟩ | exact hl | exact hr

/-- The parent nodes of a changed tree are all new. -/
theorem addRemove_sized : ∀ (fuel : Nat) (n n' : Node) (add : List Entry) (remove : List Bytes) (d : Nat),
    (∀ x ∈ add, x.vrf.length = cs.hashSize) → addRemoveEntries cs fuel n add remove d = .ok n' → Fine cs.hashSize n →
    n'.Sized cs.hashSize ∧ NoIds n' := by
  intro fuel
  induction fuel with
  | zero => intro n n' add remove d _ h; cases h
  | succ f ih =>
    intro n n' add remove d ha h hn
    unfold addRemoveEntries at h
    split at h
    · cases n with
      | parent l r hh i =>
        obtain rfl := hn.1
        cases h
      | empty => obtain rfl := Except.ok.inj h; exact ⟨trivial, trivial⟩
      | leaf v c => obtain rfl := Except.ok.inj h; exact ⟨hn, trivial⟩
      | ext hh i => obtain rfl := Except.ok.inj h; exact ⟨hn, trivial⟩
    · cases n with
      | empty =>
        match add, ha, h with
        | [], _, h => obtain rfl := Except.ok.inj h; exact ⟨trivial, trivial⟩
        | [x], ha, h => obtain rfl := Except.ok.inj h; exact ⟨ha x (List.mem_singleton.2 rfl), trivial⟩
        | x :: y :: l, ha, h => exact ih _ _ _ _ d ha h ⟨rfl, trivial, trivial⟩
      | ext hh i => cases h
      | leaf v c =>
        simp only at h
        split at h
        · split at h
          · exact ih _ _ _ _ d ha h trivial
          · obtain rfl := Except.ok.inj h; exact ⟨trivial, trivial⟩
        split at h
        · obtain ⟨b, hb, h⟩ := G.bind_eq_ok.mp h
          split at h
          · exact ih _ _ _ _ d ha h ⟨rfl, trivial, hn⟩
          · exact ih _ _ _ _ d ha h ⟨rfl, hn, trivial⟩
        · obtain rfl := Except.ok.inj h; exact ⟨hn, trivial⟩
      | parent l r hh i =>
        simp only at h
        obtain ⟨⟨la, ra⟩, hsa, h⟩ := G.bind_eq_ok.1 h
        obtain ⟨⟨lr, rr⟩, hs, h⟩ := G.bind_eq_ok.1 h
        obtain ⟨l', hl', h⟩ := G.bind_eq_ok.1 h
        obtain ⟨r', hr', h⟩ := G.bind_eq_ok.1 h
        obtain rfl := Except.ok.inj h
        unfold splitBit at hsa
        obtain ⟨k, -, hsa⟩ := G.bind_eq_ok.1 hsa
        obtain ⟨rfl, rfl⟩ := Prod.mk.inj (Except.ok.inj hsa)
        exact sized_collapse (ih _ _ _ _ _ (fun x hx => ha x (List.mem_of_mem_take hx)) hl' hn.2.1)
          (ih _ _ _ _ _ (fun x hx => ha x (List.mem_of_mem_drop hx)) hr' hn.2.2)

/-- What is added is in the changed tree. -/
theorem addRemove_adds {I : List Bytes} {x : Entry} : ∀ (fuel : Nat) (n n' : Node) (add : List Entry) (remove : List Bytes)
    (p : List Bool), Here Entry.vrf cs.hashSize p add → x ∈ add → addRemoveEntries cs fuel n add remove p.length = .ok n' →
    Opens cs I (fun h _ => h = none) (x.vrf, x.com) p n' := by
  intro fuel
  induction fuel with
  | zero => intro n n' add remove p _ _ h; cases h
  | succ f ih =>
    intro n n' add remove p ha hx h
    have hne : add.length > 0 := List.length_pos_of_mem hx
    unfold addRemoveEntries at h
    rw [if_neg (by omega)] at h
    cases n with
    | empty =>
      match add, ha, hx, h with
      | [y], ha, hx, h =>
        obtain rfl := Except.ok.inj h
        obtain rfl := List.mem_singleton.1 hx
        rfl
      | y :: z :: l, ha, hx, h => exact ih _ _ _ _ p ha hx h
    | ext hh i => cases h
    | leaf v c =>
      simp only at h
      split at h
      · exact ih _ _ _ _ p ha hx h
      obtain ⟨b, hb, h⟩ := G.bind_eq_ok.mp h
      split at h
      · exact ih _ _ _ _ p ha hx h
      · exact ih _ _ _ _ p ha hx h
    | parent l r hh i =>
      simp only at h
      obtain ⟨⟨la, ra⟩, hsa, h⟩ := G.bind_eq_ok.1 h
      obtain ⟨⟨lr, rr⟩, hs, h⟩ := G.bind_eq_ok.1 h
      obtain ⟨l', hl', h⟩ := G.bind_eq_ok.1 h
      obtain ⟨r', hr', h⟩ := G.bind_eq_ok.1 h
      obtain rfl := Except.ok.inj h
      have hd : p.length < 8 * x.vrf.length := by
        by_contra hd
        rw [ha.len x hx] at hd
        have := hsa
        unfold splitBit at this
        obtain ⟨i, hi, -⟩ := G.bind_eq_ok.1 this
        unfold searchBit at hi
        cases add with
        | nil => cases hx
        | cons y add =>
          simp only [List.length_cons] at hi
          rw [if_pos (by omega)] at hi
          split at hi
          · cases hi
          · rename_i y hy
            obtain ⟨b, hb, _⟩ := G.bind_eq_ok.1 hi
            have := getBit_within hb
            rw [ha.len y (List.mem_of_getElem? hy)] at this
            omega
      obtain ⟨rfl, rfl⟩ := splitBit_here ha hsa
      apply opens_collapse
      split
      · next hb =>
        exact ih _ _ _ _ (p ++ [true]) (here_below ha _) (mem_below.2 ⟨hx, on_snoc.2 ⟨ha.on x hx, hd, hb⟩⟩) (by simpa using hr')
      · next hb =>
        exact ih _ _ _ _ (p ++ [false]) (here_below ha _)
          (mem_below.2 ⟨hx, on_snoc.2 ⟨ha.on x hx, hd, by simpa using hb⟩⟩) (by simpa using hl')

theorem collapse_opens {I : List Bytes} {e : Pair} {p : List Bool} {l r : Node} {F : Option Bytes → Option TileId → Prop}
    (hl : Routed (p ++ [false]) l) (hr : Routed (p ++ [true]) r) (h : Opens cs I F e p (collapse l r)) :
    if bitAt e.1 p.length then Opens cs I F e (p ++ [true]) r else Opens cs I F e (p ++ [false]) l := by
  have leafl : ∀ v c, l = .leaf v c → (v, c) = e → bitAt e.1 p.length = false := by
    rintro v c rfl rfl
    exact (on_snoc.1 hl).2.2
  have leafr : ∀ v c, r = .leaf v c → (v, c) = e → bitAt e.1 p.length = true := by
    rintro v c rfl rfl
    exact (on_snoc.1 hr).2.2
  cases l with
  | leaf v c =>
    cases r with
    | empty =>
      rw [if_neg (by rw [leafl v c rfl h]; decide)]
      exact h
    | _ => exact h.2
  | empty =>
    cases r with
    | empty => exact h.elim
    | leaf v c =>
      rw [if_pos (leafr v c rfl h)]
      exact h
    | _ => exact h.2
  | _ => exact h.2

/-- What is in a changed tree was added, or it was there and is not removed. -/
theorem opens_addRemove {I : List Bytes} {e : Pair} : ∀ (fuel : Nat) (n n' : Node) (add : List Entry) (remove : List Bytes)
    (p : List Bool), Here Entry.vrf cs.hashSize p add → Here id cs.hashSize p remove →
    addRemoveEntries cs fuel n add remove p.length = .ok n' → Routed p n → Fine cs.hashSize n →
    Opens cs I (fun _ i => i = none) e p n' →
    (∃ x ∈ add, (x.vrf, x.com) = e) ∨ (e.1 ∉ remove ∧ Opens cs I (fun _ i => i = none) e p n) := by
  intro fuel
  induction fuel with
  | zero => intro n n' add remove p _ _ h; cases h
  | succ f ih =>
    intro n n' add remove p ha hre h hn hf ho
    unfold addRemoveEntries at h
    split at h
    · next h0 =>
      obtain rfl := List.length_eq_zero_iff.1 h0.2
      right
      refine ⟨by simp, ?_⟩
      cases n with
      | parent l r hh i =>
        obtain rfl := hf.1
        cases h
      | empty => obtain rfl := Except.ok.inj h; exact ho
      | leaf v c => obtain rfl := Except.ok.inj h; exact ho
      | ext hh i => obtain rfl := Except.ok.inj h; exact ho
    · cases n with
      | empty =>
        left
        match add, ha, h with
        | [], _, h => obtain rfl := Except.ok.inj h; exact ho.elim
        | [x], ha, h => obtain rfl := Except.ok.inj h; exact ⟨x, List.mem_singleton.2 rfl, ho⟩
        | x :: y :: l, ha, h =>
          rcases ih _ _ _ _ p ha (here_nil _ _ _) h ⟨trivial, trivial⟩ ⟨rfl, trivial, trivial⟩ ho with k | ⟨-, -, k⟩
          · exact k
          · split at k <;> exact k.elim
      | ext hh i => cases h
      | leaf v c =>
        simp only at h
        split at h
        · left
          split at h
          · rcases ih _ _ _ _ p ha (here_nil _ _ _) h trivial trivial ho with k | ⟨-, k⟩
            · exact k
            · exact k.elim
          · obtain rfl := Except.ok.inj h; exact ho.elim
        next hv =>
        split at h
        · obtain ⟨b, hb, h⟩ := G.bind_eq_ok.mp h
          have hd : p.length < 8 * v.length := getBit_within hb
          rw [getBit_eq _ _ hd] at hb
          have hb := Except.ok.inj hb
          split at h
          · next hbt =>
            rcases ih _ _ _ _ p ha (here_nil _ _ _) h ⟨trivial, on_snoc.2 ⟨hn, hd, hb.trans hbt⟩⟩ ⟨rfl, trivial, hf⟩ ho with
              k | ⟨-, -, k⟩
            · exact Or.inl k
            · split at k
              · obtain rfl : (v, c) = e := k
                exact Or.inr ⟨hv, rfl⟩
              · exact k.elim
          · next hbt =>
            rcases ih _ _ _ _ p ha (here_nil _ _ _) h ⟨on_snoc.2 ⟨hn, hd, hb.trans (by simpa using hbt)⟩, trivial⟩
              ⟨rfl, hf, trivial⟩ ho with k | ⟨-, -, k⟩
            · exact Or.inl k
            · split at k
              · exact k.elim
              · obtain rfl : (v, c) = e := k
                exact Or.inr ⟨hv, rfl⟩
        · obtain rfl := Except.ok.inj h
          obtain rfl : (v, c) = e := ho
          exact Or.inr ⟨hv, rfl⟩
      | parent l r hh i =>
        simp only at h
        obtain ⟨⟨la, ra⟩, hsa, h⟩ := G.bind_eq_ok.1 h
        obtain ⟨⟨lr, rr⟩, hs, h⟩ := G.bind_eq_ok.1 h
        obtain ⟨l', hl', h⟩ := G.bind_eq_ok.1 h
        obtain ⟨r', hr', h⟩ := G.bind_eq_ok.1 h
        obtain rfl := Except.ok.inj h
        obtain ⟨rfl, rfl⟩ := splitBit_here ha hsa
        obtain ⟨rfl, rfl⟩ := splitBit_here hre hs
        have hl' : addRemoveEntries cs f l (below Entry.vrf add (p ++ [false])) (below id remove (p ++ [false]))
          (p ++ [false]).length = .ok l' := by simpa using hl'
        have hr' : addRemoveEntries cs f r (below Entry.vrf add (p ++ [true])) (below id remove (p ++ [true]))
          (p ++ [true]).length = .ok r' := by simpa using hr'
        have ho := collapse_opens (addRemove_routed _ _ _ _ _ _ (here_below ha _) hl' hn.1)
          (addRemove_routed _ _ _ _ _ _ (here_below ha _) hr' hn.2) ho
        have out : ∀ b, bitAt e.1 p.length = b → e.1 ∉ below id remove (p ++ [b]) → e.1 ∉ remove := by
          intro b hb hnot hm
          by_cases hd : p.length < 8 * e.1.length
          · exact hnot (mem_below.2 ⟨hm, on_snoc.2 ⟨hre.on _ hm, hd, hb⟩⟩)
          · have hlen := hre.len _ hm
            have := hs
            unfold splitBit at this
            obtain ⟨i, hi, -⟩ := G.bind_eq_ok.1 this
            unfold searchBit at hi
            cases remove with
            | nil => cases hm
            | cons y remove =>
              simp only [List.length_cons] at hi
              rw [if_pos (by omega)] at hi
              split at hi
              · cases hi
              · rename_i y hy
                obtain ⟨b, hb, _⟩ := G.bind_eq_ok.1 hi
                have := getBit_within hb
                rw [hre.len y (List.mem_of_getElem? hy)] at this
                simp only [id] at hlen
                omega
        by_cases hb : bitAt e.1 p.length = true
        · rw [if_pos hb] at ho
          rcases ih _ _ _ _ _ (here_below ha _) (here_below hre _) hr' hn.2 hf.2.2 ho with ⟨x, hx, k⟩ | ⟨k1, k2⟩
          · exact Or.inl ⟨x, (mem_below.1 hx).1, k⟩
          · refine Or.inr ⟨out true hb k1, hf.1, ?_⟩
            rw [if_pos hb]
            exact k2
        · rw [if_neg hb] at ho
          rcases ih _ _ _ _ _ (here_below ha _) (here_below hre _) hl' hn.1 hf.2.1 ho with ⟨x, hx, k⟩ | ⟨k1, k2⟩
          · exact Or.inl ⟨x, (mem_below.1 hx).1, k⟩
          · refine Or.inr ⟨out false (by simpa using hb) k1, hf.1, ?_⟩
            rw [if_neg hb]
            exact k2

end Katie.Prefix
