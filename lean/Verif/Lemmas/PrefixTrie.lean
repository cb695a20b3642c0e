import Verif.Lemmas.PrefixBits

/-
What it means for a node to represent a set of entries, and that `addRemoveEntries` updates the set.
-/

namespace Katie.Prefix
open Katie Katie.PrefixSpec

theorem trieHash_two (H : Bytes → Bytes) (hs k d : Nat) (S : List Pair) (h : 2 ≤ S.length) :
    trieHash H hs (k + 1) d S = H (3 :: (trieHash H hs k (d + 1) (S.filter fun e => !bitAt e.1 d) ++
      trieHash H hs k (d + 1) (S.filter fun e => bitAt e.1 d))) := by
  match S, h with
  | a :: b :: S, _ => simp [trieHash]

theorem trieHash_perm (H : Bytes → Bytes) (hs k d : Nat) (S T : List Pair) (h : S.Perm T) :
    trieHash H hs k d S = trieHash H hs k d T := by
  induction k generalizing d S T with
  | zero =>
    match S, T, h with
    | [], T, h => rw [List.nil_perm.mp h]
    | [a], T, h => rw [List.singleton_perm.mp h]
    | a :: b :: S, T, h =>
      have hl := h.length_eq
      match T, hl with
      | c :: d :: T, _ => simp [trieHash]
  | succ k ih =>
    by_cases h2 : 2 ≤ S.length
    · rw [trieHash_two _ _ _ _ _ h2, trieHash_two _ _ _ _ _ (by rw [← h.length_eq]; exact h2),
        ih _ _ _ (h.filter _), ih _ _ _ (h.filter _)]
    · match S, T, h, h2 with
      | [], T, h, _ => rw [List.nil_perm.mp h]
      | [a], T, h, _ => rw [List.singleton_perm.mp h]
      | a :: b :: S, T, h, h2 => simp at h2

/-- The hash of the trie over the entries `S` below the path `p`. -/
def th (cs : Suite) (p : List Bool) (S : List Pair) : Bytes :=
  trieHash cs.H cs.hashSize (8 * cs.hashSize - p.length) p.length S

/-- `S` is a map whose VRF outputs all continue the path `p`. -/
structure Wf (hs : Nat) (p : List Bool) (S : List Pair) : Prop where
  on : ∀ e ∈ S, On p e.1
  len : ∀ e ∈ S, e.1.length = hs ∧ e.2.length = hs
  nodup : (S.map Prod.fst).Nodup

theorem wf_root_iff (hs : Nat) (S : List Pair) : Wf hs [] S ↔ IsMap hs S :=
  ⟨fun h => ⟨h.len, h.nodup⟩, fun h => ⟨fun _ _ => on_nil _, h.len, h.distinct⟩⟩

theorem two_of_nodup {β : Type} {l : List β} (hn : l.Nodup) (h : 2 ≤ l.length) : ∃ v ∈ l, ∃ w ∈ l, v ≠ w := by
  match l, h with
  | a :: b :: l, _ =>
    refine ⟨a, by simp, b, by simp, ?_⟩
    intro hab; subst hab; simp at hn

theorem Wf.lt {hs : Nat} {p : List Bool} {S : List Pair} (h : Wf hs p S) (h2 : 2 ≤ S.length) :
    p.length < 8 * hs := by
  obtain ⟨v, hv, w, hw, hne⟩ := two_of_nodup h.nodup (by simpa using h2)
  obtain ⟨e, he, rfl⟩ := List.mem_map.mp hv
  obtain ⟨f, hf, rfl⟩ := List.mem_map.mp hw
  have := (h.on e he).lt (h.on f hf) (by rw [(h.len e he).1, (h.len f hf).1]) hne
  rwa [(h.len e he).1] at this

theorem Wf.append {hs : Nat} {p : List Bool} {Sl Sr : List Pair} (hl : Wf hs (p ++ [false]) Sl)
    (hr : Wf hs (p ++ [true]) Sr) : Wf hs p (Sl ++ Sr) := by
  refine ⟨?_, ?_, ?_⟩
  · intro e he
    rcases List.mem_append.mp he with h | h
    · exact (hl.on e h).up
    · exact (hr.on e h).up
  · intro e he
    rcases List.mem_append.mp he with h | h
    · exact hl.len e h
    · exact hr.len e h
  · rw [List.map_append]
    apply List.Nodup.append hl.nodup hr.nodup
    intro v hv hv'
    obtain ⟨e, he, rfl⟩ := List.mem_map.mp hv
    obtain ⟨f, hf, hef⟩ := List.mem_map.mp hv'
    have h1 := (hl.on e he).bit
    have h2 := (hr.on f hf).bit
    rw [hef, h1] at h2; cases h2

theorem filter_left {hs : Nat} {p : List Bool} {Sl Sr : List Pair} (hl : Wf hs (p ++ [false]) Sl)
    (hr : Wf hs (p ++ [true]) Sr) :
    (Sl ++ Sr).filter (fun e => !bitAt e.1 p.length) = Sl := by
  rw [List.filter_append, List.filter_eq_self.mpr, List.filter_eq_nil_iff.mpr, List.append_nil]
  · intro e he; simp [(hr.on e he).bit]
  · intro e he; simp [(hl.on e he).bit]

theorem filter_right {hs : Nat} {p : List Bool} {Sl Sr : List Pair} (hl : Wf hs (p ++ [false]) Sl)
    (hr : Wf hs (p ++ [true]) Sr) :
    (Sl ++ Sr).filter (fun e => bitAt e.1 p.length) = Sr := by
  rw [List.filter_append, List.filter_eq_nil_iff.mpr, List.filter_eq_self.mpr, List.nil_append]
  · intro e he; simp [(hr.on e he).bit]
  · intro e he; simp [(hl.on e he).bit]

theorem th_parent (cs : Suite) {p : List Bool} {Sl Sr : List Pair} (hl : Wf cs.hashSize (p ++ [false]) Sl)
    (hr : Wf cs.hashSize (p ++ [true]) Sr) (h2 : 2 ≤ (Sl ++ Sr).length) :
    th cs p (Sl ++ Sr) = cs.H (3 :: (th cs (p ++ [false]) Sl ++ th cs (p ++ [true]) Sr)) := by
  have hlt := (hl.append hr).lt h2
  unfold th
  have e : 8 * cs.hashSize - p.length = (8 * cs.hashSize - (p.length + 1)) + 1 := by omega
  rw [e, trieHash_two _ _ _ _ _ h2, filter_left hl hr, filter_right hl hr]
  simp only [List.length_append, List.length_singleton]

/-- Node `n` at path `p` represents the entries `S` (in order).  `X` is what is known of an external
reference, `Y` what is known of a parent node's tile id and entries. -/
def Rep (cs : Suite) (X : TileId → List Bool → List Pair → Prop)
    (Y : Option TileId → List Bool → List Pair → Prop) : List Bool → Node → List Pair → Prop
  | _, .empty, S => S = []
  | p, .leaf v c, S => S = [(v, c)] ∧ On p v ∧ v.length = cs.hashSize ∧ c.length = cs.hashSize
  | p, .parent l r h id, S => ∃ Sl Sr, S = Sl ++ Sr ∧ Rep cs X Y (p ++ [false]) l Sl ∧
      Rep cs X Y (p ++ [true]) r Sr ∧ Y id p S ∧ (∀ x, h = some x → x = th cs p S)
  | p, .ext h id, S => h = th cs p S ∧ X id p S ∧ Wf cs.hashSize p S

variable {cs : Suite} {X X' : TileId → List Bool → List Pair → Prop}
  {Y Y' : Option TileId → List Bool → List Pair → Prop}

theorem Rep.wf {p : List Bool} {n : Node} {S : List Pair} (h : Rep cs X Y p n S) : Wf cs.hashSize p S := by
  induction n generalizing p S with
  | empty =>
    have : S = [] := h
    subst this
    exact ⟨by simp, by simp, by simp⟩
  | leaf v c =>
    obtain ⟨rfl, h1, h2, h3⟩ := h
    exact ⟨by simp [h1], by simp [h2, h3], by simp⟩
  | parent l r hh id ihl ihr =>
    obtain ⟨Sl, Sr, rfl, h1, h2, _, _⟩ := h
    exact (ihl h1).append (ihr h2)
  | ext hh id => exact h.2.2

theorem Rep.mono {p : List Bool} {n : Node} {S : List Pair} (h : Rep cs X Y p n S)
    (hX : ∀ id q T, X id q T → X' id q T) (hY : ∀ id q T, p <+: q → Y id q T → Y' id q T) :
    Rep cs X' Y' p n S := by
  induction n generalizing p S with
  | empty => exact h
  | leaf v c => exact h
  | parent l r hh id ihl ihr =>
    obtain ⟨Sl, Sr, rfl, h1, h2, h3, h4⟩ := h
    refine ⟨Sl, Sr, rfl, ihl h1 ?_, ihr h2 ?_, hY _ _ _ (List.prefix_refl _) h3, h4⟩
    · intro id q T hq; exact hY id q T ((List.prefix_append _ _).trans hq)
    · intro id q T hq; exact hY id q T ((List.prefix_append _ _).trans hq)
  | ext hh id => exact ⟨h.1, hX _ _ _ h.2.1, h.2.2⟩

theorem Rep.hash_eq {p : List Bool} {n : Node} {S : List Pair} (h : Rep cs X Y p n S)
    (hY : ∀ id q T, p <+: q → Y id q T → 2 ≤ T.length) : n.hash cs = th cs p S := by
  induction n generalizing p S with
  | empty =>
    have : S = [] := h
    subst this
    unfold th; cases (8 * cs.hashSize - p.length) <;> simp [Node.hash, trieHash]
  | leaf v c =>
    obtain ⟨rfl, h1, h2, h3⟩ := h
    unfold th; cases (8 * cs.hashSize - p.length) <;> simp [Node.hash, trieHash]
  | parent l r hh id ihl ihr =>
    obtain ⟨Sl, Sr, rfl, h1, h2, h3, h4⟩ := h
    cases hh with
    | some x => simp only [Node.hash]; exact h4 x rfl
    | none =>
      simp only [Node.hash]
      rw [th_parent cs h1.wf h2.wf (hY _ _ _ (List.prefix_refl _) h3), ihl h1 ?_, ihr h2 ?_]
      · intro id q T hq; exact hY id q T ((List.prefix_append _ _).trans hq)
      · intro id q T hq; exact hY id q T ((List.prefix_append _ _).trans hq)
  | ext hh id => exact h.1

/-- canonical: parents have at least two entries below them -/
def Two (_ : Option TileId) (_ : List Bool) (T : List Pair) : Prop := 2 ≤ T.length

theorem collapse_rep {p : List Bool} {l r : Node} {Sl Sr : List Pair}
    (hl : Rep cs X Two (p ++ [false]) l Sl) (hr : Rep cs X Two (p ++ [true]) r Sr)
    (h2 : (∀ id b T, X id (p ++ [b]) T → 2 ≤ T.length) ∨ 2 ≤ (Sl ++ Sr).length) :
    Rep cs X Two p (collapse l r) (Sl ++ Sr) := by
  have hpar : 2 ≤ (Sl ++ Sr).length → Rep cs X Two p (.parent l r none none) (Sl ++ Sr) := by
    intro h
    exact ⟨Sl, Sr, rfl, hl, hr, h, by simp⟩
  have big : ∀ (n : Node) (b : Bool) (T : List Pair), Rep cs X Two (p ++ [b]) n T →
      (∀ id b T, X id (p ++ [b]) T → 2 ≤ T.length) → n = .empty ∨ (∃ v c, n = .leaf v c) ∨ 2 ≤ T.length := by
    intro n b T h hx
    cases n with
    | empty => exact Or.inl rfl
    | leaf v c => exact Or.inr (Or.inl ⟨v, c, rfl⟩)
    | parent l r hh id =>
      obtain ⟨Sl, Sr, rfl, h1, h2, h3, h4⟩ := h
      exact Or.inr (Or.inr h3)
    | ext hh id => exact Or.inr (Or.inr (hx _ _ _ h.2.1))
  have key : (l = .empty ∨ ∃ v c, l = .leaf v c) → (r = .empty ∨ ∃ v c, r = .leaf v c) →
      Rep cs X Two p (collapse l r) (Sl ++ Sr) := by
    rintro (rfl | ⟨v, c, rfl⟩) (rfl | ⟨w, d, rfl⟩)
    · have e1 : Sl = [] := hl
      have e2 : Sr = [] := hr
      subst e1; subst e2
      exact (rfl : ([] ++ [] : List Pair) = [])
    · have e1 : Sl = [] := hl
      obtain ⟨e2, h1, h4, h3⟩ := hr
      subst e1; subst e2
      exact ⟨rfl, h1.up, h4, h3⟩
    · have e1 : Sr = [] := hr
      obtain ⟨e2, h1, h4, h3⟩ := hl
      subst e1; subst e2
      exact ⟨rfl, h1.up, h4, h3⟩
    · obtain ⟨e1, _⟩ := hl
      obtain ⟨e2, _⟩ := hr
      apply hpar
      rw [e1, e2]; simp
  have rest : 2 ≤ (Sl ++ Sr).length → Rep cs X Two p (collapse l r) (Sl ++ Sr) := by
    intro h
    unfold collapse
    split
    · obtain ⟨e1, _⟩ := hl
      have e2 : Sr = [] := hr
      rw [e1, e2] at h; simp at h
    · obtain ⟨e1, _⟩ := hr
      have e2 : Sl = [] := hl
      rw [e1, e2] at h; simp at h
    · have e1 : Sl = [] := hl
      have e2 : Sr = [] := hr
      rw [e1, e2] at h; simp at h
    · exact hpar h
  rcases h2 with hx | h2
  · rcases big _ _ _ hl hx with h | h | h
    · rcases big _ _ _ hr hx with h' | h' | h'
      · exact key (Or.inl h) (Or.inl h')
      · exact key (Or.inl h) (Or.inr h')
      · exact rest (by rw [List.length_append]; omega)
    · rcases big _ _ _ hr hx with h' | h' | h'
      · exact key (Or.inr h) (Or.inl h')
      · exact key (Or.inr h) (Or.inr h')
      · exact rest (by rw [List.length_append]; omega)
    · exact rest (by rw [List.length_append]; omega)
  · exact rest h2

/-- the pair of an entry -/
def Entry.pair (e : Entry) : Pair := (e.vrf, e.com)

/-- a checked, sorted batch of additions -/
structure GoodAdd (hs : Nat) (A : List Entry) : Prop where
  sorted : Sorted Entry.vrf A
  len : ∀ a ∈ A, a.vrf.length = hs
  lenC : ∀ a ∈ A, a.com.length = hs
  nodup : (A.map Entry.vrf).Nodup

/-- a checked, sorted batch of removals -/
structure GoodRemove (hs : Nat) (R : List Bytes) : Prop where
  sorted : Sorted id R
  len : ∀ v ∈ R, v.length = hs

theorem goodRemove_nil (hs : Nat) : GoodRemove hs [] := ⟨List.Pairwise.nil, by simp⟩

/-- fuel needed at a node of each kind -/
def Node.rank : Node → Nat
  | .leaf _ _ => 3
  | .empty => 2
  | _ => 1

theorem Node.rank_le (n : Node) : n.rank ≤ 3 ∧ 1 ≤ n.rank := by cases n <;> simp [Node.rank]

theorem below_nil_of_prefix {α : Type} {key : α → Bytes} {l : List α} {p q : List Bool} (h : p <+: q)
    (hp : below key l p = []) : below key l q = [] := by
  rw [List.eq_nil_iff_forall_not_mem] at hp ⊢
  intro a ha
  exact hp a (mem_below.mpr ⟨(mem_below.mp ha).1, h.trans (mem_below.mp ha).2⟩)

theorem below_map_nodup {A : List Entry} (h : (A.map Entry.vrf).Nodup) (p : List Bool) :
    ((below Entry.vrf A p).map Entry.vrf).Nodup :=
  List.Nodup.sublist (List.Sublist.map _ List.filter_sublist) h

/-- Two keys below `p`, old or added, make `p` shorter than a VRF output; and the keys are distinct. -/
theorem fresh_nodup {p : List Bool} {S : List Pair} {A : List Entry} {hs : Nat} (hA : GoodAdd hs A)
    (hS : Wf hs p S) (hdis : ∀ a ∈ A, a.vrf ∉ S.map Prod.fst) :
    (S.map Prod.fst ++ (below Entry.vrf A p).map Entry.vrf).Nodup := by
  apply List.Nodup.append hS.nodup (below_map_nodup hA.nodup p)
  intro v hv hv'
  obtain ⟨a, ha, rfl⟩ := List.mem_map.mp hv'
  exact hdis a (mem_below.mp ha).1 hv

theorem fresh_lt {p : List Bool} {S : List Pair} {A : List Entry} {hs : Nat} (hA : GoodAdd hs A)
    (hS : Wf hs p S) (hdis : ∀ a ∈ A, a.vrf ∉ S.map Prod.fst)
    (h2 : 2 ≤ S.length + (below Entry.vrf A p).length) : p.length < 8 * hs := by
  obtain ⟨v, hv, w, hw, hne⟩ := two_of_nodup (fresh_nodup hA hS hdis) (by simpa using h2)
  have hk : ∀ v ∈ S.map Prod.fst ++ (below Entry.vrf A p).map Entry.vrf, On p v ∧ v.length = hs := by
    intro v hv
    rcases List.mem_append.mp hv with h | h
    · obtain ⟨e, he, rfl⟩ := List.mem_map.mp h
      exact ⟨hS.on e he, (hS.len e he).1⟩
    · obtain ⟨a, ha, rfl⟩ := List.mem_map.mp h
      exact ⟨(mem_below.mp ha).2, hA.len a (mem_below.mp ha).1⟩
  have := (hk v hv).1.lt (hk w hw).1 (by rw [(hk v hv).2, (hk w hw).2]) hne
  rwa [(hk v hv).2] at this

/-- What an update of the entries below `p` yields. -/
def Upd (p : List Bool) (S : List Pair) (A : List Entry) (R : List Bytes) (S' : List Pair) : Prop :=
  ∀ e, e ∈ S' ↔ (∃ a ∈ below Entry.vrf A p, e = a.pair) ∨ (e ∈ S ∧ e.1 ∉ R)

theorem addRemove_rep (fuel : Nat) : ∀ (X : TileId → List Bool → List Pair → Prop)
    (Y : Option TileId → List Bool → List Pair → Prop) (A : List Entry) (R : List Bytes) (n : Node)
    (p : List Bool) (S : List Pair),
    GoodAdd cs.hashSize A → GoodRemove cs.hashSize R →
    (∀ j q T, X j q T → below Entry.vrf A q = [] ∧ below id R q = []) →
    (∀ i q T, p <+: q → Y i q T →
      (2 ≤ T.length ∨ (R = [] ∧ 2 ≤ T.length + (below Entry.vrf A q).length)) ∧
      (below Entry.vrf A q ≠ [] ∨ below id R q ≠ [] ∨ ∃ j, i = some j ∧ X j q T)) →
    (R = [] ∨ ∀ i q T S', Y i q T → Upd q T A R S' → S'.Nodup →
      2 ≤ S'.length ∨ ∀ j b T', X j (q ++ [b]) T' → 2 ≤ T'.length) →
    Rep cs X Y p n S →
    (∀ a ∈ A, a.vrf ∈ S.map Prod.fst → a.vrf ∈ R) →
    4 * (8 * cs.hashSize - p.length) + n.rank ≤ fuel →
    ∃ n' S', addRemoveEntries cs fuel n (below Entry.vrf A p) (below id R p) p.length = .ok n' ∧
      Rep cs X Two p n' S' ∧ Upd p S A R S' := by
  induction fuel with
  | zero =>
    intro X Y A R n p S _ _ _ _ _ _ _ hf
    have := n.rank_le; omega
  | succ f ih =>
    intro X Y A R n p S hA hRm hX hY hR hrep hcomp hf
    unfold addRemoveEntries
    by_cases hun : (below Entry.vrf A p).length = 0 ∧ (below id R p).length = 0
    · rw [if_pos hun]
      have hA0 : below Entry.vrf A p = [] := List.eq_nil_of_length_eq_zero hun.1
      have hR0 : below id R p = [] := List.eq_nil_of_length_eq_zero hun.2
      have hnot : ∀ e ∈ S, e.1 ∉ R := by
        intro e he hin
        have : e.1 ∈ below id R p := mem_below.mpr ⟨hin, hrep.wf.on e he⟩
        rw [hR0] at this; cases this
      have hupd : Upd p S A R S := by
        intro e
        rw [hA0]
        constructor
        · intro he; exact Or.inr ⟨he, hnot e he⟩
        · rintro (⟨a, ha, _⟩ | h)
          · cases ha
          · exact h.1
      cases n with
      | empty => exact ⟨_, S, rfl, hrep, hupd⟩
      | leaf v c => exact ⟨_, S, rfl, hrep, hupd⟩
      | ext h i => exact ⟨_, S, rfl, hrep, hupd⟩
      | parent l r h i =>
        have hYc : ∀ i q T, p <+: q → Y i q T → 2 ≤ T.length := by
          intro i q T hq hy
          rcases (hY i q T hq hy).1 with h | ⟨_, h⟩
          · exact h
          · rw [below_nil_of_prefix hq hA0] at h; simpa using h
        have hhash := hrep.hash_eq hYc
        have hwf := hrep.wf
        obtain ⟨Sl, Sr, rfl, h1, h2, h3, h4⟩ := hrep
        rcases (hY _ _ _ (List.prefix_refl _) h3).2 with h | h | ⟨j, rfl, hj⟩
        · exact absurd hA0 h
        · exact absurd hR0 h
        · exact ⟨_, Sl ++ Sr, rfl, ⟨hhash, hj, hwf⟩, hupd⟩
    · rw [if_neg hun]
      have hX0 : ∀ id q T, X id q T → below Entry.vrf A q = [] ∧ below _root_.id ([] : List Bytes) q = [] :=
        fun id q T h => ⟨(hX id q T h).1, rfl⟩
      have hnil : below id ([] : List Bytes) p = [] := rfl
      cases n with
      | ext h i =>
        have := hX _ _ _ hrep.2.1
        rw [this.1, this.2] at hun; simp at hun
      | empty =>
        have hS : S = [] := hrep
        subst hS
        simp only [Node.rank] at hf
        match hb : below Entry.vrf A p with
        | [] =>
          refine ⟨.empty, [], rfl, rfl, ?_⟩
          intro e; simp [hb]
        | [a] =>
          have ha := mem_below.mp (by rw [hb]; simp : a ∈ below Entry.vrf A p)
          refine ⟨.leaf a.vrf a.com, [a.pair], rfl, ⟨rfl, ha.2, hA.len a ha.1, hA.lenC a ha.1⟩, ?_⟩
          intro e; simp [hb]
        | a :: b :: rest =>
          simp only
          rw [← hb, ← hnil]
          have h2 : 2 ≤ (below Entry.vrf A p).length := by rw [hb]; simp
          obtain ⟨n', S', h1, h2', h3⟩ := ih X (fun _ q T => q = p ∧ T = []) A [] (.parent .empty .empty none none) p []
            hA (goodRemove_nil _) hX0
            (by
              rintro i q T _ ⟨rfl, rfl⟩
              exact ⟨Or.inr ⟨rfl, by simpa using h2⟩, Or.inl (by intro hc; rw [hc] at h2; simp at h2)⟩)
            (Or.inl rfl)
            ⟨[], [], rfl, rfl, rfl, ⟨rfl, rfl⟩, by simp⟩
            (by simp) (by simp only [Node.rank]; omega)
          refine ⟨n', S', h1, h2', ?_⟩
          intro e; rw [h3 e]; simp
      | leaf v c =>
        obtain ⟨rfl, hon, hlv, hlc⟩ := hrep
        simp only [Node.rank] at hf
        simp only
        have hvR : v ∈ below id R p ↔ v ∈ R := by
          rw [mem_below]; exact ⟨fun h => h.1, fun h => ⟨h, hon⟩⟩
        by_cases hrem : v ∈ below id R p
        · rw [if_pos hrem]
          by_cases hadd : (below Entry.vrf A p).length > 0
          · rw [if_pos hadd, ← hnil]
            obtain ⟨n', S', h1, h2', h3⟩ := ih X (fun _ _ _ => False) A [] .empty p [] hA (goodRemove_nil _)
              hX0 (by intro _ _ _ _ h; exact h.elim) (Or.inl rfl) rfl (by simp)
              (by simp only [Node.rank]; omega)
            refine ⟨n', S', h1, h2', ?_⟩
            intro e; rw [h3 e]
            have hvR' := hvR.mp hrem
            constructor
            · rintro (h | ⟨h, _⟩)
              · exact Or.inl h
              · cases h
            · rintro (h | ⟨h, h'⟩)
              · exact Or.inl h
              · rw [List.mem_singleton.mp h] at h'; exact absurd hvR' h'
          · rw [if_neg hadd]
            refine ⟨.empty, [], rfl, rfl, ?_⟩
            have hA0 : below Entry.vrf A p = [] := List.eq_nil_of_length_eq_zero (by omega)
            intro e
            rw [hA0]
            constructor
            · intro h; cases h
            · rintro (⟨a, h, _⟩ | ⟨h, h'⟩)
              · cases h
              · rw [List.mem_singleton.mp h] at h'; exact absurd (hvR.mp hrem) h'
        · rw [if_neg hrem]
          have hvR' : v ∉ R := fun h => hrem (hvR.mpr h)
          by_cases hadd : (below Entry.vrf A p).length > 0
          · rw [if_pos hadd]
            have hdis : ∀ a ∈ A, a.vrf ∉ ([(v, c)] : List Pair).map Prod.fst := by
              intro a ha hin
              have := hcomp a ha hin
              simp at hin
              rw [hin] at this; exact hvR' this
            have hwf : Wf cs.hashSize p [(v, c)] :=
              ⟨by simp [hon], by simp [hlv, hlc], by simp⟩
            have h2 : 2 ≤ ([(v, c)] : List Pair).length + (below Entry.vrf A p).length := by
              simp; omega
            have hlt := fresh_lt hA hwf hdis h2
            rw [getBit_eq v p.length (by rw [hlv]; exact hlt)]
            simp only [G.ok_bind]
            have hstep := hon.step (by rw [hlv]; exact hlt)
            have hY0 : ∀ i q T, p <+: q → (q = p ∧ T = [(v, c)]) →
                (2 ≤ T.length ∨ (([] : List Bytes) = [] ∧ 2 ≤ T.length + (below Entry.vrf A q).length)) ∧
                (below Entry.vrf A q ≠ [] ∨ below id ([] : List Bytes) q ≠ [] ∨
                  ∃ j : TileId, (i : Option TileId) = some j ∧ X j q T) := by
              rintro i q T _ ⟨rfl, rfl⟩
              exact ⟨Or.inr ⟨rfl, h2⟩, Or.inl (by intro hc; rw [hc] at hadd; simp at hadd)⟩
            have hfin : ∀ S', Upd p [(v, c)] A [] S' → Upd p [(v, c)] A R S' := by
              intro S' h3 e
              rw [h3 e]
              constructor
              · rintro (h | ⟨h, _⟩)
                · exact Or.inl h
                · exact Or.inr ⟨h, by rw [List.mem_singleton.mp h]; exact hvR'⟩
              · rintro (h | ⟨h, _⟩)
                · exact Or.inl h
                · exact Or.inr ⟨h, by simp⟩
            have hcomp0 : ∀ a ∈ A, a.vrf ∈ ([(v, c)] : List Pair).map Prod.fst → a.vrf ∈ ([] : List Bytes) :=
              fun a ha hin => absurd hin (hdis a ha)
            cases hb : bitAt v p.length with
            | true =>
              rw [hb] at hstep
              simp only [if_true]
              rw [← hnil]
              obtain ⟨n', S', h1, h2', h3⟩ := ih X (fun _ q T => q = p ∧ T = [(v, c)]) A []
                (.parent .empty (.leaf v c) none none) p [(v, c)] hA (goodRemove_nil _) hX0 hY0 (Or.inl rfl)
                ⟨[], [(v, c)], rfl, rfl, ⟨rfl, hstep, hlv, hlc⟩, ⟨rfl, rfl⟩, by simp⟩ hcomp0
                (by simp only [Node.rank]; omega)
              exact ⟨n', S', h1, h2', hfin S' h3⟩
            | false =>
              rw [hb] at hstep
              simp only [Bool.false_eq_true, if_false]
              rw [← hnil]
              obtain ⟨n', S', h1, h2', h3⟩ := ih X (fun _ q T => q = p ∧ T = [(v, c)]) A []
                (.parent (.leaf v c) .empty none none) p [(v, c)] hA (goodRemove_nil _) hX0 hY0 (Or.inl rfl)
                ⟨[(v, c)], [], rfl, ⟨rfl, hstep, hlv, hlc⟩, rfl, ⟨rfl, rfl⟩, by simp⟩ hcomp0
                (by simp only [Node.rank]; omega)
              exact ⟨n', S', h1, h2', hfin S' h3⟩
          · rw [if_neg hadd]
            refine ⟨.leaf v c, [(v, c)], rfl, ⟨rfl, hon, hlv, hlc⟩, ?_⟩
            have hA0 : below Entry.vrf A p = [] := List.eq_nil_of_length_eq_zero (by omega)
            intro e
            rw [hA0]
            constructor
            · intro h; exact Or.inr ⟨h, by rw [List.mem_singleton.mp h]; exact hvR'⟩
            · rintro (⟨a, h, _⟩ | ⟨h, h'⟩)
              · cases h
              · exact h
      | parent l r h i =>
        have hwf := hrep.wf
        obtain ⟨Sl, Sr, rfl, hl, hr, hy, hh⟩ := hrep
        simp only [Node.rank] at hf
        simp only
        have hdis0 : R = [] → ∀ a ∈ A, a.vrf ∉ (Sl ++ Sr).map Prod.fst := by
          intro hR0 a ha hin
          have := hcomp a ha hin
          rw [hR0] at this; cases this
        have hbig := (hY _ _ _ (List.prefix_refl _) hy).1
        have hlt : p.length < 8 * cs.hashSize := by
          rcases hbig with h | ⟨hR0, h⟩
          · exact hwf.lt h
          · exact fresh_lt hA hwf (hdis0 hR0) h
        rw [splitBit_below hA.sorted hA.len p hlt]
        simp only [G.ok_bind]
        rw [splitBit_below hRm.sorted hRm.len p hlt]
        simp only [G.ok_bind]
        have e1 : p.length + 1 = (p ++ [false]).length := by simp
        have e2 : p.length + 1 = (p ++ [true]).length := by simp
        obtain ⟨l', Sl', hl1, hl2, hl3⟩ := ih X Y A R l (p ++ [false]) Sl hA hRm hX
          (fun i q T hq => hY i q T ((List.prefix_append _ _).trans hq)) hR hl
          (fun a ha hin => hcomp a ha (by rw [List.map_append]; exact List.mem_append_left _ hin))
          (by have := l.rank_le; rw [← e1]; omega)
        obtain ⟨r', Sr', hr1, hr2, hr3⟩ := ih X Y A R r (p ++ [true]) Sr hA hRm hX
          (fun i q T hq => hY i q T ((List.prefix_append _ _).trans hq)) hR hr
          (fun a ha hin => hcomp a ha (by rw [List.map_append]; exact List.mem_append_right _ hin))
          (by have := r.rank_le; rw [← e2]; omega)
        rw [← e1] at hl1
        rw [← e2] at hr1
        rw [hl1]
        simp only [G.ok_bind]
        rw [hr1]
        simp only [G.ok_bind, G.pure_eq]
        have hupd : Upd p (Sl ++ Sr) A R (Sl' ++ Sr') := by
          intro e
          rw [List.mem_append, hl3 e, hr3 e, List.mem_append, below_split hA.sorted hA.len p hlt]
          constructor
          · rintro ((⟨a, ha, he⟩ | ⟨h, h'⟩) | (⟨a, ha, he⟩ | ⟨h, h'⟩))
            · exact Or.inl ⟨a, List.mem_append_left _ ha, he⟩
            · exact Or.inr ⟨Or.inl h, h'⟩
            · exact Or.inl ⟨a, List.mem_append_right _ ha, he⟩
            · exact Or.inr ⟨Or.inr h, h'⟩
          · rintro (⟨a, ha, he⟩ | ⟨h | h, h'⟩)
            · rcases List.mem_append.mp ha with h | h
              · exact Or.inl (Or.inl ⟨a, h, he⟩)
              · exact Or.inr (Or.inl ⟨a, h, he⟩)
            · exact Or.inl (Or.inr ⟨h, h'⟩)
            · exact Or.inr (Or.inr ⟨h, h'⟩)
        refine ⟨collapse l' r', Sl' ++ Sr', rfl, collapse_rep hl2 hr2 ?_, hupd⟩
        by_cases hR0 : R = []
        · right
          have hnd := fresh_nodup hA hwf (hdis0 hR0)
          have hsub : ((Sl ++ Sr).map Prod.fst ++ (below Entry.vrf A p).map Entry.vrf) ⊆
              (Sl' ++ Sr').map Prod.fst := by
            intro v hv
            rcases List.mem_append.mp hv with h | h
            · obtain ⟨e, he, rfl⟩ := List.mem_map.mp h
              exact List.mem_map.mpr ⟨e, (hupd e).mpr (Or.inr ⟨he, by rw [hR0]; simp⟩), rfl⟩
            · obtain ⟨a, ha, rfl⟩ := List.mem_map.mp h
              exact List.mem_map.mpr ⟨a.pair, (hupd _).mpr (Or.inl ⟨a, ha, rfl⟩), rfl⟩
          have := (hnd.subperm hsub).length_le
          simp only [List.length_append, List.length_map] at this ⊢
          rcases hbig with h | ⟨_, h⟩ <;> simp only [List.length_append] at h <;> omega
        · rcases hR with h | h
          · exact absurd h hR0
          · exact (h _ _ _ _ hy hupd (hl2.wf.append hr2.wf).nodup.of_map).symm

end Katie.Prefix
