import Verif.Lemmas.PrefixAudit

/-
A parent node with an unexplored child stays a parent node: where `EvaluateBeforeAfter` computes a wrong root.
-/

namespace Katie.Prefix
open Katie Katie.PrefixSpec

variable {cs : Suite} {X : TileId → List Bool → List Pair → Prop} {Y : Option TileId → List Bool → List Pair → Prop}

theorem On.front {p q : List Bool} {v : Bytes} (h : On (p ++ q) v) : On p v := (List.prefix_append p q).trans h

theorem below_front {α : Type} {key : α → Bytes} {l : List α} {p q : List Bool} (h : below key l (p ++ q) ≠ []) :
    below key l p ≠ [] := by
  obtain ⟨a, ha⟩ := List.exists_mem_of_ne_nil _ h
  obtain ⟨h1, h2⟩ := mem_below.mp ha
  exact List.ne_nil_of_mem (mem_below.mpr ⟨h1, h2.front⟩)

/-- Everything except unexplored nodes is on the path of an entry. -/
def Seen (V : List Bytes) : List Bool → Node → Prop
  | _, .ext _ _ => True
  | p, .parent l r _ _ => below id V p ≠ [] ∧ Seen V (p ++ [false]) l ∧ Seen V (p ++ [true]) r
  | p, _ => below id V p ≠ []

theorem addAux_seen {V : List Bytes} {e : Entry} {res : Res} (he : e.vrf ∈ V) (fuel : Nat) :
    ∀ (n n' : Node) (p : List Bool), On p e.vrf →
    addToSkeletonAux e res fuel n p.length = .ok n' → Seen V p n → Seen V p n' := by
  induction fuel with
  | zero => intro n n' p _ h; simp [addToSkeletonAux] at h
  | succ f ih =>
    intro n n' p hon h hc
    have hne : below id V p ≠ [] := List.ne_nil_of_mem (mem_below.mpr ⟨he, hon⟩)
    cases n with
    | empty =>
      unfold addToSkeletonAux at h
      simp only at h
      split at h
      · cases h
      · rw [← Except.ok.inj h]; exact hne
    | leaf v c =>
      unfold addToSkeletonAux at h
      simp only at h
      split at h
      · cases h
      · rw [← Except.ok.inj h]; exact hne
    | parent l r hh i =>
      unfold addToSkeletonAux at h
      simp only at h
      obtain ⟨b, hb, h⟩ := G.bind_eq_ok.mp h
      have hd : p.length < 8 * e.vrf.length := by
        by_contra hd
        rw [getBit_panic _ _ (by omega)] at hb; cases hb
      have hstep := hon.step hd
      rw [getBit_eq _ _ hd] at hb
      rw [Except.ok.inj hb] at hstep
      cases b with
      | true =>
        rw [if_pos rfl] at h
        obtain ⟨r', hr', h⟩ := G.bind_eq_ok.mp h
        rw [← Except.ok.inj h]
        exact ⟨hc.1, hc.2.1, ih _ _ (p ++ [true]) hstep (by simpa using hr') hc.2.2⟩
      | false =>
        rw [if_neg (by simp)] at h
        obtain ⟨l', hl', h⟩ := G.bind_eq_ok.mp h
        rw [← Except.ok.inj h]
        exact ⟨hc.1, ih _ _ (p ++ [false]) hstep (by simpa using hl') hc.2.1, hc.2.2⟩
    | ext hh i =>
      unfold addToSkeletonAux at h
      simp only at h
      split at h
      · cases h
      · split at h
        · rw [← Except.ok.inj h]
          cases res <;> exact hne
        · exact ih _ _ p hon h ⟨hne, trivial, trivial⟩

theorem addAll_seen {V : List Bytes} (es : List Entry) : ∀ (rs : List Res) (n n' : Node),
    (∀ e ∈ es, e.vrf ∈ V) → addAll n es rs = .ok n' → Seen V [] n → Seen V [] n' := by
  induction es with
  | nil => intro rs n n' _ h hc; unfold addAll at h; rw [← Except.ok.inj h]; exact hc
  | cons e es ih =>
    intro rs n n' hV h hc
    cases rs with
    | nil => simp [addAll] at h
    | cons r rs =>
      unfold addAll at h
      obtain ⟨n1, h1, h⟩ := G.bind_eq_ok.mp h
      exact ih rs n1 n' (fun x hx => hV x (by simp [hx])) h
        (addAux_seen (hV e (by simp)) _ _ _ [] (on_nil _) h1 hc)

theorem fill_seen {V : List Bytes} (n : Node) : ∀ (p : List Bool) (es es' : List Bytes) (n' : Node),
    fillInCopath n es = .ok (n', es') → Seen V p n → Seen V p n' := by
  induction n with
  | empty => intro p es es' n' h hs; obtain ⟨rfl, rfl⟩ := Prod.mk.inj (Except.ok.inj h); exact hs
  | leaf v c => intro p es es' n' h hs; obtain ⟨rfl, rfl⟩ := Prod.mk.inj (Except.ok.inj h); exact hs
  | ext hh i =>
    intro p es es' n' h _
    cases es with
    | nil => simp [fillInCopath] at h
    | cons x es => obtain ⟨rfl, rfl⟩ := Prod.mk.inj (Except.ok.inj h); trivial
  | parent l r hh i ihl ihr =>
    intro p es es' n' h hc
    unfold fillInCopath at h
    obtain ⟨⟨l', es1⟩, h1, h⟩ := G.bind_eq_ok.mp h
    obtain ⟨⟨r', es2⟩, h2, h⟩ := G.bind_eq_ok.mp h
    obtain ⟨rfl, rfl⟩ := Prod.mk.inj (Except.ok.inj h)
    exact ⟨hc.1, ihl _ _ _ _ h1 hc.2.1, ihr _ _ _ _ h2 hc.2.2⟩

theorem evaluate_seen {es : List Entry} {p : Proof} {n : Node} (h : evaluate cs es p = .ok n) :
    Seen (es.map Entry.vrf) [] n := by
  unfold evaluate at h
  obtain ⟨_, h1, h⟩ := G.bind_eq_ok.mp h
  split at h
  · cases h
  obtain ⟨n1, h2, h⟩ := G.bind_eq_ok.mp h
  obtain ⟨⟨n2, rest⟩, h3, h⟩ := G.bind_eq_ok.mp h
  simp only at h
  split at h
  · cases h
  obtain rfl := Except.ok.inj h
  exact fill_seen _ _ _ _ _ h3 (addAll_seen es _ _ _ (fun e he => List.mem_map.mpr ⟨e, he, rfl⟩) h2 trivial)

/-! ### unexplored children -/

/-- Following the bits `q` there is a parent node whose child on the side `c` is unexplored. -/
def Stuck (c : Bool) : List Bool → Node → Prop
  | [], .parent l r _ _ => (if c then r else l).isExt = true
  | b :: q, .parent l r _ _ => Stuck c q (if b then r else l)
  | _, _ => False

/-- the same, and no hash is cached on the way -/
def StuckOpen (c : Bool) : List Bool → Node → Prop
  | [], .parent l r h _ => h = none ∧ (if c then r else l).isExt = true
  | b :: q, .parent l r h _ => h = none ∧ StuckOpen c q (if b then r else l)
  | _, _ => False

theorem stuck_cacheHashes {c : Bool} (n : Node) : ∀ q, Stuck c q n → Stuck c q (n.cacheHashes cs) := by
  induction n with
  | empty => intro q h; exact h
  | leaf v w => intro q h; exact h
  | ext hh i => intro q h; exact h
  | parent l r hh i ihl ihr =>
    intro q h
    cases hh with
    | some x => exact h
    | none =>
      have ext : ∀ m : Node, m.isExt = true → (m.cacheHashes cs).isExt = true := by
        intro m hm
        cases m <;> first | exact hm | cases hm
      cases q with
      | nil =>
        cases c
        · exact ext _ h
        · exact ext _ h
      | cons b q =>
        cases b
        · exact ihl q h
        · exact ihr q h

theorem below_child {hs : Nat} {p q : List Bool} {b : Bool} {Sl Sr : List Pair} (hl : Wf hs (p ++ [false]) Sl)
    (hr : Wf hs (p ++ [true]) Sr) :
    below Prod.fst (Sl ++ Sr) (p ++ b :: q) = below Prod.fst (if b then Sr else Sl) (p ++ [b] ++ q) := by
  have e : p ++ b :: q = p ++ [b] ++ q := by simp
  rw [e]
  unfold below
  rw [List.filter_append]
  cases b
  · rw [show List.filter (fun a => decide (On (p ++ [false] ++ q) a.1)) Sr = [] from List.filter_eq_nil_iff.mpr ?_, List.append_nil]
    · rfl
    · intro x hx
      simp only [decide_eq_true_eq]
      intro h
      have := (hr.on x hx).bit
      rw [h.front.bit] at this; cases this
  · rw [show List.filter (fun a => decide (On (p ++ [true] ++ q) a.1)) Sl = [] from List.filter_eq_nil_iff.mpr ?_, List.nil_append]
    · rfl
    · intro x hx
      simp only [decide_eq_true_eq]
      intro h
      have := (hl.on x hx).bit
      rw [h.front.bit] at this; cases this

theorem below_le {α : Type} {key : α → Bytes} (l : List α) (p : List Bool) : (below key l p).length ≤ l.length :=
  List.length_filter_le _ _

theorem stuck_of_rep {V : List Bytes} {c : Bool} : ∀ (q p : List Bool) (n : Node) (T : List Pair),
    Rep cs (fun _ q _ => below id V q = []) Y p n T → Seen V p n → below id V (p ++ q) ≠ [] →
    2 ≤ (below Prod.fst T (p ++ q)).length → below id V (p ++ q ++ [c]) = [] → Stuck c q n := by
  intro q
  induction q with
  | nil =>
    intro p n T hrep hseen hne h2 hc
    have h2' : 2 ≤ T.length := le_trans h2 (below_le _ _)
    rw [List.append_nil] at hne hc
    cases n with
    | empty => rw [show T = [] from hrep] at h2'; simp at h2'
    | leaf v w => rw [hrep.1] at h2'; simp at h2'
    | ext hh i => exact absurd hrep.2.1 hne
    | parent l r hh i =>
      have key : ∀ m : Node, Seen V (p ++ [c]) m → m.isExt = true := by
        intro m hm
        cases m with
        | ext _ _ => rfl
        | empty => exact absurd hc hm
        | leaf v w => exact absurd hc hm
        | parent _ _ _ _ => exact absurd hc hm.1
      cases c
      · exact key l hseen.2.1
      · exact key r hseen.2.2
  | cons b q ih =>
    intro p n T hrep hseen hne h2 hc
    have h2' : 2 ≤ T.length := le_trans h2 (below_le _ _)
    cases n with
    | empty => rw [show T = [] from hrep] at h2'; simp at h2'
    | leaf v w => rw [hrep.1] at h2'; simp at h2'
    | ext hh i => exact absurd hrep.2.1 (below_front hne)
    | parent l r hh i =>
      obtain ⟨Sl, Sr, rfl, hl, hr, -, -⟩ := hrep
      rw [below_child hl.wf hr.wf] at h2
      have e : p ++ b :: q = p ++ [b] ++ q := by simp
      rw [e] at hne hc
      cases b
      · exact ih (p ++ [false]) l Sl hl hseen.2.1 hne h2 hc
      · exact ih (p ++ [true]) r Sr hr hseen.2.2 hne h2 hc

theorem collapse_ext {l r : Node} (h : l.isExt = true ∨ r.isExt = true) : collapse l r = .parent l r none none := by
  cases l <;> cases r <;> first | rfl | (rcases h with h | h <;> cases h)

theorem collapse_stuck {l r : Node} {c : Bool} {q : List Bool} (h : StuckOpen c q l ∨ StuckOpen c q r) :
    collapse l r = .parent l r none none := by
  cases l <;> cases r <;> first | rfl | (rcases h with h | h <;> cases q <;> cases h)

/-- Adding and removing entries elsewhere keeps the parent node. -/
theorem addRemove_stuck {A : List Entry} {R : List Bytes} (hA : Sorted Entry.vrf A) (hAl : ∀ a ∈ A, a.vrf.length = cs.hashSize)
    (hR : Sorted id R) (hRl : ∀ r ∈ R, r.length = cs.hashSize) {c : Bool} : ∀ (fuel : Nat) (q p : List Bool) (n n' : Node),
    (below Entry.vrf A (p ++ q) ≠ [] ∨ below id R (p ++ q) ≠ []) → p.length + q.length < 8 * cs.hashSize →
    below Entry.vrf A (p ++ q ++ [c]) = [] → below id R (p ++ q ++ [c]) = [] → Stuck c q n →
    addRemoveEntries cs fuel n (below Entry.vrf A p) (below id R p) p.length = .ok n' → StuckOpen c q n' := by
  intro fuel
  induction fuel with
  | zero => intro q p n n' _ _ _ _ _ h; cases h
  | succ fuel ih =>
    intro q p n n' hne hlen ha hr hst h
    have hne' : ¬ ((below Entry.vrf A p).length = 0 ∧ (below id R p).length = 0) := by
      rintro ⟨h1, h2⟩
      rcases hne with hne | hne
      · exact below_front hne (List.length_eq_zero_iff.mp h1)
      · exact below_front hne (List.length_eq_zero_iff.mp h2)
    unfold addRemoveEntries at h
    rw [if_neg hne'] at h
    cases n with
    | empty => cases q <;> cases hst
    | leaf v w => cases q <;> cases hst
    | ext hh i => cases q <;> cases hst
    | parent l r hh i =>
      simp only at h
      rw [splitBit_below hA hAl p (by omega), splitBit_below (key := id) hR hRl p (by omega)] at h
      simp only [G.ok_bind] at h
      obtain ⟨l', hl', h⟩ := G.bind_eq_ok.1 h
      obtain ⟨r', hr', h⟩ := G.bind_eq_ok.1 h
      obtain rfl := Except.ok.inj h
      cases q with
      | nil =>
        rw [List.append_nil] at ha hr
        have keep : ∀ (m m' : Node), m.isExt = true →
            addRemoveEntries cs fuel m [] [] (p.length + 1) = .ok m' → m'.isExt = true := by
          intro m m' hm hok
          cases fuel with
          | zero => cases hok
          | succ f =>
            cases m with
            | ext x y =>
              unfold addRemoveEntries at hok
              rw [if_pos (by simp)] at hok
              obtain rfl := Except.ok.inj hok
              rfl
            | _ => cases hm
        cases c
        · rw [ha, hr] at hl'
          have := keep l l' hst hl'
          rw [collapse_ext (Or.inl this)]
          exact ⟨rfl, this⟩
        · rw [ha, hr] at hr'
          have := keep r r' hst hr'
          rw [collapse_ext (Or.inr this)]
          exact ⟨rfl, this⟩
      | cons b q =>
        have e : p ++ b :: q = p ++ [b] ++ q := by simp
        rw [e] at hne ha hr
        have hlen' : (p ++ [b]).length + q.length < 8 * cs.hashSize := by
          simp only [List.length_append, List.length_cons, List.length_nil] at hlen ⊢
          omega
        cases b
        · have := ih q (p ++ [false]) l l' hne hlen' ha hr hst (by simpa using hl')
          rw [collapse_stuck (Or.inl this)]
          exact ⟨rfl, this⟩
        · have := ih q (p ++ [true]) r r' hne hlen' ha hr hst (by simpa using hr')
          rw [collapse_stuck (Or.inr this)]
          exact ⟨rfl, this⟩

/-! ### hashes -/

/-- hashes have the right size -/
def HashLen (hs : Nat) : Node → Prop
  | .ext h _ => h.length = hs
  | .parent l r h _ => (∀ x, h = some x → x.length = hs) ∧ HashLen hs l ∧ HashLen hs r
  | _ => True

theorem HashLen.length (hcs : cs.Good) {n : Node} (h : HashLen cs.hashSize n) : (n.hash cs).length = cs.hashSize := by
  cases n with
  | empty => simp [Node.hash]
  | leaf v c => simp only [Node.hash]; exact hcs.len _
  | parent l r hh id =>
    cases hh with
    | none => simp only [Node.hash]; exact hcs.len _
    | some x => simp only [Node.hash]; exact h.1 x rfl
  | ext hh id => simp only [Node.hash]; exact h

theorem hashLen_of_sized {hs : Nat} (n : Node) : n.Sized hs → HashLen hs n := by
  induction n with
  | empty => intro _; trivial
  | leaf v c => intro _; trivial
  | ext hh i => intro h; exact h
  | parent l r hh i ihl ihr =>
    rintro ⟨h1, h2, h3⟩
    exact ⟨by rw [h1]; simp, ihl h2, ihr h3⟩

theorem hashLen_cacheHashes (hcs : cs.Good) (n : Node) : HashLen cs.hashSize n → HashLen cs.hashSize (n.cacheHashes cs) := by
  induction n with
  | empty => intro h; exact h
  | leaf v c => intro h; exact h
  | ext hh i => intro h; exact h
  | parent l r hh i ihl ihr =>
    intro h
    cases hh with
    | some x => exact h
    | none =>
      refine ⟨?_, ihl h.2.1, ihr h.2.2⟩
      intro x hx
      rw [← Option.some.inj hx]
      exact hcs.len _

theorem collapse_hashLen {hs : Nat} {l r : Node} (hl : HashLen hs l) (hr : HashLen hs r) : HashLen hs (collapse l r) := by
  have : HashLen hs (.parent l r none none) := ⟨by simp, hl, hr⟩
  cases l <;> cases r <;> first | exact this | trivial

theorem addRemove_hashLen (hcs : cs.Good) : ∀ (fuel : Nat) (n n' : Node) (A : List Entry) (R : List Bytes) (d : Nat),
    HashLen cs.hashSize n → addRemoveEntries cs fuel n A R d = .ok n' → HashLen cs.hashSize n' := by
  intro fuel
  induction fuel with
  | zero => intro n n' A R d _ h; cases h
  | succ fuel ih =>
    intro n n' A R d hn h
    unfold addRemoveEntries at h
    split at h
    · cases n with
      | parent l r hh i =>
        cases i with
        | none => cases h
        | some j =>
          obtain rfl := Except.ok.inj h
          exact hn.length hcs
      | empty => obtain rfl := Except.ok.inj h; exact hn
      | leaf v c => obtain rfl := Except.ok.inj h; exact hn
      | ext hh i => obtain rfl := Except.ok.inj h; exact hn
    · cases n with
      | empty =>
        match A, h with
        | [], h => obtain rfl := Except.ok.inj h; trivial
        | [e], h => obtain rfl := Except.ok.inj h; trivial
        | a :: b :: A, h => exact ih _ _ _ _ _ (by exact ⟨by simp, trivial, trivial⟩) h
      | leaf v c =>
        simp only at h
        split at h
        · split at h
          · exact ih _ _ _ _ _ (by trivial) h
          · obtain rfl := Except.ok.inj h; trivial
        · split at h
          · obtain ⟨b, -, h⟩ := G.bind_eq_ok.1 h
            cases b
            · exact ih _ _ _ _ _ (by exact ⟨by simp, trivial, trivial⟩) h
            · exact ih _ _ _ _ _ (by exact ⟨by simp, trivial, trivial⟩) h
          · obtain rfl := Except.ok.inj h; trivial
      | parent l r hh i =>
        simp only at h
        obtain ⟨⟨la, ra⟩, -, h⟩ := G.bind_eq_ok.1 h
        obtain ⟨⟨lr, rr⟩, -, h⟩ := G.bind_eq_ok.1 h
        obtain ⟨l', hl', h⟩ := G.bind_eq_ok.1 h
        obtain ⟨r', hr', h⟩ := G.bind_eq_ok.1 h
        obtain rfl := Except.ok.inj h
        exact collapse_hashLen (ih _ _ _ _ _ hn.2.1 hl') (ih _ _ _ _ _ hn.2.2 hr')
      | ext hh i => cases h

/-- Such a tree does not have the hash of a map that has at most one entry there. -/
theorem stuck_hash (hcs : cs.Good) {c : Bool} : ∀ (q p : List Bool) (n : Node) (S : List Pair),
    StuckOpen c q n → HashLen cs.hashSize n → Wf cs.hashSize p S → p.length + q.length < 8 * cs.hashSize →
    (below Prod.fst S (p ++ q)).length ≤ 1 → n.hash cs = th cs p S →
    Collides cs.H (n.inputs cs) (trieInputs cs.H cs.hashSize (8 * cs.hashSize - p.length) p.length S) ∨
    ZeroDigest cs.H cs.hashSize
      (n.inputs cs ++ trieInputs cs.H cs.hashSize (8 * cs.hashSize - p.length) p.length S) := by
  have small : ∀ (p : List Bool) (l r : Node) (i : Option TileId) (S : List Pair), S.length ≤ 1 →
      (Node.parent l r none i).hash cs = th cs p S →
      Collides cs.H ((Node.parent l r none i).inputs cs)
        (trieInputs cs.H cs.hashSize (8 * cs.hashSize - p.length) p.length S) ∨
      ZeroDigest cs.H cs.hashSize ((Node.parent l r none i).inputs cs ++
        trieInputs cs.H cs.hashSize (8 * cs.hashSize - p.length) p.length S) := by
    intro p l r i S hS h
    match S, hS with
    | [], _ =>
      right
      refine ⟨3 :: (l.hash cs ++ r.hash cs), by simp [Node.inputs], ?_⟩
      rw [show cs.H (3 :: (l.hash cs ++ r.hash cs)) = (Node.parent l r none i).hash cs from rfl, h]
      unfold th; cases 8 * cs.hashSize - p.length <;> simp [trieHash]
    | [(v', c')], hS =>
      have hth : th cs p [(v', c')] = cs.H (2 :: (v' ++ c')) := by
        unfold th; cases 8 * cs.hashSize - p.length <;> simp [trieHash]
      left
      refine ⟨3 :: (l.hash cs ++ r.hash cs), by simp [Node.inputs], 2 :: (v' ++ c'), ?_, by simp, ?_⟩
      · cases 8 * cs.hashSize - p.length <;> simp [trieInputs]
      · rw [← hth, ← h]; rfl
  intro q
  induction q with
  | nil =>
    intro p n S hst hsz hS hp h1 h
    have hall : below Prod.fst S (p ++ []) = S := by
      unfold below
      rw [List.append_nil]
      exact List.filter_eq_self.mpr (fun e he => by simpa using hS.on e he)
    rw [hall] at h1
    cases n with
    | parent l r hh i =>
      obtain rfl := hst.1
      exact small p l r i S h1 h
    | _ => cases hst
  | cons b q ih =>
    intro p n S hst hsz hS hp h1 h
    cases n with
    | parent l r hh i =>
      obtain ⟨rfl, hst⟩ := hst
      by_cases hS2 : S.length ≤ 1
      · exact small p l r i S hS2 h
      have hS2 : 2 ≤ S.length := by omega
      have hlt := hS.lt hS2
      obtain ⟨k, hk⟩ : ∃ k, 8 * cs.hashSize - p.length = k + 1 := ⟨8 * cs.hashSize - p.length - 1, by omega⟩
      obtain ⟨wl, wr⟩ := hS.filter hlt
      have h' := h
      unfold th at h'
      rw [hk, trieHash_two _ _ _ _ _ hS2] at h'
      have hin : trieInputs cs.H cs.hashSize (8 * cs.hashSize - p.length) p.length S =
          (3 :: (trieHash cs.H cs.hashSize k (p.length + 1) (S.filter fun e => !bitAt e.1 p.length) ++
            trieHash cs.H cs.hashSize k (p.length + 1) (S.filter fun e => bitAt e.1 p.length))) ::
          (trieInputs cs.H cs.hashSize k (p.length + 1) (S.filter fun e => !bitAt e.1 p.length) ++
            trieInputs cs.H cs.hashSize k (p.length + 1) (S.filter fun e => bitAt e.1 p.length)) := by
        rw [hk, trieInputs_two _ _ _ _ _ hS2]
      have hcount : ∀ x, (below Prod.fst (S.filter fun e => bitAt e.1 p.length == x) (p ++ [x] ++ q)).length ≤
          (below Prod.fst S (p ++ x :: q)).length := by
        intro x
        have e : p ++ x :: q = p ++ [x] ++ q := by simp
        rw [e]
        unfold below
        exact (List.Sublist.filter _ List.filter_sublist).length_le
      generalize hSl : List.filter (fun e => !bitAt e.1 p.length) S = Sl at h' wl hin
      generalize hSr : List.filter (fun e => bitAt e.1 p.length) S = Sr at h' wr hin
      rw [hin]
      have hk' : 8 * cs.hashSize - (p.length + 1) = k := by omega
      by_cases he : (3 :: (l.hash cs ++ r.hash cs) : Bytes) =
          3 :: (trieHash cs.H cs.hashSize k (p.length + 1) Sl ++ trieHash cs.H cs.hashSize k (p.length + 1) Sr)
      · have hlen : (trieHash cs.H cs.hashSize k (p.length + 1) Sl).length = cs.hashSize := by
          have := (full_spec (cs := cs) k (p ++ [false]) Sl (by simp; omega) wl)
          have h2 := Node.hash_length hcs _ this.2.2.1
          rw [this.1] at h2
          simpa using h2
        obtain ⟨e1, e2⟩ := List.append_inj (List.cons.inj he).2 (by rw [hsz.2.1.length hcs, hlen])
        have hp' : (p ++ [b]).length + q.length < 8 * cs.hashSize := by
          simp only [List.length_append, List.length_cons, List.length_nil] at hp ⊢
          omega
        have sub : ∀ {A A' B B' : List Bytes}, (∀ x ∈ A, x ∈ A') → (∀ x ∈ B, x ∈ B') →
            (Collides cs.H A B ∨ ZeroDigest cs.H cs.hashSize (A ++ B)) →
            (Collides cs.H A' B' ∨ ZeroDigest cs.H cs.hashSize (A' ++ B')) := by
          rintro A A' B B' hA hB (⟨a, ha, b, hb, h⟩ | ⟨a, ha, h⟩)
          · exact Or.inl ⟨a, hA a ha, b, hB b hb, h⟩
          · refine Or.inr ⟨a, ?_, h⟩
            rcases List.mem_append.mp ha with ha | ha
            · exact List.mem_append_left _ (hA a ha)
            · exact List.mem_append_right _ (hB a ha)
        cases b
        · have hc := le_trans (hcount false) h1
          rw [show (S.filter fun e => bitAt e.1 p.length == false) = Sl by
            rw [← hSl]; congr 1; funext e; cases bitAt e.1 p.length <;> rfl] at hc
          have il := ih (p ++ [false]) l Sl hst hsz.2.1 wl hp' hc
            (by rw [e1]; unfold th; simp only [List.length_append, List.length_singleton, hk'])
          simp only [List.length_append, List.length_singleton, hk'] at il
          exact sub (fun x hx => by simp [Node.inputs, hx]) (fun x hx => by simp [hx]) il
        · have hc := le_trans (hcount true) h1
          rw [show (S.filter fun e => bitAt e.1 p.length == true) = Sr by
            rw [← hSr]; congr 1; funext e; cases bitAt e.1 p.length <;> rfl] at hc
          have ir := ih (p ++ [true]) r Sr hst hsz.2.2 wr hp' hc
            (by rw [e2]; unfold th; simp only [List.length_append, List.length_singleton, hk'])
          simp only [List.length_append, List.length_singleton, hk'] at ir
          exact sub (fun x hx => by simp [Node.inputs, hx]) (fun x hx => by simp [hx]) ir
      · left
        refine ⟨_, List.mem_cons_self .., _, List.mem_cons_self .., he, ?_⟩
        rw [← h']; rfl
    | _ => cases hst

end Katie.Prefix
