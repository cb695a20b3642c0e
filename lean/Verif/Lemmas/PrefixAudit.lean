import Verif.Lemmas.PrefixHistory
import Verif.Lemmas.PrefixSound

/-
`EvaluateBeforeAfter`: honest and adversarial proofs.
-/

namespace Katie.Prefix
open Katie Katie.PrefixSpec

variable {cs : Suite} {X X' : TileId → List Bool → List Pair → Prop}
  {Y Y' : Option TileId → List Bool → List Pair → Prop}

theorem below_perm {S T : List Pair} (h : S.Perm T) (p : List Bool) :
    (below Prod.fst S p).Perm (below Prod.fst T p) := h.filter _

/-- changes without removals are always resolved -/
theorem resolved_of_add {S : List Pair} {b : Batch} (h : b.remove = []) : b.Resolved S := by
  intro p h1 h2
  have hsub : (under p S).Sublist (under p (b.apply S)) := by
    unfold under Batch.apply
    rw [h, List.filter_append]
    simp only [List.not_mem_nil, not_false_eq_true, decide_true, List.filter_true]
    exact List.sublist_append_left _ _
  have := hsub.length_le
  omega

/-- a finite check -/
theorem resolved_iff {S : List Pair} {b : Batch} : b.Resolved S ↔
    ∀ e ∈ S, ∀ p ∈ (bits e.1).inits, 2 ≤ (under p S).length → (under p (b.apply S)).length ≤ 1 →
      ∀ c, ∃ v ∈ b.add.map Prod.fst ++ b.remove, p ++ [c] <+: bits v := by
  constructor
  · intro h e _ p _; exact h p
  · intro h p h1
    have hpos : 0 < (under p S).length := by omega
    obtain ⟨e, he⟩ := List.exists_mem_of_length_pos hpos
    have he := List.mem_filter.1 he
    exact h e he.1 p (List.mem_inits _ _ |>.2 (of_decide_eq_true he.2)) h1

instance (S : List Pair) (b : Batch) : Decidable (b.Resolved S) := decidable_of_iff _ resolved_iff.symm

theorem resolved_perm {S T : List Pair} (h : S.Perm T) {b : Batch} (hc : b.Resolved S) : b.Resolved T := by
  intro p h1 h2
  have e1 : (under p S).Perm (under p T) := h.filter _
  have e2 : (under p (b.apply S)).Perm (under p (b.apply T)) := ((h.filter _).append_right _).filter _
  rw [← e1.length_eq] at h1
  rw [← e2.length_eq] at h2
  exact hc p h1 h2

theorem below_of_append {hs : Nat} {p : List Bool} {Sl Sr : List Pair} (hl : Wf hs (p ++ [false]) Sl)
    (hr : Wf hs (p ++ [true]) Sr) :
    below Prod.fst (Sl ++ Sr) (p ++ [false]) = Sl ∧ below Prod.fst (Sl ++ Sr) (p ++ [true]) = Sr := by
  unfold below
  constructor
  · rw [List.filter_append, List.filter_eq_self.mpr, List.filter_eq_nil_iff.mpr, List.append_nil]
    · intro e he
      simp only [decide_eq_true_eq]
      intro h
      have := (hr.on e he).bit
      rw [h.bit] at this; cases this
    · intro e he; simpa using hl.on e he
  · rw [List.filter_append, List.filter_eq_nil_iff.mpr, List.filter_eq_self.mpr, List.nil_append]
    · intro e he; simpa using hr.on e he
    · intro e he
      simp only [decide_eq_true_eq]
      intro h
      have := (hl.on e he).bit
      rw [h.bit] at this; cases this

theorem below_below {S : List Pair} {p : List Bool} {b : Bool} :
    below Prod.fst (below Prod.fst S p) (p ++ [b]) = below Prod.fst S (p ++ [b]) := by
  unfold below
  rw [List.filter_filter]
  apply List.filter_congr
  intro e _
  by_cases h : On (p ++ [b]) e.1
  · simp [h, h.up]
  · simp [h]

/-- every node's entries are those of the whole that are below it -/
theorem rep_below {S0 : List Pair} (n : Node) : ∀ {p : List Bool} {S : List Pair},
    Rep cs X Y p n S → S = below Prod.fst S0 p → Rep cs X (fun i q T => Y i q T ∧ T = below Prod.fst S0 q) p n S := by
  induction n with
  | empty => intro p S h _; exact h
  | leaf v c => intro p S h _; exact h
  | ext hh i => intro p S h _; exact h
  | parent l r hh i ihl ihr =>
    intro p S h hS
    obtain ⟨Sl, Sr, rfl, h1, h2, h3, h4⟩ := h
    obtain ⟨e1, e2⟩ := below_of_append h1.wf h2.wf
    refine ⟨Sl, Sr, rfl, ihl h1 ?_, ihr h2 ?_, ⟨h3, hS⟩, h4⟩
    · rw [← below_below, ← hS, e1]
    · rw [← below_below, ← hS, e2]

theorem cacheHashes_rep (n : Node) : ∀ {p : List Bool} {S : List Pair}, Rep cs X Y p n S →
    (∀ i q T, Y i q T → 2 ≤ T.length) → Rep cs X Y p (n.cacheHashes cs) S := by
  induction n with
  | empty => intro p S h _; exact h
  | leaf v c => intro p S h _; exact h
  | ext hh i => intro p S h _; exact h
  | parent l r hh i ihl ihr =>
    intro p S h hY
    have hash := h.hash_eq (fun i q T _ h => hY i q T h)
    cases hh with
    | some x => exact h
    | none =>
      obtain ⟨Sl, Sr, rfl, h1, h2, h3, h4⟩ := h
      refine ⟨Sl, Sr, rfl, ihl h1 hY, ihr h2 hY, h3, ?_⟩
      intro x hx
      rw [← Option.some.inj hx, ← hash]; rfl

/-- The second half of `EvaluateBeforeAfter` on a tree for `S` in which the searched paths are resolved. -/
theorem after_spec {n : Node} {S T : List Pair} {b : Batch} (hST : T.Perm S) (hS : IsMap cs.hashSize S)
    (hrep : Rep cs (fun _ q _ => below id (Batch.vrfs b) q = [])
      (fun _ q T => 2 ≤ T.length ∧ below id (Batch.vrfs b) q ≠ []) [] n T)
    (haddLen : ∀ e ∈ b.add, e.1.length = cs.hashSize ∧ e.2.length = cs.hashSize)
    (haddNd : (b.add.map Prod.fst).Nodup) (hremLen : ∀ v ∈ b.remove, v.length = cs.hashSize)
    (hfresh : ∀ e ∈ b.add, e.1 ∈ S.map Prod.fst → e.1 ∈ b.remove)
    (hbig : b.Resolved S) :
    ∃ n', addRemoveEntries cs (mutationFuel cs) (n.cacheHashes cs) (sortBy Entry.vrf (entries b.add))
        (sortBy id b.remove) 0 = .ok n' ∧ n'.hash cs = rootHash cs.H cs.hashSize (b.apply S) := by
  have hA : GoodAdd cs.hashSize (sortBy Entry.vrf (entries b.add)) := by
    refine ⟨sortBy_sorted _, ?_, ?_, ?_⟩
    · intro a ha; exact (haddLen _ (mem_entries.mp ((sortBy_perm _).mem_iff.mp ha))).1
    · intro a ha; exact (haddLen _ (mem_entries.mp ((sortBy_perm _).mem_iff.mp ha))).2
    · rw [((sortBy_perm (key := Entry.vrf) (entries b.add)).map Entry.vrf).nodup_iff, entries_vrf]
      exact haddNd
  have hR : GoodRemove cs.hashSize (sortBy id b.remove) :=
    ⟨sortBy_sorted _, fun v hv => hremLen v ((sortBy_perm _).mem_iff.mp hv)⟩
  have hb1 : ∀ q, below id (Batch.vrfs b) q = [] →
      below Entry.vrf (sortBy Entry.vrf (entries b.add)) q = [] ∧ below id (sortBy id b.remove) q = [] := by
    intro q h
    rw [List.eq_nil_iff_forall_not_mem] at h
    constructor
    · rw [List.eq_nil_iff_forall_not_mem]
      intro a ha
      obtain ⟨h1, h2⟩ := mem_below.mp ha
      have := mem_entries.mp ((sortBy_perm _).mem_iff.mp h1)
      exact h a.vrf (mem_below.mpr ⟨List.mem_append_left _ (List.mem_map.mpr ⟨_, this, rfl⟩), h2⟩)
    · rw [List.eq_nil_iff_forall_not_mem]
      intro v hv
      obtain ⟨h1, h2⟩ := mem_below.mp hv
      exact h v (mem_below.mpr ⟨List.mem_append_right _ ((sortBy_perm _).mem_iff.mp h1), h2⟩)
  have hb2 : ∀ q, below Entry.vrf (sortBy Entry.vrf (entries b.add)) q = [] →
      below id (sortBy id b.remove) q = [] → below id (Batch.vrfs b) q = [] := by
    intro q h1 h2
    rw [List.eq_nil_iff_forall_not_mem] at h1 h2 ⊢
    intro v hv
    obtain ⟨hv1, hv2⟩ := mem_below.mp hv
    rcases List.mem_append.mp hv1 with h | h
    · obtain ⟨e, he, rfl⟩ := List.mem_map.mp h
      exact h1 ⟨e.1, e.2⟩ (mem_below.mpr ⟨(sortBy_perm _).mem_iff.mpr (mem_entries.mpr he), hv2⟩)
    · exact h2 v (mem_below.mpr ⟨(sortBy_perm _).mem_iff.mpr h, hv2⟩)
  have hYcond : ∀ (X0 : TileId → List Bool → List Pair → Prop) (i : Option TileId) q T, [] <+: q →
      (2 ≤ T.length ∧ below id (Batch.vrfs b) q ≠ []) →
      (2 ≤ T.length ∨ (sortBy id b.remove = [] ∧
        2 ≤ T.length + (below Entry.vrf (sortBy Entry.vrf (entries b.add)) q).length)) ∧
      (below Entry.vrf (sortBy Entry.vrf (entries b.add)) q ≠ [] ∨ below id (sortBy id b.remove) q ≠ [] ∨
        ∃ j, i = some j ∧ X0 j q T) := by
    rintro X0 i q T _ ⟨h1, h2⟩
    refine ⟨Or.inl h1, ?_⟩
    by_cases ha : below Entry.vrf (sortBy Entry.vrf (entries b.add)) q = []
    · by_cases hr : below id (sortBy id b.remove) q = []
      · exact absurd (hb2 q ha hr) h2
      · exact Or.inr (Or.inl hr)
    · exact Or.inl ha
  have hfresh' : ∀ a ∈ sortBy Entry.vrf (entries b.add), a.vrf ∈ T.map Prod.fst → a.vrf ∈ sortBy id b.remove := by
    intro a ha hin
    have := mem_entries.mp ((sortBy_perm _).mem_iff.mp ha)
    exact (sortBy_perm _).mem_iff.mpr (hfresh _ this ((hST.map Prod.fst).mem_iff.mp hin))
  have hnd : (b.apply T).Nodup := by
    apply List.Nodup.of_map Prod.fst
    unfold Batch.apply
    rw [List.map_append]
    apply List.Nodup.append
    · exact List.Nodup.sublist (List.Sublist.map _ List.filter_sublist) ((hST.map Prod.fst).nodup_iff.2 hS.distinct)
    · exact haddNd
    · intro v hv hv'
      obtain ⟨e, he, rfl⟩ := List.mem_map.mp hv
      obtain ⟨f, hf, hfe⟩ := List.mem_map.mp hv'
      have he' := List.mem_filter.mp he
      have := hfresh f hf (by rw [hfe]; exact List.mem_map.mpr ⟨e, hST.mem_iff.1 he'.1, rfl⟩)
      rw [hfe] at this
      simp at he'
      exact he'.2 this
  have hmem : ∀ q S', Upd q (below Prod.fst T q) (sortBy Entry.vrf (entries b.add)) (sortBy id b.remove) S' →
      ∀ e, e ∈ S' ↔ e ∈ under q (b.apply T) := by
    intro q S' hupd e
    rw [hupd e]
    unfold under Batch.apply
    rw [List.mem_filter, List.mem_append, List.mem_filter]
    simp only [decide_eq_true_eq]
    constructor
    · rintro (⟨a, ha, rfl⟩ | ⟨h1, h2⟩)
      · obtain ⟨h1, h2⟩ := mem_below.1 ha
        exact ⟨Or.inr (mem_entries.mp ((sortBy_perm _).mem_iff.mp h1)), h2⟩
      · obtain ⟨h3, h4⟩ := mem_below.1 h1
        exact ⟨Or.inl ⟨h3, fun h => h2 ((sortBy_perm _).mem_iff.mpr h)⟩, h4⟩
    · rintro ⟨⟨h1, h2⟩ | h, h3⟩
      · exact Or.inr ⟨mem_below.2 ⟨h1, h3⟩, fun h => h2 ((sortBy_perm _).mem_iff.mp h)⟩
      · exact Or.inl ⟨⟨e.1, e.2⟩, mem_below.2 ⟨(sortBy_perm _).mem_iff.mpr (mem_entries.mpr h), h3⟩, rfl⟩
  have hbigT := resolved_perm hST.symm hbig
  obtain ⟨n', S', h1, h2, hupd⟩ := addRemove_rep (cs := cs) (mutationFuel cs) _ _
    (sortBy Entry.vrf (entries b.add)) (sortBy id b.remove) (n.cacheHashes cs) [] T hA hR
    (fun j q T h => hb1 q h) (fun i q T hq h => hYcond (fun _ q _ => below id (Batch.vrfs b) q = []) i q T hq h.1)
    (Or.inr (by
      rintro i q T' S' ⟨⟨h1, _⟩, rfl⟩ hupd hnd'
      by_cases h2 : 2 ≤ S'.length
      · exact Or.inl h2
      · right
        intro j c T' hx
        exfalso
        have hp : S'.Perm (under q (b.apply T)) :=
          (List.perm_ext_iff_of_nodup hnd' (hnd.sublist List.filter_sublist)).mpr (hmem q S' hupd)
        obtain ⟨v, hv, hon⟩ := hbigT q h1 (by rw [← hp.length_eq]; omega) c
        have hx : below id (Batch.vrfs b) (q ++ [c]) = [] := hx
        have : v ∈ below id (Batch.vrfs b) (q ++ [c]) := mem_below.2 ⟨hv, hon⟩
        rw [hx] at this
        cases this))
    (cacheHashes_rep n (rep_below (S0 := T) n hrep (below_root ..).symm) (fun _ _ _ h => h.1.1))
    hfresh' (by unfold mutationFuel; have := (n.cacheHashes cs).rank_le; simp only [List.length_nil]; omega)
  rw [below_root, below_root, List.length_nil] at h1
  refine ⟨n', h1, ?_⟩
  have hmemS' : ∀ e, e ∈ S' ↔ e ∈ b.apply T := by
    intro e
    rw [hmem [] S' (by rw [below_root]; exact hupd) e]
    unfold under
    rw [List.mem_filter]
    simp
  have hperm : S'.Perm (b.apply S) :=
    ((List.perm_ext_iff_of_nodup h2.wf.nodup.of_map hnd).mpr hmemS').trans ((hST.filter _).append_right _)
  rw [h2.hash_eq (fun _ _ _ _ h => h), trieHash_root]
  exact trieHash_perm _ _ _ _ _ _ hperm

/-! ### Adversarial proofs -/

/-- every parent is on the path of an entry -/
def Cov (V : List Bytes) : List Bool → Node → Prop
  | p, .parent l r _ _ => below id V p ≠ [] ∧ Cov V (p ++ [false]) l ∧ Cov V (p ++ [true]) r
  | _, _ => True

theorem addAux_cov {V : List Bytes} {e : Entry} {res : Res} (he : e.vrf ∈ V) (fuel : Nat) :
    ∀ (n n' : Node) (p : List Bool), On p e.vrf →
    addToSkeletonAux e res fuel n p.length = .ok n' → Cov V p n → Cov V p n' := by
  induction fuel with
  | zero => intro n n' p _ h; simp [addToSkeletonAux] at h
  | succ f ih =>
    intro n n' p hon h hc
    have hne : below id V p ≠ [] := List.ne_nil_of_mem (mem_below.mpr ⟨he, hon⟩)
    cases n with
    | empty =>
      unfold addToSkeletonAux at h
      simp only at h
      split at h
      · cases h
      · rw [← Except.ok.inj h]; trivial
    | leaf v c =>
      unfold addToSkeletonAux at h
      simp only at h
      split at h
      · cases h
      · rw [← Except.ok.inj h]; trivial
    | parent l r hh i =>
      unfold addToSkeletonAux at h
      simp only at h
      obtain ⟨b, hb, h⟩ := G.bind_eq_ok.mp h
      have hd : p.length < 8 * e.vrf.length := by
        by_contra hd
        rw [getBit_panic _ _ (by omega)] at hb; cases hb
      have hstep := hon.step hd
      rw [getBit_eq _ _ hd] at hb
      rw [Except.ok.inj hb] at hstep
      cases b with
      | true =>
        rw [if_pos rfl] at h
        obtain ⟨r', hr', h⟩ := G.bind_eq_ok.mp h
        rw [← Except.ok.inj h]
        exact ⟨hc.1, hc.2.1, ih _ _ (p ++ [true]) hstep (by simpa using hr') hc.2.2⟩
      | false =>
        rw [if_neg (by simp)] at h
        obtain ⟨l', hl', h⟩ := G.bind_eq_ok.mp h
        rw [← Except.ok.inj h]
        exact ⟨hc.1, ih _ _ (p ++ [false]) hstep (by simpa using hl') hc.2.1, hc.2.2⟩
    | ext hh i =>
      unfold addToSkeletonAux at h
      simp only at h
      split at h
      · cases h
      · split at h
        · rw [← Except.ok.inj h]
          cases res <;> trivial
        · exact ih _ _ p hon h ⟨hne, trivial, trivial⟩

theorem addAll_cov {V : List Bytes} (es : List Entry) : ∀ (rs : List Res) (n n' : Node),
    (∀ e ∈ es, e.vrf ∈ V) → addAll n es rs = .ok n' → Cov V [] n → Cov V [] n' := by
  induction es with
  | nil => intro rs n n' _ h hc; unfold addAll at h; rw [← Except.ok.inj h]; exact hc
  | cons e es ih =>
    intro rs n n' hV h hc
    cases rs with
    | nil => simp [addAll] at h
    | cons r rs =>
      unfold addAll at h
      obtain ⟨n1, h1, h⟩ := G.bind_eq_ok.mp h
      exact ih rs n1 n' (fun x hx => hV x (by simp [hx])) h
        (addAux_cov (hV e (by simp)) _ _ _ [] (on_nil _) h1 hc)

theorem fill_cov {V : List Bytes} (n : Node) : ∀ (p : List Bool) (es es' : List Bytes) (n' : Node),
    fillInCopath n es = .ok (n', es') → Cov V p n → Cov V p n' := by
  induction n with
  | empty => intro p es es' n' h _; obtain ⟨rfl, rfl⟩ := Prod.mk.inj (Except.ok.inj h); trivial
  | leaf v c => intro p es es' n' h _; obtain ⟨rfl, rfl⟩ := Prod.mk.inj (Except.ok.inj h); trivial
  | ext hh i =>
    intro p es es' n' h _
    cases es with
    | nil => simp [fillInCopath] at h
    | cons x es => obtain ⟨rfl, rfl⟩ := Prod.mk.inj (Except.ok.inj h); trivial
  | parent l r hh i ihl ihr =>
    intro p es es' n' h hc
    unfold fillInCopath at h
    obtain ⟨⟨l', es1⟩, h1, h⟩ := G.bind_eq_ok.mp h
    obtain ⟨⟨r', es2⟩, h2, h⟩ := G.bind_eq_ok.mp h
    obtain ⟨rfl, rfl⟩ := Prod.mk.inj (Except.ok.inj h)
    exact ⟨hc.1, ihl _ _ _ _ h1 hc.2.1, ihr _ _ _ _ h2 hc.2.2⟩

theorem evaluate_cov {es : List Entry} {p : Proof} {n : Node} (h : evaluate cs es p = .ok n) :
    Cov (es.map Entry.vrf) [] n := by
  unfold evaluate at h
  obtain ⟨_, h1, h⟩ := G.bind_eq_ok.mp h
  split at h
  · cases h
  obtain ⟨n1, h2, h⟩ := G.bind_eq_ok.mp h
  obtain ⟨⟨n2, rest⟩, h3, h⟩ := G.bind_eq_ok.mp h
  simp only at h
  split at h
  · cases h
  obtain rfl := Except.ok.inj h
  exact fill_cov _ _ _ _ _ h3 (addAll_cov es _ _ _ (fun e he => List.mem_map.mpr ⟨e, he, rfl⟩) h2 trivial)

/-- A tree with the hash of the trie over `S` represents `S`. -/
theorem rep_of_hash (hcs : cs.Good) {V : List Bytes} (n : Node) : ∀ (p : List Bool) (S : List Pair),
    Wf cs.hashSize p S → p.length ≤ 8 * cs.hashSize →
    n.Sized cs.hashSize → Cov V p n → (∀ v ∈ V, On p v → ∃ t, n.term p.length v = some t) →
    n.hash cs = th cs p S →
    (∃ S', S'.Perm S ∧ Rep cs (fun _ q _ => below id V q = []) (fun _ q T => 2 ≤ T.length ∧ below id V q ≠ []) p n S') ∨
    Collides cs.H (n.inputs cs) (trieInputs cs.H cs.hashSize (8 * cs.hashSize - p.length) p.length S) ∨
    ZeroDigest cs.H cs.hashSize
      (n.inputs cs ++ trieInputs cs.H cs.hashSize (8 * cs.hashSize - p.length) p.length S) := by
  induction n with
  | ext hh i =>
    intro p S hS _ _ _ ht h
    refine Or.inl ⟨S, List.Perm.refl _, h, ?_, hS⟩
    show below id V p = []
    rw [List.eq_nil_iff_forall_not_mem]
    intro v hv
    obtain ⟨h1, h2⟩ := mem_below.mp hv
    obtain ⟨t, ht⟩ := ht v h1 h2
    simp [Node.term] at ht
  | empty =>
    intro p S hS hp _ _ _ h
    match S, hS with
    | [], _ => exact Or.inl ⟨[], List.Perm.refl _, rfl⟩
    | [(v, c)], _ =>
      right; right
      refine ⟨2 :: (v ++ c), ?_, ?_⟩
      · apply List.mem_append_right
        cases 8 * cs.hashSize - p.length <;> simp [trieInputs]
      · rw [show cs.H (2 :: (v ++ c)) = th cs p [(v, c)] by
          unfold th; cases 8 * cs.hashSize - p.length <;> simp [trieHash], ← h]
        rfl
    | a :: b :: S, hS =>
      have hlt := hS.lt (by simp)
      obtain ⟨k, hk⟩ : ∃ k, 8 * cs.hashSize - p.length = k + 1 := ⟨8 * cs.hashSize - p.length - 1, by omega⟩
      right; right
      rw [hk, trieInputs_two _ _ _ _ _ (by simp)]
      refine ⟨_, List.mem_append_right _ (List.mem_cons_self ..), ?_⟩
      unfold th at h
      rw [hk, trieHash_two _ _ _ _ _ (by simp)] at h
      rw [← h]; rfl
  | leaf v c =>
    intro p S hS hp hsz _ _ h
    match S, hS with
    | [], _ =>
      right; right
      refine ⟨2 :: (v ++ c), by simp [Node.inputs], ?_⟩
      rw [show cs.H (2 :: (v ++ c)) = (Node.leaf v c).hash cs from rfl, h]
      unfold th; cases 8 * cs.hashSize - p.length <;> simp [trieHash]
    | [(v', c')], hS =>
      have hth : th cs p [(v', c')] = cs.H (2 :: (v' ++ c')) := by
        unfold th; cases 8 * cs.hashSize - p.length <;> simp [trieHash]
      by_cases he : (2 :: (v ++ c) : Bytes) = 2 :: (v' ++ c')
      · obtain ⟨rfl, rfl⟩ := List.append_inj (List.cons.inj he).2
          (by rw [show v.length = _ from hsz, (hS.len (v', c') (by simp)).1])
        exact Or.inl ⟨_, List.Perm.refl _, rfl, hS.on (v, c) (by simp), hS.len (v, c) (by simp)⟩
      · right; left
        refine ⟨2 :: (v ++ c), by simp [Node.inputs], 2 :: (v' ++ c'), ?_, he, ?_⟩
        · cases 8 * cs.hashSize - p.length <;> simp [trieInputs]
        · rw [← hth, ← h]; rfl
    | a :: b :: S, hS =>
      have hlt := hS.lt (by simp)
      obtain ⟨k, hk⟩ : ∃ k, 8 * cs.hashSize - p.length = k + 1 := ⟨8 * cs.hashSize - p.length - 1, by omega⟩
      right; left
      rw [hk, trieInputs_two _ _ _ _ _ (by simp)]
      refine ⟨2 :: (v ++ c), by simp [Node.inputs], _, List.mem_cons_self .., by simp, ?_⟩
      unfold th at h
      rw [hk, trieHash_two _ _ _ _ _ (by simp)] at h
      rw [← h]; rfl
  | parent l r hh i ihl ihr =>
    intro p S hS hp hsz hcov ht h
    obtain ⟨rfl, hl, hr⟩ := hsz
    match S, hS with
    | [], _ =>
      right; right
      refine ⟨3 :: (l.hash cs ++ r.hash cs), by simp [Node.inputs], ?_⟩
      rw [show cs.H (3 :: (l.hash cs ++ r.hash cs)) = (Node.parent l r none i).hash cs from rfl, h]
      unfold th; cases 8 * cs.hashSize - p.length <;> simp [trieHash]
    | [(v', c')], hS =>
      have hth : th cs p [(v', c')] = cs.H (2 :: (v' ++ c')) := by
        unfold th; cases 8 * cs.hashSize - p.length <;> simp [trieHash]
      right; left
      refine ⟨3 :: (l.hash cs ++ r.hash cs), by simp [Node.inputs], 2 :: (v' ++ c'), ?_, by simp, ?_⟩
      · cases 8 * cs.hashSize - p.length <;> simp [trieInputs]
      · rw [← hth, ← h]; rfl
    | a :: b :: S, hS =>
      have hlt := hS.lt (by simp)
      obtain ⟨k, hk⟩ : ∃ k, 8 * cs.hashSize - p.length = k + 1 := ⟨8 * cs.hashSize - p.length - 1, by omega⟩
      obtain ⟨wl, wr⟩ := hS.filter hlt
      have h' := h
      unfold th at h'
      rw [hk, trieHash_two _ _ _ _ _ (by simp)] at h'
      generalize hSl : List.filter (fun e => !bitAt e.1 p.length) (a :: b :: S) = Sl at h' wl
      generalize hSr : List.filter (fun e => bitAt e.1 p.length) (a :: b :: S) = Sr at h' wr
      have hin : trieInputs cs.H cs.hashSize (8 * cs.hashSize - p.length) p.length (a :: b :: S) =
          (3 :: (trieHash cs.H cs.hashSize k (p.length + 1) Sl ++ trieHash cs.H cs.hashSize k (p.length + 1) Sr)) ::
          (trieInputs cs.H cs.hashSize k (p.length + 1) Sl ++ trieInputs cs.H cs.hashSize k (p.length + 1) Sr) := by
        rw [hk, trieInputs_two _ _ _ _ _ (by simp), hSl, hSr]
      rw [hin]
      have hk' : 8 * cs.hashSize - (p.length + 1) = k := by omega
      by_cases he : (3 :: (l.hash cs ++ r.hash cs) : Bytes) =
          3 :: (trieHash cs.H cs.hashSize k (p.length + 1) Sl ++ trieHash cs.H cs.hashSize k (p.length + 1) Sr)
      · have hlen : (trieHash cs.H cs.hashSize k (p.length + 1) Sl).length = cs.hashSize := by
          have := (full_spec (cs := cs) k (p ++ [false]) Sl (by simp; omega) wl)
          have h2 := Node.hash_length hcs _ this.2.2.1
          rw [this.1] at h2
          simpa using h2
        obtain ⟨e1, e2⟩ := List.append_inj (List.cons.inj he).2 (by rw [Node.hash_length hcs l hl, hlen])
        have tl : ∀ v ∈ V, On (p ++ [false]) v → ∃ t, l.term (p ++ [false]).length v = some t := by
          intro v hv hon
          obtain ⟨t, ht⟩ := ht v hv hon.up
          unfold Node.term at ht
          rw [hon.bit, if_neg (by simp)] at ht
          exact ⟨t, by simpa using ht⟩
        have tr : ∀ v ∈ V, On (p ++ [true]) v → ∃ t, r.term (p ++ [true]).length v = some t := by
          intro v hv hon
          obtain ⟨t, ht⟩ := ht v hv hon.up
          unfold Node.term at ht
          rw [hon.bit, if_pos rfl] at ht
          exact ⟨t, by simpa using ht⟩
        have il := ihl (p ++ [false]) Sl wl (by simp; omega) hl hcov.2.1 tl
          (by rw [e1]; unfold th; simp only [List.length_append, List.length_singleton, hk'])
        have ir := ihr (p ++ [true]) Sr wr (by simp; omega) hr hcov.2.2 tr
          (by rw [e2]; unfold th; simp only [List.length_append, List.length_singleton, hk'])
        simp only [List.length_append, List.length_singleton, hk'] at il ir
        have sub : ∀ {A A' B B' : List Bytes}, (∀ x ∈ A, x ∈ A') → (∀ x ∈ B, x ∈ B') →
            (Collides cs.H A B ∨ ZeroDigest cs.H cs.hashSize (A ++ B)) →
            (Collides cs.H A' B' ∨ ZeroDigest cs.H cs.hashSize (A' ++ B')) := by
          rintro A A' B B' hA hB (⟨a, ha, b, hb, h⟩ | ⟨a, ha, h⟩)
          · exact Or.inl ⟨a, hA a ha, b, hB b hb, h⟩
          · refine Or.inr ⟨a, ?_, h⟩
            rcases List.mem_append.mp ha with ha | ha
            · exact List.mem_append_left _ (hA a ha)
            · exact List.mem_append_right _ (hB a ha)
        rcases il with ⟨Sl', pl, rl⟩ | il
        · rcases ir with ⟨Sr', pr, rr⟩ | ir
          · left
            have hperm : (Sl' ++ Sr').Perm (a :: b :: S) := by
              have := List.filter_append_perm (fun e : Pair => bitAt e.1 p.length) (a :: b :: S)
              rw [hSr, hSl] at this
              exact (pl.append pr).trans (List.perm_append_comm.trans this)
            refine ⟨Sl' ++ Sr', hperm, Sl', Sr', rfl, rl, rr, ⟨?_, hcov.1⟩, by simp⟩
            rw [hperm.length_eq]; simp
          · right
            exact sub (fun x hx => by simp [Node.inputs, hx]) (fun x hx => by simp [hx]) ir
        · right
          exact sub (fun x hx => by simp [Node.inputs, hx]) (fun x hx => by simp [hx]) il
      · right; left
        refine ⟨_, by simp [Node.inputs], _, List.mem_cons_self .., he, ?_⟩
        rw [← h']; rfl

/-! ### additions of present entries -/

theorem cacheHashes_term (n : Node) : ∀ (d : Nat) (v : Bytes), (n.cacheHashes cs).term d v = n.term d v := by
  induction n with
  | empty => intro d v; rfl
  | leaf w c => intro d v; rfl
  | ext h i => intro d v; rfl
  | parent l r h i ihl ihr =>
    intro d v
    cases h with
    | some x => rfl
    | none =>
      change (if bitAt v d then Node.term (r.cacheHashes cs) (d + 1) v else Node.term (l.cacheHashes cs) (d + 1) v) = _
      rw [ihl, ihr]
      rfl

/-- Adding a VRF output that the tree already has a leaf for does not succeed. -/
theorem add_present_fails {v c : Bytes} (hv : v.length = cs.hashSize) : ∀ (fuel : Nat) (n : Node) (p : List Bool)
    (A : List Entry) (R : List Bytes) (m : Node), Sorted Entry.vrf A → (∀ a ∈ A, a.vrf.length = cs.hashSize) →
    Sorted id R → (∀ r ∈ R, r.length = cs.hashSize) → (∃ e ∈ A, e.vrf = v) → v ∉ R → On p v →
    n.term p.length v = some (some (v, c)) →
    addRemoveEntries cs fuel n (below Entry.vrf A p) (below id R p) p.length ≠ .ok m := by
  intro fuel
  induction fuel with
  | zero => intro n p A R m _ _ _ _ _ _ _ _ h; cases h
  | succ fuel ih =>
    intro n p A R m hA hAl hR hRl hex hvR hon ht h
    obtain ⟨e, he, hev⟩ := hex
    have hmem : e ∈ below Entry.vrf A p := mem_below.2 ⟨he, by rw [hev]; exact hon⟩
    have hpos : (below Entry.vrf A p).length > 0 := List.length_pos_of_mem hmem
    unfold addRemoveEntries at h
    rw [if_neg (by omega)] at h
    cases n with
    | empty => cases ht
    | ext hh i => cases ht
    | leaf w c' =>
      obtain ⟨rfl, rfl⟩ := Prod.mk.inj (Option.some.inj (Option.some.inj ht))
      simp only at h
      rw [if_neg (fun hc => hvR (mem_below.1 hc).1), if_pos hpos] at h
      by_cases hd : p.length < 8 * w.length
      · rw [getBit_eq w _ hd, G.ok_bind] at h
        have hnil : ([] : List Bytes) = below id [] p := rfl
        cases hb : bitAt w p.length
        · rw [hb, if_neg (by simp), hnil] at h
          exact ih _ p A [] m hA hAl List.Pairwise.nil (by simp) ⟨e, he, hev⟩ (by simp) hon
            (by simp [Node.term, hb]) h
        · rw [hb, if_pos rfl, hnil] at h
          exact ih _ p A [] m hA hAl List.Pairwise.nil (by simp) ⟨e, he, hev⟩ (by simp) hon
            (by simp [Node.term, hb]) h
      · rw [getBit_panic w _ (by omega)] at h
        cases h
    | parent l r hh i =>
      simp only at h
      by_cases hd : p.length < 8 * cs.hashSize
      · rw [splitBit_below hA hAl p hd, splitBit_below (key := id) hR hRl p hd] at h
        simp only [G.ok_bind] at h
        obtain ⟨l', hl, h⟩ := G.bind_eq_ok.1 h
        obtain ⟨r', hr, h⟩ := G.bind_eq_ok.1 h
        have hs := hon.step (by rw [hv]; exact hd)
        cases hb : bitAt v p.length
        · refine ih l (p ++ [false]) A R l' hA hAl hR hRl ⟨e, he, hev⟩ hvR (by rw [← hb]; exact hs) ?_
            (by rw [List.length_append]; exact hl)
          simpa [Node.term, hb] using ht
        · refine ih r (p ++ [true]) A R r' hA hAl hR hRl ⟨e, he, hev⟩ hvR (by rw [← hb]; exact hs) ?_
            (by rw [List.length_append]; exact hr)
          simpa [Node.term, hb] using ht
      · exfalso
        obtain ⟨⟨la, ra⟩, hsp, -⟩ := G.bind_eq_ok.1 h
        unfold splitBit at hsp
        obtain ⟨i, hi, -⟩ := G.bind_eq_ok.1 hsp
        cases hl : (below Entry.vrf A p) with
        | nil => rw [hl] at hmem; cases hmem
        | cons x xs =>
          rw [hl] at hi
          have hx : x ∈ below Entry.vrf A p := by rw [hl]; simp
          rw [List.length_cons] at hi
          unfold searchBit at hi
          rw [if_pos (by omega)] at hi
          have hlt : (0 + (xs.length + 1)) / 2 < (x :: xs).length := by rw [List.length_cons]; omega
          rw [List.getElem?_eq_getElem hlt] at hi
          simp only at hi
          have hm : (x :: xs)[(0 + (xs.length + 1)) / 2] ∈ below Entry.vrf A p := by rw [hl]; exact List.getElem_mem _
          have := hAl _ (mem_below.1 hm).1
          rw [getBit_panic _ _ (by omega)] at hi
          cases hi

theorem Rep.term_of_mem {X : TileId → List Bool → List Pair → Prop} {Y : Option TileId → List Bool → List Pair → Prop}
    {v c : Bytes} {t : Option Pair} (n : Node) : ∀ {p : List Bool} {S : List Pair},
    Rep cs X Y p n S → (v, c) ∈ S → n.term p.length v = some t → t = some (v, c) := by
  induction n with
  | empty =>
    intro p S h hm _
    have : S = [] := h
    subst this; cases hm
  | leaf w c' =>
    intro p S h hm ht
    obtain ⟨rfl, _⟩ := h
    simp at hm
    obtain ⟨rfl, rfl⟩ := hm
    exact (Option.some.inj ht).symm
  | ext hh i => intro p S _ _ ht; cases ht
  | parent l r hh i ihl ihr =>
    intro p S h hm ht
    obtain ⟨Sl, Sr, rfl, h1, h2, h3, h4⟩ := h
    rcases List.mem_append.1 hm with hm | hm
    · have hb := (h1.wf.on _ hm).bit
      refine ihl h1 hm ?_
      simpa [Node.term, hb] using ht
    · have hb := (h2.wf.on _ hm).bit
      refine ihr h2 hm ?_
      simpa [Node.term, hb] using ht

/-! ### sizes of roots -/

/-- every hash that is stored in the node has the size of a hash -/
def HashSized (cs : Suite) : Node → Prop
  | .parent l r h _ => HashSized cs l ∧ HashSized cs r ∧ ∀ x, h = some x → x.length = cs.hashSize
  | .ext h _ => h.length = cs.hashSize
  | _ => True

theorem HashSized.hash (hcs : cs.Good) {n : Node} (h : HashSized cs n) : (n.hash cs).length = cs.hashSize := by
  cases n with
  | empty => simp [Node.hash]
  | leaf v c => simp [Node.hash, hcs.len]
  | ext hh i => exact h
  | parent l r hh i =>
    cases hh with
    | none => simp [Node.hash, hcs.len]
    | some x => exact h.2.2 x rfl

theorem HashSized.of_sized {n : Node} (h : n.Sized cs.hashSize) : HashSized cs n := by
  induction n with
  | empty => trivial
  | leaf v c => trivial
  | ext hh i => exact h
  | parent l r hh i ihl ihr =>
    obtain ⟨rfl, h1, h2⟩ := h
    exact ⟨ihl h1, ihr h2, fun x hx => by cases hx⟩

theorem HashSized.cache (hcs : cs.Good) {n : Node} (h : HashSized cs n) : HashSized cs (n.cacheHashes cs) := by
  induction n with
  | empty => trivial
  | leaf v c => trivial
  | ext hh i => exact h
  | parent l r hh i ihl ihr =>
    cases hh with
    | some x => exact h
    | none =>
      obtain ⟨h1, h2, -⟩ := h
      exact ⟨ihl h1, ihr h2, fun x hx => by rw [← Option.some.inj hx]; exact hcs.len _⟩

theorem HashSized.collapse {l r : Node} (hl : HashSized cs l) (hr : HashSized cs r) : HashSized cs (collapse l r) := by
  cases l <;> cases r <;>
    first
      | trivial
      | exact ⟨hl, hr, fun x hx => by cases hx⟩

theorem HashSized.addRemove (hcs : cs.Good) : ∀ (fuel : Nat) (n : Node) (A : List Entry) (R : List Bytes) (d : Nat) (m : Node),
    HashSized cs n → addRemoveEntries cs fuel n A R d = .ok m → HashSized cs m := by
  intro fuel
  induction fuel with
  | zero => intro n A R d m _ h; cases h
  | succ fuel ih =>
    intro n A R d m hn h
    unfold addRemoveEntries at h
    split at h
    · cases n with
      | empty => cases h; trivial
      | leaf v c => cases h; trivial
      | ext hh i => cases h; exact hn
      | parent l r hh i =>
        cases i with
        | none => cases h
        | some i => cases h; exact hn.hash hcs
    · cases n with
      | empty =>
        cases A with
        | nil => cases h; trivial
        | cons e es =>
          cases es with
          | nil => cases h; trivial
          | cons e' es => refine ih _ _ _ _ _ ?_ h; exact ⟨trivial, trivial, fun x hx => by cases hx⟩
      | leaf v c =>
        simp only at h
        split at h
        · split at h
          · refine ih _ _ _ _ _ ?_ h; exact trivial
          · cases h; trivial
        · split at h
          · obtain ⟨b, _, h⟩ := G.bind_eq_ok.1 h
            split at h
            · refine ih _ _ _ _ _ ?_ h; exact ⟨trivial, trivial, fun x hx => by cases hx⟩
            · refine ih _ _ _ _ _ ?_ h; exact ⟨trivial, trivial, fun x hx => by cases hx⟩
          · cases h; trivial
      | ext hh i => cases h
      | parent l r hh i =>
        obtain ⟨⟨la, ra⟩, _, h⟩ := G.bind_eq_ok.1 h
        obtain ⟨⟨lr, rr⟩, _, h⟩ := G.bind_eq_ok.1 h
        obtain ⟨l', hl, h⟩ := G.bind_eq_ok.1 h
        obtain ⟨r', hr, h⟩ := G.bind_eq_ok.1 h
        cases h
        exact (ih _ _ _ _ _ hn.1 hl).collapse (ih _ _ _ _ _ hn.2.1 hr)

/-- The two roots that `EvaluateBeforeAfter` computes have the size of a hash. -/
theorem evaluateBeforeAfter_length (hcs : cs.Good) {add remove : List Entry} {p : Proof} (hp : WireProof cs.hashSize p)
    {before after : Bytes} (h : evaluateBeforeAfter cs add remove p = .ok (before, after)) :
    before.length = cs.hashSize ∧ after.length = cs.hashSize := by
  unfold evaluateBeforeAfter at h
  obtain ⟨n, hev, h⟩ := G.bind_eq_ok.mp h
  obtain ⟨n', hadd, h⟩ := G.bind_eq_ok.mp h
  obtain ⟨rfl, rfl⟩ := Prod.mk.inj (Except.ok.inj h)
  have hs := HashSized.of_sized (evaluate_spec hp hev).1
  exact ⟨hs.hash hcs, ((hs.cache hcs).addRemove hcs _ _ _ _ _ _ hadd).hash hcs⟩

end Katie.Prefix
