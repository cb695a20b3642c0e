import Verif.Lemmas.PrefixMutate
import Verif.Spec.PrefixHistory

/-
Histories of mutations: what `Mutate` and `Search` do on a store reached from the empty one.
-/

namespace Katie.Prefix
open Katie Katie.PrefixSpec

variable {cs : Suite} {X X' : TileId → List Bool → List Pair → Prop}
  {Y Y' : Option TileId → List Bool → List Pair → Prop}

theorem entries_vrf (l : List Pair) : (entries l).map Entry.vrf = l.map Prod.fst := by
  simp [entries, Function.comp_def]

theorem entries_length (l : List Pair) : (entries l).length = l.length := by simp [entries]

theorem mem_entries {l : List Pair} {e : Entry} : e ∈ entries l ↔ (e.vrf, e.com) ∈ l := by
  unfold entries
  rw [List.mem_map]
  constructor
  · rintro ⟨a, ha, rfl⟩; exact ha
  · intro h; exact ⟨_, h, rfl⟩

theorem addRemove_nonext (fuel : Nat) : ∀ (n : Node) (A : List Entry) (R : List Bytes) (d : Nat) (n' : Node),
    addRemoveEntries cs fuel n A R d = .ok n' → n.isExt = false → (A ≠ [] ∨ R ≠ [] ∨ n.isParent = false) →
    n'.isExt = false := by
  induction fuel with
  | zero => intro n A R d n' h; simp [addRemoveEntries] at h
  | succ f ih =>
    intro n A R d n' h hn hAR
    unfold addRemoveEntries at h
    split at h
    · rename_i h0
      cases n with
      | parent l r hh i =>
        rcases hAR with h | h | h
        · exact absurd (List.eq_nil_of_length_eq_zero h0.1) h
        · exact absurd (List.eq_nil_of_length_eq_zero h0.2) h
        · cases h
      | ext hh i => cases hn
      | empty => rw [← Except.ok.inj h]; rfl
      | leaf v c => rw [← Except.ok.inj h]; rfl
    · cases n with
      | ext hh i => cases hn
      | empty =>
        simp only at h
        split at h
        · rw [← Except.ok.inj h]; rfl
        · rw [← Except.ok.inj h]; rfl
        · rename_i h1 h2
          exact ih _ _ _ _ _ h rfl (Or.inl (by intro hc; exact h1 hc))
      | leaf v c =>
        simp only at h
        split at h
        · split at h
          · rename_i hpos
            exact ih _ _ _ _ _ h rfl (Or.inr (Or.inr rfl))
          · rw [← Except.ok.inj h]; rfl
        · split at h
          · rename_i hpos
            have hA : A ≠ [] := by intro hc; rw [hc] at hpos; simp at hpos
            obtain ⟨b, _, hb⟩ := G.bind_eq_ok.mp h
            split at hb
            · exact ih _ _ _ _ _ hb rfl (Or.inl hA)
            · exact ih _ _ _ _ _ hb rfl (Or.inl hA)
          · rw [← Except.ok.inj h]; rfl
      | parent l r hh i =>
        simp only at h
        obtain ⟨x, _, h⟩ := G.bind_eq_ok.mp h
        obtain ⟨y, _, h⟩ := G.bind_eq_ok.mp h
        obtain ⟨l', _, h⟩ := G.bind_eq_ok.mp h
        obtain ⟨r', _, h⟩ := G.bind_eq_ok.mp h
        rw [← Except.ok.inj h]
        unfold collapse
        split <;> rfl

theorem checkAdds_iff (R : List Bytes) (f : Bytes → Option Bytes) (l : List Entry) :
    (checkAdds R l (l.map (fun e => f e.vrf)) = .ok () ↔ ∀ e ∈ l, (f e.vrf).isSome → e.vrf ∈ R) ∧
    (¬ (∀ e ∈ l, (f e.vrf).isSome → e.vrf ∈ R) → Errs (checkAdds R l (l.map (fun e => f e.vrf)))) := by
  induction l with
  | nil => simp [checkAdds]
  | cons e l ih =>
    simp only [List.map_cons]
    cases hf : f e.vrf with
    | none =>
      simp only [checkAdds]
      constructor
      · rw [ih.1]; simp [hf]
      · intro h; apply ih.2; simpa [hf] using h
    | some c =>
      simp only [checkAdds]
      by_cases hR : e.vrf ∈ R
      · rw [if_pos hR]
        constructor
        · rw [ih.1]; simp [hR]
        · intro h; apply ih.2; simpa [hR] using h
      · rw [if_neg hR]
        constructor
        · simp [hf, hR]
        · intro _; exact ⟨_, rfl⟩

theorem checkPresent_spec (l : List (Option Bytes)) :
    (∀ cs', checkPresent l = .ok cs' ↔ l = cs'.map some) ∧ (none ∈ l → Errs (checkPresent l)) := by
  induction l with
  | nil => refine ⟨fun cs' => ?_, by simp⟩; simp [checkPresent]
  | cons a l ih =>
    cases a with
    | none =>
      refine ⟨fun cs' => ?_, fun _ => ⟨_, rfl⟩⟩
      constructor
      · intro h; simp [checkPresent] at h
      · intro h; cases cs' <;> simp at h
    | some c =>
      refine ⟨fun cs' => ?_, ?_⟩
      · simp only [checkPresent]
        rw [G.bind_eq_ok]
        constructor
        · rintro ⟨r, h1, h2⟩
          rw [← Except.ok.inj h2, List.map_cons, (ih.1 r).mp h1]
        · intro h
          cases cs' with
          | nil => simp at h
          | cons d cs' =>
            simp only [List.map_cons, List.cons.injEq, Option.some.injEq] at h
            exact ⟨cs', (ih.1 cs').mpr h.2, by rw [h.1]; rfl⟩
      · intro h
        simp only [List.mem_cons, reduceCtorEq, false_or] at h
        obtain ⟨m, hm⟩ := ih.2 h
        exact ⟨m, by simp only [checkPresent]; rw [hm]; rfl⟩

theorem checkEntries_fault (a : Bool) (dup : String) (l : List Entry) : ∀ prev,
    checkEntries cs a dup prev l = .ok () ∨ Errs (checkEntries cs a dup prev l) := by
  induction l with
  | nil => intro prev; exact Or.inl rfl
  | cons e l ih =>
    intro prev
    unfold checkEntries
    split
    · exact Or.inr ⟨_, rfl⟩
    · split
      · exact Or.inr ⟨_, rfl⟩
      · split
        · exact Or.inr ⟨_, rfl⟩
        · exact ih _

theorem checkRemoves_fault (l : List Bytes) : ∀ prev,
    checkRemoves cs prev l = .ok () ∨ Errs (checkRemoves cs prev l) := by
  induction l with
  | nil => intro prev; exact Or.inl rfl
  | cons e l ih =>
    intro prev
    unfold checkRemoves
    split
    · exact Or.inr ⟨_, rfl⟩
    · split
      · exact Or.inr ⟨_, rfl⟩
      · exact ih _

theorem errs_bind {α β : Type} {x : G α} (h : Errs x) (f : α → G β) : Errs (x >>= f) := by
  obtain ⟨m, rfl⟩ := h; exact ⟨m, rfl⟩

/-- The state of the store after the versions `maps`. -/
structure Inv (cs : Suite) (st : Store) (maps : List (List Pair))
    (X : TileId → List Bool → List Pair → Prop) : Prop where
  closed : Closed cs st maps.length X
  roots : ∀ v S, maps[v]? = some S → ∃ T, T.Perm S ∧ Holds cs st X ⟨v + 1, 0⟩ [] T
  tiles : ∀ v, v < maps.length → ∃ k, 0 < k ∧ (∀ c, c < k → TileOk cs st X ⟨v + 1, c⟩) ∧
    (∀ c, k ≤ c → st.lookup ⟨v + 1, c⟩ = none)
  none : ∀ id : TileId, id.ver = 0 ∨ maps.length < id.ver → st.lookup id = none

theorem inv_nil : Inv cs [] [] (fun _ _ _ => False) :=
  ⟨⟨fun _ _ _ h => h.elim, fun _ _ _ h => h.elim, fun _ _ _ h => h.elim, fun _ _ _ h => h.elim,
    ⟨fun _ => [], fun _ _ => rfl, fun _ _ _ h => h.elim⟩⟩, by simp, by simp, by simp⟩

/-- the current map -/
def current (maps : List (List Pair)) : List Pair := maps.getLast?.getD []

theorem trieHash_root (T : List Pair) : th cs [] T = rootHash cs.H cs.hashSize T := by
  simp [th, rootHash]

theorem apply_nodup {hs : Nat} {S : List Pair} {b : Batch} (hS : (S.map Prod.fst).Nodup) (hb : b.Valid hs S) :
    ((b.apply S).map Prod.fst).Nodup := by
  unfold Batch.apply
  rw [List.map_append]
  apply List.Nodup.append
  · exact List.Nodup.sublist (List.Sublist.map _ List.filter_sublist) hS
  · exact hb.addDistinct
  · intro v hv hv'
    obtain ⟨e, he, rfl⟩ := List.mem_map.mp hv
    obtain ⟨f, hf, hfe⟩ := List.mem_map.mp hv'
    have he' := List.mem_filter.mp he
    have := hb.fresh f hf (by rw [hfe]; exact List.mem_map.mpr ⟨e, he'.1, rfl⟩)
    rw [hfe] at this
    simp at he'
    exact he'.2 this

theorem apply_isMap {hs : Nat} {S : List Pair} {b : Batch} (hS : IsMap hs S) (hb : b.Valid hs S) :
    IsMap hs (b.apply S) := by
  refine ⟨?_, apply_nodup hS.distinct hb⟩
  intro e he
  rcases List.mem_append.mp he with h | h
  · exact hS.len e (List.mem_filter.mp h).1
  · exact hb.addLen e h

theorem Valid.perm {hs : Nat} {S T : List Pair} {b : Batch} (h : T.Perm S) (hb : b.Valid hs S) : b.Valid hs T :=
  ⟨hb.addLen, hb.addDistinct, hb.removeLen, hb.removeDistinct,
    fun e he hin => hb.fresh e he ((h.map _).mem_iff.mp hin),
    fun v hv => (h.map _).mem_iff.mpr (hb.present v hv)⟩

theorem apply_perm {S T : List Pair} {b : Batch} (h : T.Perm S) : (b.apply T).Perm (b.apply S) :=
  (h.filter _).append_right _

/-- The VRF outputs a mutation looks up. -/
def Batch.vrfs (b : Batch) : List Bytes := b.add.map Prod.fst ++ b.remove

theorem vrfs_len {hs : Nat} {b : Batch}
    (h1 : ∀ e ∈ b.add, e.1.length = hs) (h2 : ∀ v ∈ b.remove, v.length = hs) :
    ∀ v ∈ Batch.vrfs b, v.length = hs := by
  intro v hv
  rcases List.mem_append.mp hv with h | h
  · obtain ⟨e, he, rfl⟩ := List.mem_map.mp h; exact h1 e he
  · exact h2 v h

/-- The root node, proof and answers `getMutationRoot` starts from.  `n` represents the current map and has
no unresolved reference on a requested path. -/
structure Start (cs : Suite) (X : TileId → List Bool → List Pair → Prop) (n : Node) (T : List Pair)
    (V : List Bytes) : Prop where
  rep : Rep cs (fun i q T => X i q T ∧ below id V q = []) (Loaded X) [] n T
  ext : n.isExt = false

theorem Start.look {n : Node} {T : List Pair} {V : List Bytes} (h : Start cs X n T V) {v : Bytes} (hv : v ∈ V)
    (hlen : v.length = cs.hashSize) (c : Bytes) : (Prefix.look n 0 v).2 = some c ↔ (v, c) ∈ T :=
  look_spec h.rep (fun i q T hx hon => by
    have : v ∈ below id V q := mem_below.mpr ⟨hv, hon⟩
    rw [hx.2] at this; cases this) (on_nil _) hlen (fun i q T _ hy => hy.1) c

theorem Start.isSome {n : Node} {T : List Pair} {V : List Bytes} (h : Start cs X n T V) {v : Bytes} (hv : v ∈ V)
    (hlen : v.length = cs.hashSize) : (Prefix.look n 0 v).2.isSome ↔ v ∈ T.map Prod.fst := by
  rw [Option.isSome_iff_exists]
  constructor
  · rintro ⟨c, hc⟩
    exact List.mem_map.mpr ⟨(v, c), (h.look hv hlen c).mp hc, rfl⟩
  · intro hm
    obtain ⟨e, he, rfl⟩ := List.mem_map.mp hm
    exact ⟨e.2, (h.look hv hlen e.2).mpr he⟩

/-- The version the next mutation starts from. -/
theorem start_spec {st : Store} {maps : List (List Pair)} (hinv : Inv cs st maps X) {V : List Bytes}
    (hV : V ≠ [] ∨ maps = []) (hlen : ∀ v ∈ V, v.length = cs.hashSize) :
    ∃ n T, T.Perm (current maps) ∧ Start cs X n T V ∧
      (if maps.length = 0 then n = .empty else loadVersion cs st maps.length V = .ok n) := by
  by_cases h0 : maps.length = 0
  · have : maps = [] := List.eq_nil_of_length_eq_zero h0
    subst this
    exact ⟨.empty, [], List.Perm.refl _, ⟨rfl, rfl⟩, by simp⟩
  · have hne : maps ≠ [] := by intro hc; rw [hc] at h0; exact h0 rfl
    have hV' : V ≠ [] := by
      rcases hV with h | h
      · exact h
      · exact absurd h hne
    have hlast : maps[maps.length - 1]? = some (current maps) := by
      unfold current
      rw [List.getLast?_eq_getElem?, List.getElem?_eq_getElem (by omega)]
      rfl
    obtain ⟨T, hT, hold⟩ := hinv.roots _ _ hlast
    have e : maps.length - 1 + 1 = maps.length := by omega
    rw [e] at hold
    obtain ⟨n, g1, g2, g3⟩ := loadVersion_spec hinv.closed hold hV' hlen
    exact ⟨n, T, hT, ⟨g2, g3⟩, by rw [if_neg h0]; exact g1 st (fun _ _ _ _ => rfl) rfl⟩

/-- what a successful mutation returns -/
structure Outcome (cs : Suite) (X : TileId → List Bool → List Pair → Prop) (st : Store) (maps : List (List Pair))
    (b : Batch) (res : MutateResult) : Prop where
  root : res.root = rootHash cs.H cs.hashSize (b.apply (current maps))
  proof : ∃ n T, T.Perm (current maps) ∧ Start cs X n T (Batch.vrfs b) ∧
    res.proof = ⟨(Batch.vrfs b).map (fun v => (look n 0 v).1), elems cs (Batch.vrfs b) [] n⟩
  removed : List.Forall₂ (fun v c => (v, c) ∈ current maps) b.remove res.removed
  inv : ∃ X', (∀ i q T, X i q T → X' i q T) ∧ Inv cs res.store (maps ++ [b.apply (current maps)]) X'
  keep : ∀ id : TileId, id.ver ≤ maps.length → res.store.lookup id = st.lookup id

theorem mutate_valid (hcs : cs.Good) (hsm : Small cs) {st : Store} {maps : List (List Pair)}
    (hinv : Inv cs st maps X) (hmap : IsMap cs.hashSize (current maps)) (b : Batch)
    (hb : b.Valid cs.hashSize (current maps)) (hne : Batch.vrfs b ≠ [] ∨ maps = [])
    (hver : maps.length + 1 < 2 ^ 64) (hsize : (b.apply (current maps)).length < 2 ^ 54) :
    ∃ res, mutate cs st maps.length (entries b.add) b.remove = .ok res ∧ Outcome cs X st maps b res := by
  have hlen : ∀ v ∈ Batch.vrfs b, v.length = cs.hashSize :=
    vrfs_len (fun e he => (hb.addLen e he).1) hb.removeLen
  obtain ⟨n, T, hperm, hstart, hload⟩ := start_spec hinv hne hlen
  have hvT := Valid.perm hperm hb
  have hX0 : ∀ i q T, (X i q T ∧ below id (Batch.vrfs b) q = []) → below id (Batch.vrfs b) q = [] :=
    fun _ _ _ h => h.2
  have hpb := runProofBuilder_eq hlen hX0 hstart.rep (fun i q T h => h.1)
  have hvr : (entries b.add).map Entry.vrf ++ b.remove = Batch.vrfs b := by rw [entries_vrf]; rfl
  -- the removed commitments
  obtain ⟨removed, hrem1, hrem2⟩ : ∃ removed, b.remove.map (fun v => (look n 0 v).2) = removed.map some ∧
      List.Forall₂ (fun v c => (v, c) ∈ current maps) b.remove removed := by
    have : ∀ l : List Bytes, (∀ v ∈ l, v ∈ b.remove) →
        ∃ removed, l.map (fun v => (look n 0 v).2) = removed.map some ∧
          List.Forall₂ (fun v c => (v, c) ∈ current maps) l removed := by
      intro l
      induction l with
      | nil => intro _; exact ⟨[], rfl, List.Forall₂.nil⟩
      | cons v l ih =>
        intro h
        obtain ⟨rm, r1, r2⟩ := ih (fun x hx => h x (by simp [hx]))
        have hv := h v (by simp)
        obtain ⟨e, he, rfl⟩ := List.mem_map.mp (hvT.present v hv)
        refine ⟨e.2 :: rm, ?_, List.Forall₂.cons (hperm.mem_iff.mp he) r2⟩
        simp only [List.map_cons, r1]
        rw [(hstart.look (List.mem_append_right _ hv) (hb.removeLen _ hv) e.2).mpr he]
    exact this b.remove (fun _ h => h)
  have hroot : getMutationRoot cs st maps.length (entries b.add) b.remove =
      .ok (n, ⟨(Batch.vrfs b).map (fun v => (look n 0 v).1), elems cs (Batch.vrfs b) [] n⟩, removed) := by
    unfold getMutationRoot
    simp only [hvr]
    by_cases h0 : maps.length = 0
    · rw [if_pos h0] at hload ⊢
      have hm : maps = [] := List.eq_nil_of_length_eq_zero h0
      have hr0 : b.remove = [] := by
        rw [List.eq_nil_iff_forall_not_mem]
        intro v hv
        have := hb.present v hv
        rw [hm] at this; simp [current] at this
      rw [hload] at hpb ⊢
      rw [hpb, hr0]
      have : removed = [] := by rw [hr0] at hrem2; cases hrem2; rfl
      subst this
      simp
    · rw [if_neg h0] at hload ⊢
      rw [hload]
      simp only [G.ok_bind]
      rw [hpb]
      simp only [G.ok_bind]
      have e1 : ((Batch.vrfs b).map (fun v => (look n 0 v).2)).take (entries b.add).length =
          (entries b.add).map (fun e => (look n 0 e.vrf).2) := by
        rw [← hvr, List.map_append, List.map_map, List.take_left' (by simp)]
        rfl
      have e2 : ((Batch.vrfs b).map (fun v => (look n 0 v).2)).drop (entries b.add).length =
          b.remove.map (fun v => (look n 0 v).2) := by
        rw [← hvr, List.map_append, List.drop_left' (by simp)]
      rw [e1, e2, (checkAdds_iff b.remove (fun v => (look n 0 v).2) (entries b.add)).1.mpr ?_]
      · simp only [G.ok_bind]
        rw [((checkPresent_spec _).1 removed).mpr hrem1]
        rfl
      · intro e he hsome
        have he' := mem_entries.mp he
        have hv : e.vrf ∈ Batch.vrfs b := List.mem_append_left _ (List.mem_map.mpr ⟨_, he', rfl⟩)
        have := (hstart.isSome hv (hb.addLen _ he').1).mp hsome
        exact hvT.fresh _ he' this
  -- the surgery
  have hA : GoodAdd cs.hashSize (sortBy Entry.vrf (entries b.add)) := by
    refine ⟨sortBy_sorted _, ?_, ?_, ?_⟩
    · intro a ha; exact (hb.addLen _ (mem_entries.mp ((sortBy_perm _).mem_iff.mp ha))).1
    · intro a ha; exact (hb.addLen _ (mem_entries.mp ((sortBy_perm _).mem_iff.mp ha))).2
    · rw [((sortBy_perm (key := Entry.vrf) (entries b.add)).map Entry.vrf).nodup_iff, entries_vrf]
      exact hb.addDistinct
  have hR : GoodRemove cs.hashSize (sortBy id b.remove) :=
    ⟨sortBy_sorted _, fun v hv => hb.removeLen v ((sortBy_perm _).mem_iff.mp hv)⟩
  have hbelow : ∀ q, below Entry.vrf (sortBy Entry.vrf (entries b.add)) q = [] →
      below id (sortBy id b.remove) q = [] → below id (Batch.vrfs b) q = [] := by
    intro q h1 h2
    rw [List.eq_nil_iff_forall_not_mem] at h1 h2 ⊢
    intro v hv
    obtain ⟨hv1, hv2⟩ := mem_below.mp hv
    rcases List.mem_append.mp hv1 with h | h
    · obtain ⟨e, he, rfl⟩ := List.mem_map.mp h
      exact h1 ⟨e.1, e.2⟩ (mem_below.mpr ⟨(sortBy_perm _).mem_iff.mpr (mem_entries.mpr he), hv2⟩)
    · exact h2 v (mem_below.mpr ⟨(sortBy_perm _).mem_iff.mpr h, hv2⟩)
  have hbelow' : ∀ q, below id (Batch.vrfs b) q = [] →
      below Entry.vrf (sortBy Entry.vrf (entries b.add)) q = [] ∧ below id (sortBy id b.remove) q = [] := by
    intro q h
    rw [List.eq_nil_iff_forall_not_mem] at h
    constructor
    · rw [List.eq_nil_iff_forall_not_mem]
      intro a ha
      obtain ⟨h1, h2⟩ := mem_below.mp ha
      have := mem_entries.mp ((sortBy_perm _).mem_iff.mp h1)
      exact h a.vrf (mem_below.mpr ⟨List.mem_append_left _ (List.mem_map.mpr ⟨_, this, rfl⟩), h2⟩)
    · rw [List.eq_nil_iff_forall_not_mem]
      intro v hv
      obtain ⟨h1, h2⟩ := mem_below.mp hv
      exact h v (mem_below.mpr ⟨List.mem_append_right _ ((sortBy_perm _).mem_iff.mp h1), h2⟩)
  obtain ⟨n', S', hadd, hrep', hupd⟩ := addRemove_rep (cs := cs) (mutationFuel cs)
    (fun i q T => X i q T ∧ below id (Batch.vrfs b) q = []) (Loaded X)
    (sortBy Entry.vrf (entries b.add)) (sortBy id b.remove) n [] T hA hR
    (fun j q T h => hbelow' q h.2)
    (by
      rintro i q T _ ⟨h1, j, h2, h3⟩
      refine ⟨Or.inl h1, ?_⟩
      by_cases ha : below Entry.vrf (sortBy Entry.vrf (entries b.add)) q = []
      · by_cases hr : below id (sortBy id b.remove) q = []
        · exact Or.inr (Or.inr ⟨j, h2, h3, hbelow q ha hr⟩)
        · exact Or.inr (Or.inl hr)
      · exact Or.inl ha)
    (Or.inr (fun _ _ _ _ _ _ _ => Or.inr (fun j b T h => hinv.closed.two _ _ _ h.1))) hstart.rep
    (by
      intro a ha hin
      have := mem_entries.mp ((sortBy_perm _).mem_iff.mp ha)
      exact (sortBy_perm _).mem_iff.mpr (hvT.fresh _ this hin))
    (by unfold mutationFuel; have := n.rank_le; simp only [List.length_nil]; omega)
  rw [below_root, below_root, List.length_nil] at hadd
  have hmemS' : ∀ e, e ∈ S' ↔ e ∈ b.apply (current maps) := by
    intro e
    rw [hupd e, below_root]
    unfold Batch.apply
    rw [List.mem_append, List.mem_filter]
    simp only [decide_eq_true_eq]
    constructor
    · rintro (⟨a, ha, rfl⟩ | ⟨h1, h2⟩)
      · exact Or.inr (mem_entries.mp ((sortBy_perm _).mem_iff.mp ha))
      · exact Or.inl ⟨hperm.mem_iff.mp h1, fun h => h2 ((sortBy_perm _).mem_iff.mpr h)⟩
    · rintro (⟨h1, h2⟩ | h)
      · exact Or.inr ⟨hperm.mem_iff.mpr h1, fun h => h2 ((sortBy_perm _).mem_iff.mp h)⟩
      · exact Or.inl ⟨⟨e.1, e.2⟩, (sortBy_perm _).mem_iff.mpr (mem_entries.mpr h), rfl⟩
  have hpermS' : S'.Perm (b.apply (current maps)) :=
    (List.perm_ext_iff_of_nodup hrep'.wf.nodup.of_map (apply_nodup hmap.distinct hb).of_map).mpr hmemS'
  have hrepX : Rep cs X Two [] n' S' := hrep'.mono (fun _ _ _ h => h.1) (fun _ _ _ _ h => h)
  have hne' : n'.isExt = false := by
    apply addRemove_nonext _ _ _ _ _ _ hadd hstart.ext
    rcases hne with h | h
    · by_cases ha : sortBy Entry.vrf (entries b.add) = []
      · by_cases hr : sortBy id b.remove = []
        · exfalso
          apply h
          have := hbelow [] (by rw [below_root]; exact ha) (by rw [below_root]; exact hr)
          rwa [below_root] at this
        · exact Or.inr (Or.inl hr)
      · exact Or.inl ha
    · subst h
      simp only [List.length_nil, if_true] at hload
      subst hload
      exact Or.inr (Or.inr rfl)
  obtain ⟨tiles, st', X', w1, w2, w3, w4, w5, w6, w7, w8, w9⟩ := write_spec hcs hsm hinv.closed hver n' S' hrepX hne'
    (by rw [hpermS'.length_eq]; exact hsize)
  refine ⟨⟨n'.hash cs, ⟨(Batch.vrfs b).map (fun v => (look n 0 v).1), elems cs (Batch.vrfs b) [] n⟩, removed, st'⟩,
    ?_, ?_, ⟨n, T, hperm, hstart, rfl⟩, hrem2, ⟨X', w4, ?_, ?_, ?_, ?_⟩, fun id hid => w6 id (by omega)⟩
  · unfold mutate
    simp only
    rw [(checkEntries_ok cs false _ (entries b.add)).mpr ⟨fun e he => ⟨(hb.addLen _ (mem_entries.mp he)).1,
      Or.inr (hb.addLen _ (mem_entries.mp he)).2⟩, by rw [entries_vrf]; exact hb.addDistinct⟩]
    simp only [G.ok_bind]
    rw [(checkRemoves_ok cs b.remove).mpr ⟨hb.removeLen, hb.removeDistinct⟩]
    simp only [G.ok_bind]
    rw [hroot]
    simp only [G.ok_bind]
    rw [hadd]
    simp only [G.ok_bind]
    rw [w1]
    simp only [G.ok_bind]
    rw [w2]
    rfl
  · simp only
    rw [hrepX.hash_eq (fun _ _ _ _ h => h), trieHash_root]
    exact trieHash_perm _ _ _ _ _ _ hpermS'
  · rw [List.length_append, List.length_singleton]; exact w3
  · intro v S hv
    by_cases hvl : v < maps.length
    · rw [List.getElem?_append_left hvl] at hv
      obtain ⟨T2, k1, k2⟩ := hinv.roots v S hv
      exact ⟨T2, k1, holds_mono k2 w4 (w6 _ (by simp only; omega))⟩
    · rw [List.getElem?_append_right (by omega)] at hv
      have h0 : v - maps.length = 0 := by
        by_contra hc
        rw [List.getElem?_eq_none (by simp; omega)] at hv; cases hv
      rw [h0] at hv
      simp only [List.getElem?_cons_zero, Option.some.injEq] at hv
      subst hv
      have : v = maps.length := by omega
      subst this
      exact ⟨S', hpermS', w5⟩
  · intro v hv
    rw [List.length_append, List.length_singleton] at hv
    by_cases hvl : v < maps.length
    · obtain ⟨k, k1, k2, k3⟩ := hinv.tiles v hvl
      refine ⟨k, k1, fun c hc => (k2 c hc).mono w4 (fun i hi => w6 i (by simp only at hi; omega)), fun c hc => ?_⟩
      rw [← k3 c hc]; exact w6 _ (by simp only; omega)
    · have : v = maps.length := by omega
      subst this
      exact ⟨tiles.length, w7, w8, fun c hc => by
        show st'.lookup _ = _
        rw [w9 c hc]; exact hinv.none _ (Or.inr (by simp))⟩
  · intro id hid
    rw [List.length_append, List.length_singleton] at hid
    show st'.lookup id = _
    rw [w6 id (by omega)]
    exact hinv.none id (by omega)

/-- A change that does not make sense is refused with an error. -/
theorem mutate_invalid {st : Store} {maps : List (List Pair)}
    (hinv : Inv cs st maps X) (b : Batch) (hb : ¬ b.Valid cs.hashSize (current maps)) :
    Errs (mutate cs st maps.length (entries b.add) b.remove) := by
  unfold mutate
  simp only
  rcases checkEntries_fault (cs := cs) false "unable to insert same vrf output multiple times"
    (sortBy Entry.vrf (entries b.add)) none with h | h
  swap
  · exact errs_bind h _
  rw [h]
  obtain ⟨h1, h2⟩ := (checkEntries_ok cs false _ (entries b.add)).mp h
  simp only [G.ok_bind]
  rcases checkRemoves_fault (cs := cs) (sortBy id b.remove) none with h' | h'
  swap
  · exact errs_bind h' _
  rw [h']
  obtain ⟨h3, h4⟩ := (checkRemoves_ok cs b.remove).mp h'
  simp only [G.ok_bind]
  apply errs_bind
  have h1' : ∀ e ∈ b.add, e.1.length = cs.hashSize ∧ e.2.length = cs.hashSize := by
    intro e he
    have := h1 ⟨e.1, e.2⟩ (mem_entries.mpr he)
    simpa using this
  rw [entries_vrf] at h2
  have hbad : ¬ ((∀ e ∈ b.add, e.1 ∈ (current maps).map Prod.fst → e.1 ∈ b.remove) ∧
      (∀ v ∈ b.remove, v ∈ (current maps).map Prod.fst)) :=
    fun h => hb ⟨h1', h2, h3, h4, h.1, h.2⟩
  have hlen : ∀ v ∈ Batch.vrfs b, v.length = cs.hashSize :=
    vrfs_len (fun e he => (h1' e he).1) h3
  have hne : Batch.vrfs b ≠ [] ∨ maps = [] := by
    by_cases hV : Batch.vrfs b = []
    · exfalso
      apply hbad
      have hv := List.append_eq_nil_iff.mp hV
      have ha : b.add = [] := by simpa using hv.1
      rw [ha, hv.2]; simp
    · exact Or.inl hV
  obtain ⟨n, T, hperm, hstart, hload⟩ := start_spec hinv hne hlen
  have hpb := runProofBuilder_eq hlen (fun _ _ _ h => h.2) hstart.rep (fun i q T h => h.1)
  have hvr : (entries b.add).map Entry.vrf ++ b.remove = Batch.vrfs b := by rw [entries_vrf]; rfl
  unfold getMutationRoot
  simp only [hvr]
  by_cases h0 : maps.length = 0
  · rw [if_pos h0]
    have hm : maps = [] := List.eq_nil_of_length_eq_zero h0
    have : b.remove.length > 0 := by
      by_contra hc
      have hr : b.remove = [] := List.eq_nil_of_length_eq_zero (by omega)
      apply hbad
      rw [hm, hr]; simp [current]
    rw [if_pos this]
    exact ⟨_, rfl⟩
  · rw [if_neg h0] at hload ⊢
    rw [hload]
    simp only [G.ok_bind]
    rw [hpb]
    simp only [G.ok_bind]
    have e1 : ((Batch.vrfs b).map (fun v => (look n 0 v).2)).take (entries b.add).length =
        (entries b.add).map (fun e => (look n 0 e.vrf).2) := by
      rw [← hvr, List.map_append, List.map_map, List.take_left' (by simp)]
      rfl
    have e2 : ((Batch.vrfs b).map (fun v => (look n 0 v).2)).drop (entries b.add).length =
        b.remove.map (fun v => (look n 0 v).2) := by
      rw [← hvr, List.map_append, List.drop_left' (by simp)]
    rw [e1, e2]
    have hmem : ∀ v, v ∈ (current maps).map Prod.fst ↔ v ∈ T.map Prod.fst :=
      fun v => ((hperm.map Prod.fst).mem_iff).symm
    by_cases hadd : ∀ e ∈ entries b.add, (look n 0 e.vrf).2.isSome → e.vrf ∈ b.remove
    · rw [(checkAdds_iff b.remove (fun v => (look n 0 v).2) (entries b.add)).1.mpr hadd]
      simp only [G.ok_bind]
      apply errs_bind
      apply (checkPresent_spec _).2
      by_contra hc
      apply hbad
      constructor
      · intro e he hin
        have hv : e.1 ∈ Batch.vrfs b := List.mem_append_left _ (List.mem_map.mpr ⟨_, he, rfl⟩)
        exact hadd ⟨e.1, e.2⟩ (mem_entries.mpr he) ((hstart.isSome hv (h1' e he).1).mpr ((hmem _).mp hin))
      · intro v hv
        rw [hmem, ← hstart.isSome (List.mem_append_right _ hv) (h3 v hv)]
        by_contra hnone
        apply hc
        rw [Option.not_isSome_iff_eq_none] at hnone
        exact List.mem_map.mpr ⟨v, hv, hnone⟩
    · exact errs_bind ((checkAdds_iff b.remove (fun v => (look n 0 v).2) (entries b.add)).2 hadd) _

/-! ### Histories -/

theorem contents_snoc (bs : List Batch) (b : Batch) : contents (bs ++ [b]) = b.apply (contents bs) := by
  simp [contents]

/-- the map after each version -/
def versions (bs : List Batch) : List (List Pair) := (List.range bs.length).map (fun i => contents (bs.take (i + 1)))

theorem versions_length (bs : List Batch) : (versions bs).length = bs.length := by simp [versions]

theorem versions_snoc (bs : List Batch) (b : Batch) :
    versions (bs ++ [b]) = versions bs ++ [contents (bs ++ [b])] := by
  unfold versions
  rw [List.length_append, List.length_singleton, List.range_succ, List.map_append]
  congr 1
  · apply List.map_congr_left
    intro i hi
    rw [List.mem_range] at hi
    rw [List.take_append_of_le_length (by omega)]
  · simp [List.take_of_length_le]

theorem versions_get (bs : List Batch) (v : Nat) (h : v < bs.length) :
    (versions bs)[v]? = some (contents (bs.take (v + 1))) := by
  unfold versions
  rw [List.getElem?_map, List.getElem?_range h]; rfl

theorem current_versions (bs : List Batch) : current (versions bs) = contents bs := by
  induction bs using List.reverseRecOn with
  | nil => rfl
  | append_singleton bs b _ => rw [versions_snoc]; simp [current]

theorem vrfs_ne {bs : List Batch} {b : Batch} (h : bs = [] ∨ b.add ≠ [] ∨ b.remove ≠ []) :
    Batch.vrfs b ≠ [] ∨ versions bs = [] := by
  rcases h with h | h | h
  · right; rw [h]; rfl
  · left; unfold Batch.vrfs; simp [h]
  · left; unfold Batch.vrfs; simp [h]

/-- A successful mutation made sense, and did what it should. -/
theorem mutate_ok (hcs : cs.Good) (hsm : Small cs) {st : Store} {bs : List Batch} {b : Batch} {res : MutateResult}
    (hinv : Inv cs st (versions bs) X) (hmap : IsMap cs.hashSize (contents bs))
    (hm : mutate cs st bs.length (entries b.add) b.remove = .ok res)
    (hne : bs = [] ∨ b.add ≠ [] ∨ b.remove ≠ []) (hver : bs.length + 1 < 2 ^ 64)
    (hsize : (contents (bs ++ [b])).length < 2 ^ 54) :
    b.Valid cs.hashSize (contents bs) ∧ Outcome cs X st (versions bs) b res := by
  have hcur := current_versions bs
  have hl := versions_length bs
  have hb : b.Valid cs.hashSize (contents bs) := by
    by_contra hc
    obtain ⟨m, he⟩ := mutate_invalid hinv b (by rw [hcur]; exact hc)
    rw [hl, hm] at he; cases he
  refine ⟨hb, ?_⟩
  rw [contents_snoc] at hsize
  obtain ⟨res', e1, e2⟩ := mutate_valid hcs hsm hinv (by rw [hcur]; exact hmap) b (by rw [hcur]; exact hb)
    (vrfs_ne hne) (by rw [hl]; exact hver) (by rw [hcur]; exact hsize)
  rw [hl, hm] at e1
  rw [Except.ok.inj e1]; exact e2

theorem history_inv (hcs : cs.Good) (hsm : Small cs) {bs : List Batch} {st : Store} (h : History cs bs st) :
    IsMap cs.hashSize (contents bs) ∧ ∃ X, Inv cs st (versions bs) X := by
  induction h with
  | nil => exact ⟨⟨by simp [contents], by simp [contents]⟩, _, inv_nil⟩
  | step _ hm hne hver hsize ih =>
    obtain ⟨hmap, X, hinv⟩ := ih
    obtain ⟨hb, ho⟩ := mutate_ok hcs hsm hinv hmap hm hne hver hsize
    rw [contents_snoc]
    refine ⟨apply_isMap hmap hb, ?_⟩
    obtain ⟨X', _, hi⟩ := ho.inv
    rw [current_versions] at hi
    rw [versions_snoc, contents_snoc]
    exact ⟨X', hi⟩

/-- every version is a map -/
theorem history_prefix {bs : List Batch} {st : Store} (h : History cs bs st) (v : Nat) (hv : v ≤ bs.length) :
    ∃ st', History cs (bs.take v) st' := by
  induction h with
  | nil => exact ⟨[], by simpa using History.nil⟩
  | @step bs st b res h hm hne hver hsize ih =>
    by_cases hvl : v ≤ bs.length
    · rw [List.take_append_of_le_length hvl]; exact ih hvl
    · rw [List.take_of_length_le (by simp; omega)]
      exact ⟨_, History.step h hm hne hver hsize⟩

/-! ### Search -/

theorem lookup_iff {S : List Pair} (hS : (S.map Prod.fst).Nodup) (v c : Bytes) :
    S.lookup v = some c ↔ (v, c) ∈ S := by
  induction S with
  | nil => simp
  | cons e S ih =>
    simp only [List.map_cons, List.nodup_cons] at hS
    rw [List.lookup_cons]
    by_cases hv : v = e.1
    · subst hv
      simp only [beq_self_eq_true, Option.some.injEq, List.mem_cons]
      constructor
      · intro h; left; rw [← h]
      · rintro (h | h)
        · rw [← h]
        · exact absurd (List.mem_map.mpr ⟨_, h, rfl⟩) hS.1
    · have : (v == e.1) = false := by rw [beq_eq_false_iff_ne]; exact hv
      rw [this]
      simp only [List.mem_cons]
      rw [ih hS.2]
      constructor
      · intro h; exact Or.inr h
      · rintro (h | h)
        · exact absurd (by rw [← h]) hv
        · exact h

/-- what a search of `V` in the map `S` should return -/
structure Answered (cs : Suite) (S : List Pair) (V : List Bytes) (p : Proof) (coms : List (Option Bytes)) : Prop where
  answer : coms = V.map (fun v => S.lookup v)
  results : p.results.map Res.isInclusion = coms.map Option.isSome
  verifies : ∀ es : List Entry, es.map Entry.vrf = V → V.Nodup →
    (∀ e ∈ es, e.com = (S.lookup e.vrf).getD e.com) → (∀ e ∈ es, e.com = [] ∨ e.com.length = cs.hashSize) →
    verify cs es p (rootHash cs.H cs.hashSize S) = .ok ()

theorem search_version {st : Store} {maps : List (List Pair)} (hinv : Inv cs st maps X) {v : Nat} {S : List Pair}
    (hS : maps[v]? = some S) (hmap : IsMap cs.hashSize S) {V W : List Bytes} (hW : W ≠ []) (hVW : ∀ x ∈ V, x ∈ W)
    (hlen : ∀ v ∈ W, v.length = cs.hashSize) :
    ∃ n r, (∀ st' : Store, (∀ id : TileId, id.ver ≤ maps.length → st'.lookup id = st.lookup id) →
        loadVersion cs st' (v + 1) W = .ok n) ∧ runProofBuilder cs n V = .ok r ∧
      Answered cs S V r.1 r.2 ∧ n.hash cs = rootHash cs.H cs.hashSize S := by
  obtain ⟨T, hT, hold⟩ := hinv.roots v S hS
  have hvl : v < maps.length := by
    by_contra hc; rw [List.getElem?_eq_none (by omega)] at hS; cases hS
  obtain ⟨n, g1, g2, g3⟩ := loadVersion_spec hinv.closed hold hW hlen
  have hlen' : ∀ x ∈ V, x.length = cs.hashSize := fun x hx => hlen x (hVW x hx)
  have hX : ∀ i q T, (X i q T ∧ below id W q = []) → below id V q = [] := by
    rintro i q T ⟨_, h⟩
    rw [List.eq_nil_iff_forall_not_mem] at h ⊢
    intro x hx
    obtain ⟨h1, h2⟩ := mem_below.mp hx
    exact h x (mem_below.mpr ⟨hVW x h1, h2⟩)
  have hlook : ∀ x ∈ V, (look n 0 x).2 = S.lookup x := by
    intro x hx
    apply Option.ext
    intro c
    rw [lookup_iff hmap.distinct, ← hT.mem_iff]
    exact look_spec g2 (fun i q T hx' hon => by
      have : x ∈ below id W q := mem_below.mpr ⟨hVW x hx, hon⟩
      rw [hx'.2] at this; cases this) (on_nil _) (hlen' x hx) (fun i q T _ hy => hy.1) c
  refine ⟨n, _, fun st' hst' => g1 st' (fun id q T hx => hst' id (hinv.closed.ver _ _ _ hx)) (hst' _ hvl),
    runProofBuilder_eq hlen' hX g2 (fun i q T h => h.1), ⟨?_, ?_, ?_⟩, ?_⟩
  · exact List.map_congr_left hlook
  · simp only [List.map_map]
    apply List.map_congr_left
    intro x _
    exact look_isInclusion n 0 x
  · intro es hes hnd hcom hclen
    unfold verify evaluateRoot
    simp only
    subst hes
    have he := evaluate_honest g2 (fun i q T h => h.1) es hX
      (fun e he => ⟨hlen' _ (List.mem_map.mpr ⟨e, he, rfl⟩), hclen e he⟩) hnd
      (fun e he c hc => by
        rw [hlook _ (List.mem_map.mpr ⟨e, he, rfl⟩)] at hc
        have := hcom e he
        rw [hc] at this; simpa using this)
    simp only [List.map_map, Function.comp_def] at he ⊢
    rw [he]
    have hp := pruned_rep hX n _ _ g2 (fun i q T _ h => h.1)
    simp only [G.ok_bind, G.pure_eq]
    rw [if_neg]
    rw [ne_eq, not_not, hp.hash_eq (fun i q T _ h => h.1), trieHash_root]
    exact (trieHash_perm _ _ _ _ _ _ hT).symm
  · rw [g2.hash_eq (fun i q T _ h => h.1), trieHash_root]
    exact trieHash_perm _ _ _ _ _ _ hT

end Katie.Prefix
