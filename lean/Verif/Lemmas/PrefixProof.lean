import Verif.Lemmas.PrefixTrie

/-
Proof building, and evaluation of an honestly built proof.
-/

namespace Katie.Prefix
open Katie Katie.PrefixSpec

variable {cs : Suite} {X X' : TileId → List Bool → List Pair → Prop}
  {Y Y' : Option TileId → List Bool → List Pair → Prop}

/-- The result and commitment of a search for `v` below a node at depth `d`. -/
def look : Node → Nat → Bytes → Res × Option Bytes
  | .empty, d, _ => (.nonInclusionParent d, none)
  | .leaf w c, d, v => if v = w then (.inclusion d, some c) else (.nonInclusionLeaf w c d, none)
  | .parent l r _ _, d, v => if bitAt v d then look r (d + 1) v else look l (d + 1) v
  | .ext _ _, d, _ => (.nonInclusionParent d, none)

theorem look_depth (n : Node) (d : Nat) (v : Bytes) : d ≤ (look n d v).1.depth := by
  induction n generalizing d with
  | empty => simp [look, Res.depth]
  | leaf w c => unfold look; split <;> simp [Res.depth]
  | parent l r h i ihl ihr =>
    unfold look
    split
    · have := ihr (d + 1); omega
    · have := ihl (d + 1); omega
  | ext h i => simp [look, Res.depth]

theorem look_isInclusion (n : Node) (d : Nat) (v : Bytes) :
    (look n d v).1.isInclusion = (look n d v).2.isSome := by
  induction n generalizing d with
  | empty => simp [look, Res.isInclusion]
  | leaf w c => unfold look; split <;> simp [Res.isInclusion]
  | parent l r h i ihl ihr =>
    unfold look
    split
    · exact ihr _
    · exact ihl _
  | ext h i => simp [look, Res.isInclusion]

/-- A search finds exactly what is in the represented map. -/
theorem look_spec {p : List Bool} {n : Node} {S : List Pair} {v : Bytes} (h : Rep cs X Y p n S)
    (hX : ∀ i q T, X i q T → ¬ On q v) (hon : On p v) (hlen : v.length = cs.hashSize)
    (hY : ∀ i q T, p <+: q → Y i q T → 2 ≤ T.length) (c : Bytes) :
    (look n p.length v).2 = some c ↔ (v, c) ∈ S := by
  induction n generalizing p S with
  | empty => have : S = [] := h; subst this; simp [look]
  | leaf w d =>
    obtain ⟨rfl, _⟩ := h
    unfold look
    by_cases hv : v = w
    · subst hv; simp [eq_comm]
    · simp [hv]
  | parent l r hh i ihl ihr =>
    have hwf := h.wf
    obtain ⟨Sl, Sr, rfl, h1, h2, h3, h4⟩ := h
    have hlt := hwf.lt (hY _ _ _ (List.prefix_refl _) h3)
    have hst := hon.step (by rw [hlen]; exact hlt)
    unfold look
    cases hb : bitAt v p.length with
    | true =>
      rw [hb] at hst
      simp only [if_true]
      have := ihr h2 hst (fun i q T hq => hY i q T ((List.prefix_append _ _).trans hq))
      simp only [List.length_append, List.length_singleton] at this
      rw [this, List.mem_append]
      constructor
      · exact Or.inr
      · rintro (h | h)
        · have := (h1.wf.on _ h).bit; rw [hb] at this; cases this
        · exact h
    | false =>
      rw [hb] at hst
      simp only [Bool.false_eq_true, if_false]
      have := ihl h1 hst (fun i q T hq => hY i q T ((List.prefix_append _ _).trans hq))
      simp only [List.length_append, List.length_singleton] at this
      rw [this, List.mem_append]
      constructor
      · exact Or.inl
      · rintro (h | h)
        · exact h
        · have := (h2.wf.on _ h).bit; rw [hb] at this; cases this
  | ext hh i => exact absurd hon (hX _ _ _ h.2.1)

/-- The copath hashes, left to right. -/
def elems (cs : Suite) (V : List Bytes) : List Bool → Node → List Bytes
  | p, .parent l r h i =>
    if below id V p = [] then [(Node.parent l r h i).hash cs]
    else elems cs V (p ++ [false]) l ++ elems cs V (p ++ [true]) r
  | p, n => if below id V p = [] then [n.hash cs] else []

/-- What the requests `L` with answers `ans` do to a builder. -/
structure Filled (L : List (Nat × Bytes)) (ans : Bytes → Res × Option Bytes) (es : List Bytes)
    (pb pb' : Builder) : Prop where
  lenR : pb'.results.length = pb.results.length
  lenC : pb'.commitments.length = pb.commitments.length
  elements : pb'.elements = pb.elements ++ es
  inR : ∀ i v, (i, v) ∈ L → i < pb.results.length → pb'.results[i]? = some (some (ans v).1)
  inC : ∀ i v, (i, v) ∈ L → pb.commitments[i]? = some none → pb'.commitments[i]? = some (ans v).2
  outR : ∀ i, i ∉ L.map Prod.fst → pb'.results[i]? = pb.results[i]?
  outC : ∀ i, i ∉ L.map Prod.fst → pb'.commitments[i]? = pb.commitments[i]?

theorem fillLeaf_filled (w c : Bytes) (d : Nat) (L : List (Nat × Bytes)) (hnd : (L.map Prod.fst).Nodup)
    (pb : Builder) : Filled L (look (.leaf w c) d) [] pb (fillLeaf w c d L pb) := by
  induction L generalizing pb with
  | nil => exact ⟨rfl, rfl, by simp [fillLeaf], by simp, by simp, fun _ _ => rfl, fun _ _ => rfl⟩
  | cons x L ih =>
    obtain ⟨i, v⟩ := x
    simp only [List.map_cons, List.nodup_cons] at hnd
    have hni : ∀ j u, (j, u) ∈ L → j ≠ i := by
      intro j u hj hji
      exact hnd.1 (List.mem_map.mpr ⟨(j, u), hj, hji⟩)
    unfold fillLeaf
    by_cases hv : v = w
    · rw [if_pos hv]
      have h := ih hnd.2 { pb with results := pb.results.set i (some (.inclusion d)),
                                   commitments := pb.commitments.set i (some c) }
      refine ⟨by simpa using h.lenR, by simpa using h.lenC, h.elements, ?_, ?_, ?_, ?_⟩
      · intro j u hj hlt
        rcases List.mem_cons.mp hj with h1 | h1
        · obtain ⟨rfl, rfl⟩ := Prod.mk.inj h1
          rw [h.outR j hnd.1]
          simp [hlt, look, hv]
        · exact h.inR j u h1 (by simpa using hlt)
      · intro j u hj hnone
        rcases List.mem_cons.mp hj with h1 | h1
        · obtain ⟨rfl, rfl⟩ := Prod.mk.inj h1
          rw [h.outC j hnd.1]
          have hlt : j < pb.commitments.length := by
            by_contra hc; rw [List.getElem?_eq_none (by omega)] at hnone; cases hnone
          simp [hlt, look, hv]
        · refine h.inC j u h1 ?_
          have := hni j u h1
          simp only
          rw [List.getElem?_set_ne (Ne.symm this)]; exact hnone
      · intro j hj
        simp only [List.map_cons, List.mem_cons, not_or] at hj
        rw [h.outR j hj.2]; simp only; rw [List.getElem?_set_ne (Ne.symm hj.1)]
      · intro j hj
        simp only [List.map_cons, List.mem_cons, not_or] at hj
        rw [h.outC j hj.2]; simp only; rw [List.getElem?_set_ne (Ne.symm hj.1)]
    · rw [if_neg hv]
      have h := ih hnd.2 { pb with results := pb.results.set i (some (.nonInclusionLeaf w c d)) }
      refine ⟨by simpa using h.lenR, h.lenC, h.elements, ?_, ?_, ?_, ?_⟩
      · intro j u hj hlt
        rcases List.mem_cons.mp hj with h1 | h1
        · obtain ⟨rfl, rfl⟩ := Prod.mk.inj h1
          rw [h.outR j hnd.1]
          simp [hlt, look, hv]
        · exact h.inR j u h1 (by simpa using hlt)
      · intro j u hj hnone
        rcases List.mem_cons.mp hj with h1 | h1
        · obtain ⟨rfl, rfl⟩ := Prod.mk.inj h1
          rw [h.outC j hnd.1]
          simp [look, hv, hnone]
        · exact h.inC j u h1 hnone
      · intro j hj
        simp only [List.map_cons, List.mem_cons, not_or] at hj
        rw [h.outR j hj.2]; simp only; rw [List.getElem?_set_ne (Ne.symm hj.1)]
      · intro j hj
        simp only [List.map_cons, List.mem_cons, not_or] at hj
        rw [h.outC j hj.2]

theorem fillEmpty_filled (d : Nat) (L : List (Nat × Bytes)) (hnd : (L.map Prod.fst).Nodup)
    (pb : Builder) : Filled L (look .empty d) [] pb (fillEmpty d L pb) := by
  induction L generalizing pb with
  | nil => exact ⟨rfl, rfl, by simp [fillEmpty], by simp, by simp, fun _ _ => rfl, fun _ _ => rfl⟩
  | cons x L ih =>
    obtain ⟨i, v⟩ := x
    simp only [List.map_cons, List.nodup_cons] at hnd
    unfold fillEmpty
    have h := ih hnd.2 { pb with results := pb.results.set i (some (.nonInclusionParent d)) }
    refine ⟨by simpa using h.lenR, h.lenC, h.elements, ?_, ?_, ?_, ?_⟩
    · intro j u hj hlt
      rcases List.mem_cons.mp hj with h1 | h1
      · obtain ⟨rfl, rfl⟩ := Prod.mk.inj h1
        rw [h.outR j hnd.1]
        simp [hlt, look]
      · exact h.inR j u h1 (by simpa using hlt)
    · intro j u hj hnone
      rcases List.mem_cons.mp hj with h1 | h1
      · obtain ⟨rfl, rfl⟩ := Prod.mk.inj h1
        rw [h.outC j hnd.1]
        simp [look, hnone]
      · exact h.inC j u h1 hnone
    · intro j hj
      simp only [List.map_cons, List.mem_cons, not_or] at hj
      rw [h.outR j hj.2]; simp only; rw [List.getElem?_set_ne (Ne.symm hj.1)]
    · intro j hj
      simp only [List.map_cons, List.mem_cons, not_or] at hj
      rw [h.outC j hj.2]

theorem below_fst_nodup {I : List (Nat × Bytes)} (h : (I.map Prod.fst).Nodup) (p : List Bool) :
    ((below Prod.snd I p).map Prod.fst).Nodup :=
  List.Nodup.sublist (List.Sublist.map _ List.filter_sublist) h

theorem below_snd {I : List (Nat × Bytes)} {V : List Bytes} (h : ∀ v, v ∈ V ↔ ∃ i, (i, v) ∈ I)
    (p : List Bool) : below id V p = [] ↔ below Prod.snd I p = [] := by
  rw [List.eq_nil_iff_forall_not_mem, List.eq_nil_iff_forall_not_mem]
  constructor
  · rintro h1 ⟨i, v⟩ ha
    have := mem_below.mp ha
    exact h1 v (mem_below.mpr ⟨(h v).mpr ⟨i, this.1⟩, this.2⟩)
  · intro h1 v ha
    have := mem_below.mp ha
    obtain ⟨i, hi⟩ := (h v).mp this.1
    exact h1 (i, v) (mem_below.mpr ⟨hi, this.2⟩)

/-- `build` answers every request below the node and emits the copath. -/
theorem build_filled {I : List (Nat × Bytes)} {V : List Bytes} (hIV : ∀ v, v ∈ V ↔ ∃ i, (i, v) ∈ I)
    (hsort : Sorted Prod.snd I) (hlen : ∀ x ∈ I, x.2.length = cs.hashSize) (hnd : (I.map Prod.fst).Nodup)
    (hX : ∀ i q T, X i q T → below id V q = [])
    (n : Node) : ∀ (p : List Bool) (S : List Pair) (pb : Builder), Rep cs X Y p n S →
      (∀ i q T, p <+: q → Y i q T → 2 ≤ T.length) →
      ∃ pb', build cs n (below Prod.snd I p) p.length pb = .ok pb' ∧
        Filled (below Prod.snd I p) (look n p.length) (elems cs V p n) pb pb' := by
  have hnone : ∀ (n : Node) (p : List Bool) (pb : Builder), below Prod.snd I p = [] →
      ∃ pb', build cs n (below Prod.snd I p) p.length pb = .ok pb' ∧
        Filled (below Prod.snd I p) (look n p.length) (elems cs V p n) pb pb' := by
    intro n p pb hb
    rw [hb]
    refine ⟨{ pb with elements := pb.elements ++ [n.hash cs] }, by unfold build; rfl, ?_⟩
    refine ⟨rfl, rfl, ?_, by simp, by simp, fun _ _ => rfl, fun _ _ => rfl⟩
    have hv := (below_snd hIV p).mpr hb
    cases n <;> simp [elems, hv]
  induction n with
  | empty =>
    intro p S pb _ _
    cases hb : below Prod.snd I p with
    | nil => rw [← hb]; exact hnone _ _ _ hb
    | cons x xs =>
      have hv : below id V p ≠ [] := by rw [Ne, below_snd hIV p, hb]; simp
      refine ⟨_, rfl, ?_⟩
      have he : elems cs V p .empty = [] := by simp [elems, hv]
      rw [he, ← hb]
      exact fillEmpty_filled _ _ (below_fst_nodup hnd p) pb
  | leaf w c =>
    intro p S pb _ _
    cases hb : below Prod.snd I p with
    | nil => rw [← hb]; exact hnone _ _ _ hb
    | cons x xs =>
      have hv : below id V p ≠ [] := by rw [Ne, below_snd hIV p, hb]; simp
      refine ⟨_, rfl, ?_⟩
      have he : elems cs V p (.leaf w c) = [] := by simp [elems, hv]
      rw [he, ← hb]
      exact fillLeaf_filled _ _ _ _ (below_fst_nodup hnd p) pb
  | ext h i =>
    intro p S pb hrep _
    have := (below_snd hIV p).mp (hX _ _ _ hrep.2.1)
    exact hnone _ _ _ this
  | parent l r h i ihl ihr =>
    intro p S pb hrep hY
    cases hb : below Prod.snd I p with
    | nil => rw [← hb]; exact hnone _ _ _ hb
    | cons x xs =>
      have hv : below id V p ≠ [] := by rw [Ne, below_snd hIV p, hb]; simp
      have hwf := hrep.wf
      obtain ⟨Sl, Sr, rfl, h1, h2, h3, h4⟩ := hrep
      have hlt := hwf.lt (hY _ _ _ (List.prefix_refl _) h3)
      obtain ⟨pb1, hb1, f1⟩ := ihl (p ++ [false]) Sl pb h1
        (fun i q T hq => hY i q T ((List.prefix_append _ _).trans hq))
      obtain ⟨pb2, hb2, f2⟩ := ihr (p ++ [true]) Sr pb1 h2
        (fun i q T hq => hY i q T ((List.prefix_append _ _).trans hq))
      simp only [List.length_append, List.length_singleton] at hb1 hb2 f1 f2
      unfold build
      rw [← hb, splitBit_below hsort hlen p hlt]
      simp only [G.ok_bind]
      rw [hb1]
      simp only [G.ok_bind]
      rw [hb2]
      refine ⟨pb2, rfl, ?_⟩
      have he : elems cs V p (.parent l r h i) =
          elems cs V (p ++ [false]) l ++ elems cs V (p ++ [true]) r := by
        simp [elems, hv]
      have hsp := below_split hsort hlen p hlt
      have hndp := below_fst_nodup hnd p
      rw [hsp, List.map_append, List.nodup_append] at hndp
      have hd := hndp.2.2
      have hlk : ∀ u, look (.parent l r h i) p.length u =
          if bitAt u p.length then look r (p.length + 1) u else look l (p.length + 1) u := fun u => rfl
      rw [he, hsp]
      refine ⟨f2.lenR.trans f1.lenR, f2.lenC.trans f1.lenC, ?_, ?_, ?_, ?_, ?_⟩
      · rw [f2.elements, f1.elements, List.append_assoc]
      · intro j u hj hltj
        rw [hlk]
        rcases List.mem_append.mp hj with hj' | hj'
        · have hbit := (mem_below.mp hj').2.bit
          simp only at hbit
          rw [hbit, f2.outR j (by
            intro hc
            exact hd j (List.mem_map.mpr ⟨(j, u), hj', rfl⟩) j hc rfl)]
          simpa using f1.inR j u hj' hltj
        · have hbit := (mem_below.mp hj').2.bit
          simp only at hbit
          rw [hbit]
          simpa using f2.inR j u hj' (by rw [f1.lenR]; exact hltj)
      · intro j u hj hn
        rw [hlk]
        rcases List.mem_append.mp hj with hj' | hj'
        · have hbit := (mem_below.mp hj').2.bit
          simp only at hbit
          rw [hbit, f2.outC j (by
            intro hc
            exact hd j (List.mem_map.mpr ⟨(j, u), hj', rfl⟩) j hc rfl)]
          simpa using f1.inC j u hj' hn
        · have hbit := (mem_below.mp hj').2.bit
          simp only at hbit
          rw [hbit]
          have hn1 : pb1.commitments[j]? = some none := by
            rw [f1.outC j (by
              intro hc
              exact hd j hc j (List.mem_map.mpr ⟨(j, u), hj', rfl⟩) rfl)]
            exact hn
          simpa using f2.inC j u hj' hn1
      · intro j hj
        rw [List.map_append, List.mem_append, not_or] at hj
        rw [f2.outR j hj.2, f1.outR j hj.1]
      · intro j hj
        rw [List.map_append, List.mem_append, not_or] at hj
        rw [f2.outC j hj.2, f1.outC j hj.1]

theorem allSome_map {α : Type} (l : List α) : allSome (l.map some) = .ok l := by
  induction l with
  | nil => rfl
  | cons a l ih => simp [allSome, ih]

/-- The proof builder answers all requests in the order they were made. -/
theorem runProofBuilder_eq {V : List Bytes} (hlen : ∀ v ∈ V, v.length = cs.hashSize)
    (hX : ∀ i q T, X i q T → below id V q = []) {n : Node} {S : List Pair} (hrep : Rep cs X Y [] n S)
    (hY : ∀ i q T, Y i q T → 2 ≤ T.length) :
    runProofBuilder cs n V =
      .ok (⟨V.map (fun v => (look n 0 v).1), elems cs V [] n⟩, V.map (fun v => (look n 0 v).2)) := by
  have hperm := sortBy_perm (key := Prod.snd) ((List.range V.length).zip V)
  have hmem : ∀ i v, (i, v) ∈ sortBy Prod.snd ((List.range V.length).zip V) ↔ V[i]? = some v := by
    intro i v
    rw [hperm.mem_iff, List.mem_iff_getElem?]
    constructor
    · rintro ⟨k, hk⟩
      rw [List.getElem?_zip_eq_some] at hk
      obtain ⟨h1, h2⟩ := hk
      have hkl : k < V.length := by
        by_contra hc
        rw [List.getElem?_eq_none (by omega)] at h2; cases h2
      rw [List.getElem?_range hkl] at h1
      have hki : k = i := Option.some.inj h1
      rw [← hki]; exact h2
    · intro h
      have hil : i < V.length := by
        by_contra hc
        rw [List.getElem?_eq_none (by omega)] at h; cases h
      exact ⟨i, by rw [List.getElem?_zip_eq_some]; exact ⟨by rw [List.getElem?_range hil], h⟩⟩
  have hmapfst : ((List.range V.length).zip V).map Prod.fst = List.range V.length := by
    rw [List.map_fst_zip]; simp
  have hnd : ((sortBy Prod.snd ((List.range V.length).zip V)).map Prod.fst).Nodup := by
    rw [(hperm.map Prod.fst).nodup_iff, hmapfst]; exact List.nodup_range
  have hIV : ∀ v, v ∈ V ↔ ∃ i, (i, v) ∈ sortBy Prod.snd ((List.range V.length).zip V) := by
    intro v
    rw [List.mem_iff_getElem?]
    constructor
    · rintro ⟨i, h⟩; exact ⟨i, (hmem i v).mpr h⟩
    · rintro ⟨i, h⟩; exact ⟨i, (hmem i v).mp h⟩
  have hlenI : ∀ x ∈ sortBy Prod.snd ((List.range V.length).zip V), x.2.length = cs.hashSize := by
    rintro ⟨i, v⟩ hx
    exact hlen v ((hIV v).mpr ⟨i, hx⟩)
  obtain ⟨pb', hb, f⟩ := build_filled hIV (sortBy_sorted _) hlenI hnd hX n [] S
    ⟨List.replicate V.length none, List.replicate V.length none, []⟩ hrep (fun i q T _ => hY i q T)
  rw [below_root] at hb f
  unfold runProofBuilder
  simp only [List.length_nil] at hb f
  simp only
  rw [hb]
  simp only [G.ok_bind]
  have hR : pb'.results = (V.map (fun v => (look n 0 v).1)).map some := by
    apply List.ext_getElem?
    intro i
    by_cases hi : i < V.length
    · have := f.inR i V[i] ((hmem i _).mpr (List.getElem?_eq_getElem hi)) (by simpa using hi)
      rw [this]
      simp [hi]
    · rw [List.getElem?_eq_none (by rw [f.lenR]; simp; omega), List.getElem?_eq_none (by simp; omega)]
  have hC : pb'.commitments = V.map (fun v => (look n 0 v).2) := by
    apply List.ext_getElem?
    intro i
    by_cases hi : i < V.length
    · have := f.inC i V[i] ((hmem i _).mpr (List.getElem?_eq_getElem hi)) (by simp [hi])
      rw [this]
      simp [hi]
    · rw [List.getElem?_eq_none (by rw [f.lenC]; simp; omega), List.getElem?_eq_none (by simp; omega)]
  rw [hR, allSome_map]
  simp only [G.ok_bind, G.pure_eq, hC, f.elements, List.nil_append]

/-! ### Evaluation of an honest proof -/

/-- The skeleton of the searches `W`: unsearched subtrees are blank. -/
def prune (W : List Bytes) : List Bool → Node → Node
  | p, .parent l r _ _ =>
    if below id W p = [] then blank
    else .parent (prune W (p ++ [false]) l) (prune W (p ++ [true]) r) none none
  | p, n => if below id W p = [] then blank else n

/-- The skeleton with the copath filled in. -/
def pruned (cs : Suite) (W : List Bytes) : List Bool → Node → Node
  | p, .parent l r h i =>
    if below id W p = [] then .ext ((Node.parent l r h i).hash cs) ⟨0, 0⟩
    else .parent (pruned cs W (p ++ [false]) l) (pruned cs W (p ++ [true]) r) none none
  | p, n => if below id W p = [] then .ext (n.hash cs) ⟨0, 0⟩ else n

theorem prune_nil {W : List Bytes} {p : List Bool} (h : below id W p = []) (n : Node) :
    prune W p n = blank := by
  cases n <;> simp [prune, h]

theorem fill_prune {V : List Bytes} (hX : ∀ i q T, X i q T → below id V q = []) (n : Node) :
    ∀ (p : List Bool) (S : List Pair) (rest : List Bytes), Rep cs X Y p n S →
      fillInCopath (prune V p n) (elems cs V p n ++ rest) = .ok (pruned cs V p n, rest) := by
  induction n with
  | empty =>
    intro p S rest _
    by_cases h : below id V p = [] <;> simp [prune, elems, pruned, h, fillInCopath, blank]
  | leaf v c =>
    intro p S rest _
    by_cases h : below id V p = [] <;> simp [prune, elems, pruned, h, fillInCopath, blank]
  | ext hh i =>
    intro p S rest hrep
    have h := hX _ _ _ hrep.2.1
    simp [prune, elems, pruned, h, fillInCopath, blank]
  | parent l r hh i ihl ihr =>
    intro p S rest hrep
    obtain ⟨Sl, Sr, rfl, h1, h2, _, _⟩ := hrep
    by_cases h : below id V p = []
    · simp [prune, elems, pruned, h, fillInCopath, blank]
    · simp only [prune, elems, pruned, h, if_false, fillInCopath]
      rw [List.append_assoc, ihl _ _ _ h1]
      simp only [G.ok_bind]
      rw [ihr _ _ _ h2]
      rfl

/-- The filled skeleton represents the same entries, with everything unsearched behind a bare hash. -/
theorem pruned_rep {V : List Bytes} (hX : ∀ i q T, X i q T → below id V q = []) (n : Node) :
    ∀ (p : List Bool) (S : List Pair), Rep cs X Y p n S →
      (∀ i q T, p <+: q → Y i q T → 2 ≤ T.length) →
      Rep cs (fun _ q T => below id V q = [] ∧ ∃ m, Rep cs X Y q m T)
        (fun _ q T => 2 ≤ T.length ∧ below id V q ≠ []) p (pruned cs V p n) S := by
  induction n with
  | empty =>
    intro p S hrep hY
    by_cases h : below id V p = []
    · simp only [pruned, h, if_true]
      exact ⟨hrep.hash_eq hY, ⟨h, _, hrep⟩, hrep.wf⟩
    · simp only [pruned, h, if_false]; exact hrep
  | leaf v c =>
    intro p S hrep hY
    by_cases h : below id V p = []
    · simp only [pruned, h, if_true]
      exact ⟨hrep.hash_eq hY, ⟨h, _, hrep⟩, hrep.wf⟩
    · simp only [pruned, h, if_false]; exact hrep
  | ext hh i =>
    intro p S hrep hY
    have h := hX _ _ _ hrep.2.1
    simp only [pruned, h, if_true]
    exact ⟨hrep.1, ⟨h, _, hrep⟩, hrep.wf⟩
  | parent l r hh i ihl ihr =>
    intro p S hrep hY
    by_cases h : below id V p = []
    · simp only [pruned, h, if_true]
      exact ⟨hrep.hash_eq hY, ⟨h, _, hrep⟩, hrep.wf⟩
    · simp only [pruned, h, if_false]
      obtain ⟨Sl, Sr, rfl, h1, h2, h3, _⟩ := hrep
      exact ⟨Sl, Sr, rfl, ihl _ _ h1 (fun i q T hq => hY i q T ((List.prefix_append _ _).trans hq)),
        ihr _ _ h2 (fun i q T hq => hY i q T ((List.prefix_append _ _).trans hq)),
        ⟨hY _ _ _ (List.prefix_refl _) h3, h⟩, by simp⟩

theorem below_snoc_irrel {W : List Bytes} {v : Bytes} {q : List Bool} (h : ¬ On q v) :
    below id (W ++ [v]) q = below id W q := by
  unfold below
  rw [List.filter_append]
  have : ([v] : List Bytes).filter (fun a => decide (On q (id a))) = [] := by simp [h]
  rw [this, List.append_nil]

theorem below_snoc_on {W : List Bytes} {v : Bytes} {q : List Bool} (h : On q v) :
    below id (W ++ [v]) q ≠ [] := by
  intro hc
  have : v ∈ below id (W ++ [v]) q := mem_below.mpr ⟨by simp, h⟩
  rw [hc] at this; cases this

theorem prune_irrel {W : List Bytes} {v : Bytes} (n : Node) : ∀ q : List Bool, ¬ On q v →
    prune (W ++ [v]) q n = prune W q n := by
  induction n with
  | parent l r h i ihl ihr =>
    intro q hq
    simp only [prune]
    rw [below_snoc_irrel hq, ihl _ (fun hc => hq hc.up), ihr _ (fun hc => hq hc.up)]
  | empty => intro q hq; simp only [prune]; rw [below_snoc_irrel hq]
  | leaf v c => intro q hq; simp only [prune]; rw [below_snoc_irrel hq]
  | ext h i => intro q hq; simp only [prune]; rw [below_snoc_irrel hq]

/-- Adding one honest result extends the skeleton by that search. -/
theorem addToSkeleton_prune (e : Entry) (W : List Bytes) (hlen : e.vrf.length = cs.hashSize)
    (hX : ∀ i q T, X i q T → ¬ On q e.vrf) (n : Node) : ∀ (p : List Bool) (S : List Pair) (fuel : Nat),
    Rep cs X Y p n S → (∀ i q T, p <+: q → Y i q T → 2 ≤ T.length) → On p e.vrf →
    (∀ c, (look n p.length e.vrf).2 = some c → e.com = c) →
    2 * ((look n p.length e.vrf).1.depth - p.length) + 2 ≤ fuel →
    addToSkeletonAux e (look n p.length e.vrf).1 fuel (prune W p n) p.length =
      .ok (prune (W ++ [e.vrf]) p n) := by
  induction n with
  | ext h i => intro p S fuel hrep _ hon; exact absurd hon (hX _ _ _ hrep.2.1)
  | empty =>
    intro p S fuel hrep _ hon _ hf
    obtain ⟨f, rfl⟩ : ∃ f, fuel = f + 1 := ⟨fuel - 1, by omega⟩
    by_cases h : below id W p = []
    · simp [prune, h, below_snoc_on hon, addToSkeletonAux, look, Res.depth, blank, terminalNode]
    · simp [prune, h, below_snoc_on hon, addToSkeletonAux, look, Res.depth, Res.isInclusion]
  | leaf v c =>
    intro p S fuel hrep _ hon hcom hf
    obtain ⟨f, rfl⟩ : ∃ f, fuel = f + 1 := ⟨fuel - 1, by omega⟩
    by_cases hv : e.vrf = v
    · have hc : e.com = c := hcom c (by simp [look, hv])
      have hne := below_snoc_on (W := W) hon
      rw [hv] at hne
      by_cases h : below id W p = []
      · simp [prune, h, hne, addToSkeletonAux, look, Res.depth, blank, terminalNode, hv, hc]
      · simp [prune, h, hne, addToSkeletonAux, look, Res.depth, Res.isInclusion, hv]
    · by_cases h : below id W p = []
      · simp [prune, h, below_snoc_on hon, addToSkeletonAux, look, Res.depth, blank, terminalNode, hv]
      · simp [prune, h, below_snoc_on hon, addToSkeletonAux, look, Res.depth, Res.isInclusion, hv]
  | parent l r hh i ihl ihr =>
    intro p S fuel hrep hY hon hcom hf
    have hwf := hrep.wf
    obtain ⟨Sl, Sr, rfl, h1, h2, h3, h4⟩ := hrep
    have hlt := hwf.lt (hY _ _ _ (List.prefix_refl _) h3)
    have hst := hon.step (by rw [hlen]; exact hlt)
    have hgb : getBit e.vrf p.length = .ok (bitAt e.vrf p.length) := getBit_eq _ _ (by rw [hlen]; exact hlt)
    have hres : prune (W ++ [e.vrf]) p (.parent l r hh i) =
        .parent (prune (W ++ [e.vrf]) (p ++ [false]) l) (prune (W ++ [e.vrf]) (p ++ [true]) r) none none := by
      simp only [prune, below_snoc_on hon, if_false]
    -- the step at a parent
    have key : ∀ f, 2 * ((look (.parent l r hh i) p.length e.vrf).1.depth - p.length) + 1 ≤ f →
        addToSkeletonAux e (look (.parent l r hh i) p.length e.vrf).1 f
          (.parent (prune W (p ++ [false]) l) (prune W (p ++ [true]) r) none none) p.length =
        .ok (prune (W ++ [e.vrf]) p (.parent l r hh i)) := by
      intro f hf'
      obtain ⟨g, rfl⟩ : ∃ g, f = g + 1 := ⟨f - 1, by omega⟩
      unfold addToSkeletonAux
      simp only [hgb, G.ok_bind]
      cases hb : bitAt e.vrf p.length with
      | true =>
        rw [hb] at hst
        have hlk : look (.parent l r hh i) p.length e.vrf = look r (p ++ [true]).length e.vrf := by
          simp [look, hb]
        have hd := look_depth r (p ++ [true]).length e.vrf
        rw [hlk] at hf' hcom ⊢
        simp only [List.length_append, List.length_singleton] at hf' hd
        have := ihr (p ++ [true]) Sr g h2 (fun i q T hq => hY i q T ((List.prefix_append _ _).trans hq)) hst
          hcom (by simp only [List.length_append, List.length_singleton]; omega)
        have e2 : p.length + 1 = (p ++ [true]).length := by simp
        simp only [if_true]
        rw [e2, this]
        simp only [G.ok_bind, G.pure_eq]
        rw [hres, prune_irrel l (p ++ [false]) (by intro hc; have := hc.bit; rw [hb] at this; cases this)]
      | false =>
        rw [hb] at hst
        have hlk : look (.parent l r hh i) p.length e.vrf = look l (p ++ [false]).length e.vrf := by
          simp [look, hb]
        have hd := look_depth l (p ++ [false]).length e.vrf
        rw [hlk] at hf' hcom ⊢
        simp only [List.length_append, List.length_singleton] at hf' hd
        have := ihl (p ++ [false]) Sl g h1 (fun i q T hq => hY i q T ((List.prefix_append _ _).trans hq)) hst
          hcom (by simp only [List.length_append, List.length_singleton]; omega)
        have e2 : p.length + 1 = (p ++ [false]).length := by simp
        simp only [Bool.false_eq_true, if_false]
        rw [e2, this]
        simp only [G.ok_bind, G.pure_eq]
        rw [hres, prune_irrel r (p ++ [true]) (by intro hc; have := hc.bit; rw [hb] at this; cases this)]
    by_cases h : below id W p = []
    · have hdep : p.length + 1 ≤ (look (.parent l r hh i) p.length e.vrf).1.depth := by
        unfold look
        split
        · exact look_depth _ _ _
        · exact look_depth _ _ _
      obtain ⟨f, rfl⟩ : ∃ f, fuel = f + 1 := ⟨fuel - 1, by omega⟩
      have hp : prune W p (.parent l r hh i) = blank := prune_nil h _
      have hk := key f (by omega)
      rw [prune_nil (below_nil_of_prefix (List.prefix_append _ _) h),
        prune_nil (below_nil_of_prefix (List.prefix_append _ _) h)] at hk
      rw [hp]
      unfold addToSkeletonAux
      simp only [blank]
      rw [if_neg (by omega), if_neg (by omega)]
      exact hk
    · have hp : prune W p (.parent l r hh i) =
          .parent (prune W (p ++ [false]) l) (prune W (p ++ [true]) r) none none := by
        simp only [prune, h, if_false]
      rw [hp]
      exact key fuel (by omega)

theorem addAll_prune {n : Node} {S : List Pair} (hrep : Rep cs X Y [] n S)
    (hY : ∀ i q T, Y i q T → 2 ≤ T.length) (es : List Entry) : ∀ W : List Bytes,
    (∀ e ∈ es, e.vrf.length = cs.hashSize) → (∀ e ∈ es, ∀ i q T, X i q T → ¬ On q e.vrf) →
    (∀ e ∈ es, ∀ c, (look n 0 e.vrf).2 = some c → e.com = c) →
    addAll (prune W [] n) es (es.map (fun e => (look n 0 e.vrf).1)) =
      .ok (prune (W ++ es.map Entry.vrf) [] n) := by
  induction es with
  | nil => intro W _ _ _; simp [addAll]
  | cons e es ih =>
    intro W hlen hX hcom
    simp only [List.map_cons, addAll]
    have := addToSkeleton_prune (cs := cs) (X := X) (Y := Y) e W (hlen e (by simp)) (hX e (by simp)) n [] S
      (2 * (look n 0 e.vrf).1.depth + 2 * (prune W [] n).size + 2) hrep (fun i q T _ => hY i q T)
      (on_nil _) (hcom e (by simp)) (by simp)
    unfold addToSkeleton
    simp only [List.length_nil] at this
    rw [this]
    simp only [G.ok_bind]
    rw [ih (W ++ [e.vrf]) (fun x hx => hlen x (by simp [hx])) (fun x hx => hX x (by simp [hx]))
      (fun x hx => hcom x (by simp [hx]))]
    simp

/-! ### The checks on entries -/

theorem checkEntries_iff (cs : Suite) (a : Bool) (dup : String) (l : List Entry) : ∀ prev : Option Bytes,
    Sorted Entry.vrf l → (∀ w, prev = some w → ∀ e ∈ l, bytesLt e.vrf w = false) →
    (checkEntries cs a dup prev l = .ok () ↔
      (∀ e ∈ l, e.vrf.length = cs.hashSize ∧ ((a = true ∧ e.com = []) ∨ e.com.length = cs.hashSize)) ∧
      (l.map Entry.vrf).Nodup ∧ (∀ w, prev = some w → w ∉ l.map Entry.vrf)) := by
  induction l with
  | nil => intro prev _ _; simp [checkEntries]
  | cons e l ih =>
    intro prev hs hprev
    have hs' := List.pairwise_cons.mp hs
    unfold checkEntries
    by_cases h1 : e.vrf.length ≠ cs.hashSize
    · rw [if_pos h1]
      constructor
      · intro h; simp at h
      · intro h; exact absurd (h.1 e (by simp)).1 h1
    rw [if_neg h1]
    simp only [ne_eq, not_not] at h1
    by_cases h2 : ¬ (a = true ∧ e.com = []) ∧ e.com.length ≠ cs.hashSize
    · rw [if_pos h2]
      constructor
      · intro h; simp at h
      · intro h
        rcases (h.1 e (by simp)).2 with h' | h'
        · exact absurd h' h2.1
        · exact absurd h' h2.2
    rw [if_neg h2]
    by_cases h3 : prev = some e.vrf
    · rw [if_pos h3]
      constructor
      · intro h; simp at h
      · intro h; exact absurd (by simp : e.vrf ∈ (e :: l).map Entry.vrf) (h.2.2 _ h3)
    rw [if_neg h3, ih (some e.vrf) hs'.2 (by intro w hw x hx; rw [← Option.some.inj hw]; exact hs'.1 x hx)]
    have hc : (a = true ∧ e.com = []) ∨ e.com.length = cs.hashSize := by
      by_contra hc
      rw [not_or] at hc
      exact h2 hc
    constructor
    · rintro ⟨g1, g2, g3⟩
      refine ⟨?_, ?_, ?_⟩
      · intro x hx
        rcases List.mem_cons.mp hx with rfl | hx
        · exact ⟨h1, hc⟩
        · exact g1 x hx
      · simp only [List.map_cons, List.nodup_cons]
        exact ⟨g3 _ rfl, g2⟩
      · intro w hw hin
        simp only [List.map_cons, List.mem_cons] at hin
        rcases hin with rfl | hin
        · exact h3 hw
        · -- w is at most e.vrf, and e.vrf at most any later one
          obtain ⟨x, hx, rfl⟩ := List.mem_map.mp hin
          have a1 := hprev _ hw e (by simp)
          have a2 := hs'.1 x hx
          exact h3 (by rw [hw, bytesLt_total a2 a1])
    · rintro ⟨g1, g2, g3⟩
      simp only [List.map_cons, List.nodup_cons] at g2
      refine ⟨fun x hx => g1 x (by simp [hx]), g2.2, ?_⟩
      intro w hw
      rw [← Option.some.inj hw]; exact g2.1

theorem checkEntries_ok (cs : Suite) (a : Bool) (dup : String) (l : List Entry) :
    checkEntries cs a dup none (sortBy Entry.vrf l) = .ok () ↔
      (∀ e ∈ l, e.vrf.length = cs.hashSize ∧ ((a = true ∧ e.com = []) ∨ e.com.length = cs.hashSize)) ∧
      (l.map Entry.vrf).Nodup := by
  rw [checkEntries_iff cs a dup _ none (sortBy_sorted _) (by simp),
    ((sortBy_perm (key := Entry.vrf) l).map Entry.vrf).nodup_iff]
  constructor
  · rintro ⟨h1, h2, _⟩
    exact ⟨fun e he => h1 e ((sortBy_perm l).mem_iff.mpr he), h2⟩
  · rintro ⟨h1, h2⟩
    exact ⟨fun e he => h1 e ((sortBy_perm l).mem_iff.mp he), h2, by simp⟩

theorem checkRemoves_iff (cs : Suite) (l : List Bytes) : ∀ prev : Option Bytes,
    Sorted id l → (∀ w, prev = some w → ∀ e ∈ l, bytesLt e w = false) →
    (checkRemoves cs prev l = .ok () ↔
      (∀ e ∈ l, e.length = cs.hashSize) ∧ l.Nodup ∧ (∀ w, prev = some w → w ∉ l)) := by
  induction l with
  | nil => intro prev _ _; simp [checkRemoves]
  | cons e l ih =>
    intro prev hs hprev
    have hs' := List.pairwise_cons.mp hs
    unfold checkRemoves
    by_cases h1 : e.length ≠ cs.hashSize
    · rw [if_pos h1]
      constructor
      · intro h; simp at h
      · intro h; exact absurd (h.1 e (by simp)) h1
    rw [if_neg h1]
    simp only [ne_eq, not_not] at h1
    by_cases h3 : prev = some e
    · rw [if_pos h3]
      constructor
      · intro h; simp at h
      · intro h; exact absurd (by simp : e ∈ e :: l) (h.2.2 _ h3)
    rw [if_neg h3, ih (some e) hs'.2 (by intro w hw x hx; rw [← Option.some.inj hw]; exact hs'.1 x hx)]
    constructor
    · rintro ⟨g1, g2, g3⟩
      refine ⟨?_, ?_, ?_⟩
      · intro x hx
        rcases List.mem_cons.mp hx with rfl | hx
        · exact h1
        · exact g1 x hx
      · simp only [List.nodup_cons]
        exact ⟨g3 _ rfl, g2⟩
      · intro w hw hin
        simp only [List.mem_cons] at hin
        rcases hin with rfl | hin
        · exact h3 hw
        · have a1 := hprev _ hw e (by simp)
          have a2 : bytesLt w e = false := hs'.1 w hin
          exact h3 (by rw [hw, bytesLt_total a2 a1])
    · rintro ⟨g1, g2, g3⟩
      simp only [List.nodup_cons] at g2
      refine ⟨fun x hx => g1 x (by simp [hx]), g2.2, ?_⟩
      intro w hw
      rw [← Option.some.inj hw]; exact g2.1

theorem checkRemoves_ok (cs : Suite) (l : List Bytes) :
    checkRemoves cs none (sortBy id l) = .ok () ↔ (∀ e ∈ l, e.length = cs.hashSize) ∧ l.Nodup := by
  rw [checkRemoves_iff cs _ none (sortBy_sorted _) (by simp), (sortBy_perm (key := id) l).nodup_iff]
  constructor
  · rintro ⟨h1, h2, _⟩
    exact ⟨fun e he => h1 e ((sortBy_perm l).mem_iff.mpr he), h2⟩
  · rintro ⟨h1, h2⟩
    exact ⟨fun e he => h1 e ((sortBy_perm l).mem_iff.mp he), h2, by simp⟩

/-- Evaluating the honest answers gives the skeleton of the tree. -/
theorem evaluate_honest {n : Node} {S : List Pair} (hrep : Rep cs X Y [] n S)
    (hY : ∀ i q T, Y i q T → 2 ≤ T.length) (es : List Entry)
    (hX : ∀ i q T, X i q T → below id (es.map Entry.vrf) q = [])
    (hlen : ∀ e ∈ es, e.vrf.length = cs.hashSize ∧ (e.com = [] ∨ e.com.length = cs.hashSize))
    (hnd : (es.map Entry.vrf).Nodup)
    (hcom : ∀ e ∈ es, ∀ c, (look n 0 e.vrf).2 = some c → e.com = c) :
    evaluate cs es ⟨es.map (fun e => (look n 0 e.vrf).1), elems cs (es.map Entry.vrf) [] n⟩ =
      .ok (pruned cs (es.map Entry.vrf) [] n) := by
  unfold evaluate
  have hchk := (checkEntries_ok cs true "same vrf output present multiple times" es).mpr
    ⟨fun e he => ⟨(hlen e he).1, by
      rcases (hlen e he).2 with h | h
      · exact Or.inl ⟨rfl, h⟩
      · exact Or.inr h⟩, hnd⟩
  rw [hchk]
  simp only [G.ok_bind, List.length_map, ne_eq, not_true_eq_false, if_false]
  have hX' : ∀ e ∈ es, ∀ i q T, X i q T → ¬ On q e.vrf := by
    intro e he i q T hx hon
    have : e.vrf ∈ below id (es.map Entry.vrf) q := mem_below.mpr ⟨List.mem_map.mpr ⟨e, he, rfl⟩, hon⟩
    rw [hX i q T hx] at this; cases this
  have ha := addAll_prune hrep hY es [] (fun e he => (hlen e he).1) hX' hcom
  rw [prune_nil rfl, List.nil_append] at ha
  rw [ha]
  simp only [G.ok_bind]
  have hf := fill_prune hX n [] S [] hrep
  rw [List.append_nil] at hf
  rw [hf]
  simp

end Katie.Prefix
