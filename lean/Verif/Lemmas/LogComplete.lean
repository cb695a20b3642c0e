import Verif.Lemmas.LogEval

/-
Honest proofs evaluate to the heads of the log.
-/

namespace Katie.Log
open Katie Katie.LogMath Katie.LogSpec

/-- `v` is the true value of the complete subtree numbered `y` -/
def True' (H : Bytes → Bytes) (L : List Bytes) (y : Nat) (v : NodeData) : Prop :=
  ∃ lo s, Sub L.length lo s ∧ s = 2 ^ ht s ∧ nd lo s = y ∧ v = toND (blk H L lo s)

/-- every entry of the map is the true value of a complete subtree -/
def Honest (H : Bytes → Bytes) (L : List Bytes) (M : NMap) : Prop :=
  ∀ y v, M.lookup y = some v → True' H L y v

theorem toND_leaf {H : Bytes → Bytes} {L : List Bytes} {lo s : Nat} (h : Sub L.length lo s) :
    (⟨isLeaf (nd lo s), (blk H L lo s).value⟩ : NodeData) = toND (blk H L lo s) := by
  unfold toND; rw [isLeaf_nd, blk_leaf H h.pos h.le]

theorem lookup_cons {M : NMap} {x y : Nat} {v : NodeData} :
    List.lookup y ((x, v) :: M) = if y = x then some v else M.lookup y := by
  rw [List.lookup_cons]
  by_cases h : y = x
  · subst h; simp
  · have : (y == x) = false := by simpa using h
    rw [this, if_neg h]

theorem lookup_ne_none {M : NMap} {y : Nat} : M.lookup y ≠ none ↔ y ∈ M.map Prod.fst := by
  induction M with
  | nil => simp
  | cons p M ih =>
    obtain ⟨x, v⟩ := p
    rw [lookup_cons]
    by_cases h : y = x
    · simp [h]
    · rw [if_neg h, ih]; simp [h]

variable {cs : Suite} {L : List Bytes}

theorem addToMap_honest (hcs : cs.Good) (hL : ∀ v ∈ L, v.length = cs.hashSize) {M : NMap} (hM : Honest cs.H L M)
    {y : Nat} {v : NodeData} (hv : True' cs.H L y v) :
    ∃ M', addToMap cs M y v.value = .ok M' ∧ Honest cs.H L M' ∧ M'.lookup y = some v ∧
      (∀ z w, M.lookup z = some w → M'.lookup z = some w) ∧
      (∀ z, M'.lookup z ≠ none ↔ z = y ∨ M.lookup z ≠ none) := by
  obtain ⟨lo, s, h, hf, rfl, rfl⟩ := hv
  unfold addToMap
  rw [if_neg (by simp [toND, blk_len hcs hL h.pos h.le])]
  cases hm : M.lookup (nd lo s) with
  | some w =>
    obtain ⟨lo', s', h', hf', e, rfl⟩ := hM _ _ hm
    obtain ⟨rfl, rfl⟩ := h'.unique h e
    simp only [ne_eq, not_true, if_false]
    refine ⟨M, rfl, hM, hm, fun _ _ h => h, ?_⟩
    intro z
    constructor
    · exact Or.inr
    · rintro (rfl | h)
      · rw [hm]; simp
      · exact h
  | none =>
    have e : (⟨isLeaf (nd lo s), (toND (blk cs.H L lo s)).value⟩ : NodeData) = toND (blk cs.H L lo s) :=
      toND_leaf h
    simp only [e]
    refine ⟨_, rfl, ?_, ?_, ?_, ?_⟩
    · intro z w hz
      rw [lookup_cons] at hz
      split at hz
      · rename_i hz'; subst hz'; cases hz; exact ⟨lo, s, h, hf, rfl, rfl⟩
      · exact hM z w hz
    · rw [lookup_cons, if_pos rfl]
    · intro z w hz
      rw [lookup_cons, if_neg]
      · exact hz
      · rintro rfl; rw [hm] at hz; cases hz
    · intro z
      rw [lookup_cons]
      by_cases hz : z = nd lo s
      · simp [hz]
      · simp [hz]

theorem addAll_honest (hcs : cs.Good) (hL : ∀ v ∈ L, v.length = cs.hashSize) : ∀ (kvs : List (Nat × Bytes)) (M : NMap),
    Honest cs.H L M → (∀ p ∈ kvs, ∃ v, True' cs.H L p.1 v ∧ v.value = p.2) →
    ∃ M', addAll cs M kvs = .ok M' ∧ Honest cs.H L M' ∧
      (∀ z, M'.lookup z ≠ none ↔ z ∈ kvs.map Prod.fst ∨ M.lookup z ≠ none) := by
  intro kvs
  induction kvs with
  | nil => intro M hM _; exact ⟨M, rfl, hM, by simp⟩
  | cons p kvs ih =>
    intro M hM hk
    obtain ⟨x, b⟩ := p
    obtain ⟨v, hv, rfl⟩ := hk (x, b) (by simp)
    obtain ⟨M1, e1, h1, _, _, k1⟩ := addToMap_honest hcs hL hM hv
    obtain ⟨M2, e2, h2, k2⟩ := ih M1 h1 (fun q hq => hk q (by simp [hq]))
    refine ⟨M2, ?_, h2, ?_⟩
    · unfold addAll; rw [e1, G.ok_bind, e2]
    · intro z
      rw [k2, k1, List.map_cons, List.mem_cons]
      tauto

theorem seg_ne_of_node {S : Nat → Prop} {lo s : Nat} (hs : 2 ≤ s) (hc : Cov S lo (half s))
    {seg : List Nat} (hseg : ∀ y, y ∈ seg ↔ S y ∧ InR lo s y) : seg ≠ [nd lo s] := by
  intro e
  obtain ⟨y, hy, hS⟩ := hc.nonempty (half_pos s)
  have hy' := (inR_left hs).mp hy
  have := (hseg y).mpr ⟨hS, hy'.1⟩
  rw [e, List.mem_singleton] at this
  omega

/-- Evaluation of a map of true values that determines the subtree. -/
theorem evaluateAux_ok (hcs : cs.Good) (hL : ∀ v ∈ L, v.length = cs.hashSize) {S : Nat → Prop}
    (hS : AllFull L.length S) {lo s : Nat} (hc : Cov S lo s) :
    ∀ (fuel : Nat) (M : NMap) (seg : List Nat), Sub L.length lo s → s ≤ fuel → seg.Pairwise (· < ·) →
    (∀ y, y ∈ seg ↔ S y ∧ InR lo s y) → Honest cs.H L M → (∀ y, InR lo s y → S y → M.lookup y ≠ none) →
    ∃ M', evaluateAux cs fuel (nd lo s) L.length M seg = .ok M' ∧ Honest cs.H L M' ∧
      (∀ z w, M.lookup z = some w → M'.lookup z = some w) ∧
      (∀ lo' s', Sub L.length lo' s' → s' = 2 ^ ht s' → InR lo s (nd lo' s') → (∃ y, S y ∧ InR lo' s' y) →
        M'.lookup (nd lo' s') ≠ none) := by
  induction hc with
  | @term lo s h1 h2 =>
    intro fuel M seg h hf hsort hseg hM hin
    obtain ⟨f, rfl⟩ : ∃ f, fuel = f + 1 := ⟨fuel - 1, by have := h.pos; omega⟩
    have hseg1 : seg = [nd lo s] := by
      have hx : nd lo s ∈ seg := (hseg _).mpr ⟨h1, nd_inR h.pos⟩
      have hall : ∀ y ∈ seg, y = nd lo s := fun y hy => h2 y ((hseg y).mp hy).2 ((hseg y).mp hy).1
      match seg, hsort, hx, hall with
      | [a], _, _, hall => rw [hall a (by simp)]
      | a :: b :: l, hsort, _, hall =>
        rw [List.pairwise_cons] at hsort
        have := hsort.1 b (by simp)
        have := hall a (by simp)
        have := hall b (by simp)
        omega
    unfold evaluateAux
    rw [if_pos hseg1]
    refine ⟨M, rfl, hM, fun _ _ h => h, ?_⟩
    rintro lo' s' hs' hf' hr ⟨y, hy, hyr⟩
    have hn := h.nested hs' hr
    have hyx := h2 y (inR_mono hn hyr) hy
    subst hyx
    have hn' := hs'.nested h hyr
    obtain rfl : lo = lo' := by omega
    obtain rfl : s = s' := by omega
    exact hin _ (nd_inR h.pos) hy
  | @node lo s hs hcl hcr ih1 ih2 =>
    intro fuel M seg h hf hsort hseg hM hin
    obtain ⟨f, rfl⟩ : ∃ f, fuel = f + 1 := ⟨fuel - 1, by have := h.pos; omega⟩
    have hl := half_lt hs
    have hp := half_pos s
    unfold evaluateAux
    rw [if_neg (seg_ne_of_node hs hcl hseg)]
    simp only [take_bs hsort, drop_bs hsort]
    rw [left_nd h hs, G.ok_bind, right_nd h hs, G.ok_bind]
    obtain ⟨M1, e1, a1, b1, c1⟩ := ih1 f M (seg.filter (· < nd lo s)) (h.left hs) (by omega) (hsort.filter _)
      (by
        intro y
        simp only [List.mem_filter, decide_eq_true_eq, hseg, inR_left hs]; tauto) hM
      (fun y hy => hin y ((inR_left hs).mp hy).1)
    obtain ⟨M2, e2, a2, b2, c2⟩ := ih2 f M1 (seg.filter (nd lo s < ·)) (h.right hs) (by omega) (hsort.filter _)
      (by
        intro y
        simp only [List.mem_filter, decide_eq_true_eq, hseg, inR_right hs]; tauto) a1
      (by
        intro y hy hSy hnone
        have := hin y ((inR_right hs).mp hy).1 hSy
        obtain ⟨w, hw⟩ := Option.ne_none_iff_exists'.mp this
        rw [b1 y w hw] at hnone
        cases hnone)
    rw [e1, G.ok_bind, e2, G.ok_bind]
    -- presence below
    have pres : ∀ lo' s', Sub L.length lo' s' → s' = 2 ^ ht s' → InR lo s (nd lo' s') → nd lo' s' ≠ nd lo s →
        (∃ y, S y ∧ InR lo' s' y) → M2.lookup (nd lo' s') ≠ none := by
      intro lo' s' hs' hf' hr hne hy
      rcases Nat.lt_or_gt_of_ne hne with hlt | hgt
      · have := c1 lo' s' hs' hf' ((inR_left hs).mpr ⟨hr, hlt⟩) hy
        obtain ⟨w, hw⟩ := Option.ne_none_iff_exists'.mp this
        rw [b2 _ w hw]; simp
      · exact c2 lo' s' hs' hf' ((inR_right hs).mpr ⟨hr, hgt⟩) hy
    by_cases hfull : s = 2 ^ ht s
    · rw [if_pos ((isFull_nd h).mpr hfull)]
      have hL1 : half s = 2 ^ ht (half s) := by rw [half_eq hs, ht_two_pow]
      have hR1 : s - half s = half s := by have := (full_iff hs).mp hfull; omega
      have hR2 : s - half s = 2 ^ ht (s - half s) := by rw [hR1]; exact hL1
      obtain ⟨y1, r1, s1⟩ := hcl.nonempty hp
      obtain ⟨y2, r2, s2⟩ := hcr.nonempty (by omega)
      have n1 := (inR_left hs).mp (nd_inR (lo := lo) hp)
      have n2 := (inR_right hs).mp (nd_inR (lo := lo + half s) (s := s - half s) (by omega))
      have p1 := pres lo (half s) (h.left hs) hL1 n1.1 (by omega) ⟨y1, s1, r1⟩
      have p2 := pres (lo + half s) (s - half s) (h.right hs) hR2 n2.1 (by omega) ⟨y2, s2, r2⟩
      obtain ⟨w1, hw1⟩ := Option.ne_none_iff_exists'.mp p1
      obtain ⟨w2, hw2⟩ := Option.ne_none_iff_exists'.mp p2
      obtain ⟨lo1, s1', q1, _, u1, v1⟩ := a2 _ _ hw1
      obtain ⟨t1, t2⟩ := q1.unique (h.left hs) u1
      rw [t1, t2] at v1
      obtain ⟨lo2, s2', q2, _, u2, v2⟩ := a2 _ _ hw2
      obtain ⟨t1, t2⟩ := q2.unique (h.right hs) u2
      rw [t1, t2] at v2
      simp only [nodeAt, hw1, hw2, G.pure_eq, G.ok_bind]
      rw [v1, v2, treeHash_blk hcs hL hs h.le, G.ok_bind]
      obtain ⟨M3, e3, a3, b3, c3, d3⟩ := addToMap_honest hcs hL a2 (y := nd lo s) ⟨lo, s, h, hfull, rfl, rfl⟩
      refine ⟨M3, e3, a3, fun z w hz => c3 z w (b2 z w (b1 z w hz)), ?_⟩
      intro lo' s' hs' hf' hr hy
      rw [d3]
      by_cases hne : nd lo' s' = nd lo s
      · exact Or.inl hne
      · exact Or.inr (pres lo' s' hs' hf' hr hne hy)
    · rw [if_neg (by rw [isFull_nd h]; exact hfull)]
      refine ⟨M2, rfl, a2, fun z w hz => b2 z w (b1 z w hz), ?_⟩
      intro lo' s' hs' hf' hr hy
      by_cases hne : nd lo' s' = nd lo s
      · obtain ⟨rfl, rfl⟩ := hs'.unique h hne
        exact absurd hf' hfull
      · exact pres lo' s' hs' hf' hr hne hy

/-- every maximal complete subtree contains a node of a covering set -/
theorem cov_fs_nonempty {n : Nat} {S : Nat → Prop} (hS : AllFull n S) {lo s : Nat} (hc : Cov S lo s) :
    Sub n lo s → ∀ p ∈ fsList lo s, ∃ y, S y ∧ InR p.1 p.2 y := by
  induction hc with
  | @term lo s h1 h2 =>
    intro h p hp
    obtain ⟨lo', s', q, hf, e⟩ := hS _ h1
    obtain ⟨rfl, rfl⟩ := q.unique h e
    rw [fsList_full hf, List.mem_singleton] at hp
    subst hp
    exact ⟨_, h1, nd_inR h.pos⟩
  | @node lo s hs hcl hcr ih1 ih2 =>
    intro h p hp
    by_cases hf : s = 2 ^ ht s
    · rw [fsList_full hf, List.mem_singleton] at hp
      subst hp
      obtain ⟨y, hy, hSy⟩ := hcl.nonempty (half_pos s)
      exact ⟨y, hSy, ((inR_left hs).mp hy).1⟩
    · rw [fsList_part hs hf] at hp
      rcases List.mem_cons.mp hp with rfl | hp
      · obtain ⟨y, hy, hSy⟩ := hcl.nonempty (half_pos s)
        exact ⟨y, hSy, hy⟩
      · exact ih2 (h.right hs) p hp

theorem mapM_nodeAt {M : NMap} : ∀ (fs : List (Nat × Nat)) (f : Nat × Nat → NodeData),
    (∀ p ∈ fs, M.lookup (nd p.1 p.2) = some (f p)) →
    (fs.map fun p => nd p.1 p.2).mapM (fun x => do let d ← nodeAt M x; pure d.value) =
      (.ok (fs.map fun p => (f p).value) : G (List Bytes)) := by
  intro fs f
  induction fs with
  | nil => intro _; rfl
  | cons p fs ih =>
    intro h
    rw [List.map_cons, List.mapM_cons, ih (fun q hq => h q (by simp [hq]))]
    simp only [nodeAt, h p (by simp), G.pure_eq, G.ok_bind, List.map_cons]

/-- The hash of a node, for honest producers: value of the complete subtree numbered `x`. -/
def trueAt (H : Bytes → Bytes) (L : List Bytes) (x : Nat) : Bytes :=
  (blk H L (x + 1 - 2 ^ level x |> (· / 2)) (2 ^ level x)).value

theorem trueAt_nd {H : Bytes → Bytes} {L : List Bytes} {n lo s : Nat} (h : Sub n lo s) (hf : s = 2 ^ ht s) :
    trueAt H L (nd lo s) = (blk H L lo s).value := by
  obtain ⟨i, hi, e⟩ := h.idx
  unfold trueAt
  rw [level_nd h, ← hf]
  have : (nd lo s + 1 - s) / 2 = lo := by
    rw [e, idx, ← hf, pow_succ, ← hf]
    have h1 := h.pos
    rw [hi, ← hf]
    have : s * 2 * i + (s - 1) + 1 - s = 2 * (s * i) := by
      have : s * 2 * i = 2 * (s * i) := by ring
      omega
    rw [this]; simp
  simp only [this]

/-- what `Retain` yields for the heads of the first `k` leaves -/
def honestVerifier (H : Bytes → Bytes) (L : List Bytes) : Option Nat → Verifier
  | none => ⟨none, [], []⟩
  | some k => ⟨some k, (fsList 0 k).map (fun p => nd p.1 p.2), heads H (L.take k)⟩

/-- Completeness of `Evaluate`. -/
theorem evaluate_complete (hcs : cs.Good) (hL : ∀ v ∈ L, v.length = cs.hashSize) (h0 : 0 < L.length)
    (hmax : L.length ≤ maxTreeSize) {entries : List Nat} (he : ∀ x ∈ entries, x < L.length)
    {nP m : Option Nat} (hnP : ∀ k, nP = some k → 0 < k ∧ k ≤ L.length) (hm : ∀ k, m = some k → 0 < k ∧ k ≤ L.length) :
    ∃ cop res, batchCopath entries L.length nP m = .ok cop ∧
      (∀ y ∈ cop, ∃ lo s, Sub L.length lo s ∧ s = 2 ^ ht s ∧ nd lo s = y) ∧
      evaluate cs (honestVerifier cs.H L m) entries L.length nP (entries.map fun x => L.getD x []) (cop.map (trueAt cs.H L)) = .ok res ∧
      res.fullSubtrees = heads cs.H L ∧
      (∀ k, nP = some k → res.additional = heads cs.H (L.take k)) := by
  obtain ⟨cop, ec, c1, c2, c3, c4⟩ := batchCopath_spec h0 he hnP hm
  have hvprev : (honestVerifier cs.H L m).prev = m := by cases m <;> rfl
  -- the three groups of values
  obtain ⟨M1, e1, a1, k1⟩ := addAll_honest hcs hL ((entries.map (2 * ·)).zip (entries.map fun x => L.getD x [])) []
    (by intro y w hw; simp at hw) (by
      intro p hp
      rw [List.zip_map', List.mem_map] at hp
      obtain ⟨x, hx, rfl⟩ := hp
      have hx' := he x hx
      refine ⟨toND (blk cs.H L x 1), ⟨x, 1, Sub.leaf hx', by simp [ht], nd_leaf x, rfl⟩, ?_⟩
      rw [blk_one _ hx']
      simp [toND, hx'])
  obtain ⟨M2, e2, a2, k2⟩ := addAll_honest hcs hL ((honestVerifier cs.H L m).subtrees.zip (honestVerifier cs.H L m).values) M1 a1 (by
      intro p hp
      cases m with
      | none => simp [honestVerifier] at hp
      | some k =>
        have hk := hm k rfl
        simp only [honestVerifier] at hp
        rw [heads_take _ _ hk.1 hk.2, List.zip_map', List.mem_map] at hp
        obtain ⟨q, hq, rfl⟩ := hp
        obtain ⟨a, b, c, d⟩ := fsList_mem _ _ (Sub.root hk.1) q hq
        exact ⟨toND (blk cs.H L q.1 q.2), ⟨_, _, a.mono b hk.2, b, rfl, rfl⟩, rfl⟩)
  obtain ⟨M3, e3, a3, k3⟩ := addAll_honest hcs hL (cop.zip (cop.map (trueAt cs.H L))) M2 a2 (by
      intro p hp
      have hp' : p ∈ cop.map (fun x => (x, trueAt cs.H L x)) := by
        rwa [show cop.zip (cop.map (trueAt cs.H L)) = cop.map (fun x => (x, trueAt cs.H L x)) from by
          conv_lhs => rw [← List.map_id cop, List.map_map, List.zip_map']
          simp] at hp
      obtain ⟨y, hy, rfl⟩ := List.mem_map.mp hp'
      obtain ⟨lo, s, q, hf, rfl⟩ := c2 y (Or.inr hy)
      exact ⟨toND (blk cs.H L lo s), ⟨_, _, q, hf, rfl, rfl⟩, (trueAt_nd q hf).symm⟩)
  -- the keys
  have keys : ∀ y, M3.lookup y ≠ none ↔ given entries m y ∨ y ∈ cop := by
    intro y
    rw [k3, k2, k1]
    have z1 : ((entries.map (2 * ·)).zip (entries.map fun x => L.getD x [])).map Prod.fst = entries.map (2 * ·) := by
      rw [List.map_fst_zip]; simp
    have z3 : (cop.zip (cop.map (trueAt cs.H L))).map Prod.fst = cop := by
      rw [List.map_fst_zip]; simp
    have z2 : y ∈ ((honestVerifier cs.H L m).subtrees.zip (honestVerifier cs.H L m).values).map Prod.fst ↔ ∃ k, m = some k ∧ y ∈ (fsList 0 k).map fun p => nd p.1 p.2 := by
      cases m with
      | none => simp [honestVerifier]
      | some k =>
        have hk := hm k rfl
        simp only [honestVerifier]
        rw [List.map_fst_zip]
        · simp
        · simp [heads_take _ _ hk.1 hk.2]
    rw [z1, z2, z3]
    unfold given
    have : ¬ (List.lookup y ([] : NMap) ≠ none) := by simp
    generalize (∃ k, m = some k ∧ y ∈ List.map (fun p => nd p.1 p.2) (fsList 0 k)) = Q
    tauto
  have hseg : ∀ y, y ∈ sortDedup (M3.map Prod.fst) ↔ (given entries m y ∨ y ∈ cop) ∧ InR 0 L.length y := by
    intro y
    rw [sortDedup_mem, ← lookup_ne_none, keys]
    exact ⟨fun h => ⟨h, c1 y h⟩, fun h => h.1⟩
  obtain ⟨M4, e4, a4, b4, d4⟩ := evaluateAux_ok hcs hL c2 c3 (2 * L.length + 2) M3 (sortDedup (M3.map Prod.fst))
    (Sub.root h0) (by omega) (sortDedup_sorted _) hseg a3 (fun y _ hy => (keys y).mpr hy)
  have hval : ∀ k, 0 < k → k ≤ L.length → (∀ p ∈ fsList 0 k, ∃ y, (given entries m y ∨ y ∈ cop) ∧ InR p.1 p.2 y) →
      (fsList 0 k |>.map fun p => nd p.1 p.2).mapM (fun x => do let d ← nodeAt M4 x; pure d.value) =
      (.ok (heads cs.H (L.take k)) : G (List Bytes)) := by
    intro k hk hkL hy
    rw [mapM_nodeAt (fsList 0 k) (fun p => toND (blk cs.H L p.1 p.2)), heads_take _ _ hk hkL]
    · rfl
    · intro p hp
      obtain ⟨a, b, c, d⟩ := fsList_mem _ _ (Sub.root hk) p hp
      have a' := a.mono b hkL
      have hr : InR 0 L.length (nd p.1 p.2) := inR_mono (lo := 0) (s := L.length) ⟨by omega, by omega⟩ (nd_inR a.pos)
      obtain ⟨w, hw⟩ := Option.ne_none_iff_exists'.mp (d4 p.1 p.2 a' b hr (hy p hp))
      obtain ⟨lo', s', q, _, e, rfl⟩ := a4 _ _ hw
      obtain ⟨rfl, rfl⟩ := q.unique a' e
      exact hw
  have hfs : fullSubtrees (LogMath.root L.length) L.length = .ok ((fsList 0 L.length).map fun p => nd p.1 p.2) := by
    rw [root_eq h0, fullSubtrees_eq (Sub.root h0)]
  have v1 := hval L.length h0 (le_refl _) (cov_fs_nonempty c2 c3 (Sub.root h0))
  rw [List.take_length] at v1
  refine ⟨cop, ⟨heads cs.H L, match nP with | none => [] | some k => heads cs.H (L.take k), M4⟩, ec,
    fun y hy => c2 y (Or.inr hy), ?_, rfl, fun k hk => by subst hk; rfl⟩
  unfold evaluate
  rw [if_neg (by omega), if_neg, if_neg (by simp), if_neg, hvprev, ec, G.ok_bind, if_neg (by simp), e1, G.ok_bind,
    e2, G.ok_bind, e3, G.ok_bind]
  · simp only []
    rw [root_eq h0] at hfs ⊢
    rw [e4, G.ok_bind, hfs, G.ok_bind, v1, G.ok_bind]
    cases nP with
    | none => rfl
    | some k =>
      have hk := hnP k rfl
      have v2 := hval k hk.1 hk.2 (c4 k rfl)
      simp only []
      rw [root_eq hk.1, fullSubtrees_eq (Sub.root hk.1), G.ok_bind, v2]
      rfl
  · simp only [List.any_eq_true, decide_eq_true_eq, not_exists, not_and]
    intro x hx
    have := he x hx
    omega
  · cases nP with
    | none => simp
    | some k => have := hnP k rfl; simp; omega

end Katie.Log
