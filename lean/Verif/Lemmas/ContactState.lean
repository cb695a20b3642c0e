import Verif.Spec.ContactMap
import Verif.Lemmas.Faults

/- Lemmas about the monitoring map of the client. -/

namespace Katie.Alg
open Katie Katie.SearchTree Katie.SearchSpec Katie.LogMath

/-! ### ancestors to the right do not depend on the size of the tree -/

/-- `x` is in the left subtree of `y` -/
def BelowLeft (x y : Nat) : Prop := ∃ k i, y = idx k i ∧ 2 ^ (k + 1) * i ≤ x ∧ x < y

theorem anc_range {n lo hi y : Nat} {anc : List Nat} (h : At n lo hi anc) (hy : y ∈ anc) :
    ∃ anc2 lo2 hi2, At n lo2 hi2 anc2 ∧ rt lo2 hi2 = y ∧ lo2 ≤ lo ∧ hi ≤ hi2 := by
  induction h with
  | root => simp at hy
  | @left lo hi anc h hl ih =>
    have hb := h.bounds
    rcases List.mem_cons.1 hy with rfl | hy
    · exact ⟨anc, lo, hi, h, rfl, le_refl _, by omega⟩
    · obtain ⟨anc2, lo2, hi2, h1, h2, h3, h4⟩ := ih hy
      exact ⟨anc2, lo2, hi2, h1, h2, h3, by omega⟩
  | @right lo hi anc h hl ih =>
    have hb := h.bounds
    rcases List.mem_cons.1 hy with rfl | hy
    · exact ⟨anc, lo, hi, h, rfl, by omega, le_refl _⟩
    · obtain ⟨anc2, lo2, hi2, h1, h2, h3, h4⟩ := ih hy
      exact ⟨anc2, lo2, hi2, h1, h2, by omega, h4⟩

theorem exists_at_under {n : Nat} (a : Nat) : ∀ (m lo hi : Nat) (anc : List Nat), hi - lo ≤ m → At n lo hi anc → a ∈ anc →
    ∀ x, lo ≤ x → x < hi → ∃ lo' hi' anc', At n lo' hi' anc' ∧ rt lo' hi' = x ∧ a ∈ anc' := by
  intro m
  induction m with
  | zero => intro lo hi anc hm h ha x h1 h2; omega
  | succ m ih =>
    intro lo hi anc hm h ha x h1 h2
    have hb := h.bounds
    rcases lt_trichotomy x (rt lo hi) with hx | hx | hx
    · exact ih _ _ _ (by omega) (.left h (by omega)) (by simp [ha]) x h1 hx
    · exact ⟨lo, hi, anc, h, hx.symm, ha⟩
    · exact ih _ _ _ (by omega) (.right h (by omega)) (by simp [ha]) x (by omega) h2

theorem rightAnc_num {n x y : Nat} : RightAnc n x y ↔ y < n ∧ BelowLeft x y := by
  constructor
  · intro h
    refine ⟨h.lt_n, ?_⟩
    obtain ⟨lo, hi, anc, ⟨h, rfl⟩, hy, hxy⟩ := h
    obtain ⟨anc2, lo2, hi2, h2, e, h3, h4⟩ := anc_range h hy
    obtain ⟨k, i, r⟩ := h2.rng
    have := h.bounds
    refine ⟨k, i, by rw [← e, r.rt], ?_, hxy⟩
    rw [← r.hlo]; omega
  · rintro ⟨hn, k, i, rfl, h1, h2⟩
    obtain ⟨lo, hi, anc, h, e⟩ := exists_at n 0 n [] (by omega) (.root (by omega)) _ (Nat.zero_le _) hn
    obtain ⟨k', i', r⟩ := h.rng
    have e' := e
    rw [r.rt] at e'
    obtain ⟨rfl, rfl⟩ := idx_inj e'
    rw [← r.hlo] at h1
    have hl : lo < rt lo hi := by omega
    obtain ⟨lo', hi', anc', g1, g2, g3⟩ := exists_at_under (rt lo hi) _ _ _ _ (le_refl _) (.left h hl) (by simp) x h1 (by omega)
    exact ⟨lo', hi', anc', ⟨g1, g2⟩, e ▸ g3, h2⟩

theorem _root_.Katie.SearchSpec.RightAnc.grow {n n' x y : Nat} (h : RightAnc n x y) (hn : n ≤ n') : RightAnc n' x y := by
  rw [rightAnc_num] at h ⊢
  exact ⟨by omega, h.2⟩

theorem _root_.Katie.SearchSpec.RightAnc.between {n x y z : Nat} (h : RightAnc n x y) (h1 : x ≤ z) (h2 : z < y) : RightAnc n z y := by
  rw [rightAnc_num] at h ⊢
  obtain ⟨hn, k, i, e, h3, h4⟩ := h
  exact ⟨hn, k, i, e, by omega, h2⟩

theorem _root_.Katie.SearchSpec.RightUp.grow {n n' x y : Nat} (h : RightUp n x y) (hn : n ≤ n') : RightUp n' x y :=
  h.imp id (fun h => h.grow hn)

theorem _root_.Katie.SearchSpec.RightUp.between {n x y z : Nat} (h : RightUp n x y) (h1 : x ≤ z) (h2 : z ≤ y) : RightUp n z y := by
  rcases Nat.lt_or_ge z y with hz | hz
  · rcases h with rfl | h
    · omega
    · exact .inr (h.between h1 hz)
  · exact .inl (by omega)

/-- the right direct path, sorted -/
theorem rightDirectPath_spec {n x : Nat} (hx : x < n) : ∃ path, rightDirectPath x n = .ok path ∧ path.Pairwise (· < ·) ∧
    ∀ y, y ∈ path ↔ RightAnc n x y := by
  obtain ⟨lo, hi, anc, h, rfl⟩ := exists_at n 0 n [] (by omega) (.root (by omega)) x (Nat.zero_le _) hx
  refine ⟨_, rightDirectPath_eq h, (rpath_sorted h h.bounds.1 h.bounds.2.1).1, fun y => ?_⟩
  rw [List.mem_filter, rightAnc_iff h]
  simp

end Katie.Alg

namespace Katie.Client
open Katie Katie.Wire Katie.Alg Katie.SearchTree Katie.SearchSpec Katie.ContactSpec

/-! ### maps -/

/-- no key twice -/
def Keys (m : PMap) : Prop := m.Pairwise (fun a b => a.1 ≠ b.1)

theorem Keys.lookup {m : PMap} (h : Keys m) {k v : Nat} : m.lookup k = some v ↔ (k, v) ∈ m := by
  induction m with
  | nil => simp
  | cons a m ih =>
    obtain ⟨a1, a2⟩ := a
    unfold Keys at h
    rw [List.pairwise_cons] at h
    rw [List.lookup_cons]
    by_cases hk : k = a1
    · subst hk
      simp only [beq_self_eq_true, Option.some.injEq, List.mem_cons, Prod.mk.injEq, true_and]
      constructor
      · rintro rfl; exact .inl rfl
      · rintro (rfl | h')
        · rfl
        · exact absurd rfl (h.1 (k, v) h')
    · have : (k == a1) = false := by simpa using hk
      rw [this]
      simp only [List.mem_cons, Prod.mk.injEq, hk, false_and, false_or]
      exact ih h.2

theorem mem_set {m : PMap} {k v : Nat} {e : Nat × Nat} : e ∈ m.set k v ↔ e = (k, v) ∨ e ∈ m ∧ e.1 ≠ k := by
  unfold PMap.set
  simp [List.mem_filter]

theorem Keys.set {m : PMap} (h : Keys m) (k v : Nat) : Keys (m.set k v) := by
  unfold PMap.set Keys
  rw [List.pairwise_cons]
  refine ⟨?_, h.filter _⟩
  intro e he
  rw [List.mem_filter] at he
  exact fun e' => by
    have := he.2
    simp only [decide_eq_true_eq] at this
    exact this e'.symm

theorem Keys.inj {m : PMap} (h : Keys m) {a b : Nat × Nat} (ha : a ∈ m) (hb : b ∈ m) (e : a.1 = b.1) : a = b := by
  have h1 := h.lookup.2 (show (a.1, a.2) ∈ m from ha)
  have h2 := h.lookup.2 (show (b.1, b.2) ∈ m from hb)
  rw [e, h2] at h1
  exact Prod.ext e (Option.some.inj h1).symm

theorem contactMap_fold (es : List MonitorMapEntry) : ∀ (m : PMap), Keys m →
    es.Pairwise (fun a b => a.position ≠ b.position) → (∀ e ∈ es, ∀ a ∈ m, e.position ≠ a.1) →
    Keys (es.foldl (fun m e => m.set e.position e.version) m) ∧
    ∀ a, a ∈ es.foldl (fun m e => m.set e.position e.version) m ↔ a ∈ m ∨ (⟨a.1, a.2⟩ : MonitorMapEntry) ∈ es := by
  induction es with
  | nil => intro m hm _ _; exact ⟨hm, by simp⟩
  | cons e es ih =>
    intro m hm hp hd
    rw [List.pairwise_cons] at hp
    rw [List.foldl_cons]
    obtain ⟨h1, h2⟩ := ih (m.set e.position e.version) (hm.set _ _) hp.2 (by
      intro f hf a ha
      rw [mem_set] at ha
      rcases ha with rfl | ha
      · exact fun h => hp.1 f hf h.symm
      · exact hd f (List.mem_cons_of_mem _ hf) a ha.1)
    refine ⟨h1, fun a => ?_⟩
    rw [h2, mem_set, List.mem_cons]
    constructor
    · rintro ((rfl | h) | h)
      · exact .inr (.inl rfl)
      · exact .inl h.1
      · exact .inr (.inr h)
    · rintro (h | h | h)
      · exact .inl (.inr ⟨h, fun e' => hd e List.mem_cons_self a h e'.symm⟩)
      · refine .inl (.inl ?_)
        rw [← h]
      · exact .inr h

theorem contactMap_spec {es : List MonitorMapEntry} (hp : es.Pairwise (fun a b => a.position ≠ b.position)) :
    Keys (contactMap es) ∧ ∀ a, a ∈ contactMap es ↔ (⟨a.1, a.2⟩ : MonitorMapEntry) ∈ es := by
  obtain ⟨h1, h2⟩ := contactMap_fold es [] .nil hp (by simp)
  exact ⟨h1, fun a => (h2 a).trans (by simp)⟩

theorem mem_insertEntry {e f : MonitorMapEntry} : ∀ {l : List MonitorMapEntry}, f ∈ insertEntry e l ↔ f = e ∨ f ∈ l
  | [] => by simp [insertEntry]
  | g :: l => by
    unfold insertEntry
    split
    · simp
    · rw [List.mem_cons, mem_insertEntry, List.mem_cons]
      tauto

theorem insertEntry_sorted {e : MonitorMapEntry} : ∀ {l : List MonitorMapEntry}, l.Pairwise (fun a b => a.position < b.position) →
    (∀ f ∈ l, f.position ≠ e.position) → (insertEntry e l).Pairwise (fun a b => a.position < b.position)
  | [], _, _ => by simp [insertEntry]
  | g :: l, h, hd => by
    unfold insertEntry
    have hg := hd g List.mem_cons_self
    split
    · rename_i hle
      rw [List.pairwise_cons]
      refine ⟨?_, h⟩
      rw [List.pairwise_cons] at h
      intro f hf
      rcases List.mem_cons.1 hf with rfl | hf
      · omega
      · have := h.1 f hf; omega
    · rename_i hle
      rw [List.pairwise_cons] at h ⊢
      refine ⟨?_, insertEntry_sorted h.2 (fun f hf => hd f (List.mem_cons_of_mem _ hf))⟩
      intro f hf
      rcases mem_insertEntry.1 hf with rfl | hf
      · omega
      · exact h.1 f hf

theorem contactStruct_spec {m : PMap} (h : Keys m) :
    (contactStruct m).Pairwise (fun a b => a.position < b.position) ∧ ∀ e, e ∈ contactStruct m ↔ (e.position, e.version) ∈ m := by
  induction m with
  | nil => exact ⟨.nil, by simp [contactStruct]⟩
  | cons a m ih =>
    unfold Keys at h
    rw [List.pairwise_cons] at h
    obtain ⟨h1, h2⟩ := ih h.2
    have e : contactStruct (a :: m) = insertEntry ⟨a.1, a.2⟩ (contactStruct m) := rfl
    rw [e]
    refine ⟨insertEntry_sorted h1 ?_, fun f => ?_⟩
    · intro f hf
      exact fun h' => h.1 _ ((h2 f).1 hf) h'.symm
    · rw [mem_insertEntry, h2, List.mem_cons]
      constructor
      · rintro (rfl | h)
        · exact .inl rfl
        · exact .inr h
      · rintro (h | h)
        · refine .inl ?_
          rw [← h]
        · exact .inr h

/-! ### marking and simplifying -/

/-- `Covers` on maps -/
def Cov (n : Nat) (m : PMap) (x v : Nat) : Prop := ∃ e ∈ m, RightUp n x e.1 ∧ v ≤ e.2

theorem markPath_spec (ver : Nat) : ∀ (L : List Nat) (m : PMap) (x : Nat), Keys m →
    Keys (markPath ver L m x).1 ∧
    (∀ e ∈ m, ∃ e' ∈ (markPath ver L m x).1, e'.1 = e.1 ∧ e.2 ≤ e'.2) ∧
    (∀ e ∈ (markPath ver L m x).1, e ∈ m ∨ (e.2 = ver ∧ e.1 ∈ L)) ∧
    ((markPath ver L m x).2 = x ∨ (markPath ver L m x).2 ∈ L)
  | [], m, x, h => ⟨h, fun e he => ⟨e, he, rfl, le_refl _⟩, fun e he => .inl he, .inl rfl⟩
  | pos :: L, m, x, h => by
    unfold markPath
    split
    · exact ⟨h, fun e he => ⟨e, he, rfl, le_refl _⟩, fun e he => .inl he, .inl rfl⟩
    · rename_i hno
      obtain ⟨h1, h2, h3, h4⟩ := markPath_spec ver L (m.set pos ver) pos (h.set _ _)
      refine ⟨h1, ?_, ?_, ?_⟩
      · intro e he
        by_cases hp : e.1 = pos
        · obtain ⟨e', g1, g2, g3⟩ := h2 (pos, ver) (mem_set.2 (.inl rfl))
          refine ⟨e', g1, by rw [g2, hp], ?_⟩
          have := h.lookup.2 (show (e.1, e.2) ∈ m from he)
          rw [hp] at this
          rw [this] at hno
          simp at hno
          exact hno.trans g3
        · exact h2 e (mem_set.2 (.inr ⟨he, hp⟩))
      · intro e he
        rcases h3 e he with h | ⟨h, h'⟩
        · rcases mem_set.1 h with rfl | h
          · exact .inr ⟨rfl, List.mem_cons_self⟩
          · exact .inl h.1
        · exact .inr ⟨h, List.mem_cons_of_mem _ h'⟩
      · rcases h4 with h | h
        · exact .inr (by rw [h]; exact List.mem_cons_self)
        · exact .inr (List.mem_cons_of_mem _ h)

/-- the first position is marked, or was already for a later version -/
theorem markPath_first {ver pos : Nat} {L : List Nat} {m : PMap} {x : Nat} (h : Keys m) :
    ∃ e ∈ (markPath ver (pos :: L) m x).1, e.1 = pos ∧ ver ≤ e.2 := by
  unfold markPath
  split
  · rename_i hy
    cases hl : m.lookup pos with
    | none => rw [hl] at hy; simp at hy
    | some v =>
      rw [hl] at hy
      simp at hy
      exact ⟨(pos, v), h.lookup.1 hl, rfl, hy.le⟩
  · obtain ⟨-, h2, -⟩ := markPath_spec ver L (m.set pos ver) pos (h.set _ _)
    exact h2 (pos, ver) (mem_set.2 (.inl rfl))

theorem redundant_spec {n : Nat} {m : PMap} {pos ver : Nat} (hk : Keys m) (hp : pos < n) :
    ∃ b, redundant n m pos ver = .ok b ∧ (b = true → ∃ e ∈ m, RightAnc n pos e.1 ∧ ver ≤ e.2) := by
  obtain ⟨path, h1, h2, h3⟩ := rightDirectPath_spec hp
  unfold redundant
  rw [h1]
  simp only [G.ok_bind]
  cases path with
  | nil => exact ⟨false, rfl, by simp⟩
  | cons y path =>
    simp only
    cases hl : m.lookup y with
    | none => exact ⟨false, rfl, by simp⟩
    | some v =>
      refine ⟨_, rfl, fun hb => ⟨(y, v), hk.lookup.1 hl, (h3 y).1 List.mem_cons_self, by simpa using hb⟩⟩

theorem cov_filter {n : Nat} {m : PMap} {pos ver : Nat} (hk : Keys m) (hm : (pos, ver) ∈ m)
    (hr : ∃ e ∈ m, RightAnc n pos e.1 ∧ ver ≤ e.2) {x v : Nat} (h : Cov n m x v) :
    Cov n (m.filter (fun e => e.1 ≠ pos)) x v := by
  obtain ⟨e, he, h1, h2⟩ := h
  by_cases hp : e.1 = pos
  · obtain ⟨f, hf, h3, h4⟩ := hr
    have : e = (pos, ver) := hk.inj he hm hp
    subst this
    refine ⟨f, List.mem_filter.2 ⟨hf, ?_⟩, h1.trans (.inr h3), h2.trans h4⟩
    have := h3.lt
    simp only [decide_eq_true_eq]
    omega
  · exact ⟨e, List.mem_filter.2 ⟨he, by simpa using hp⟩, h1, h2⟩

theorem simplifyPass_spec {n : Nat} : ∀ (l : List (Nat × Nat)) (m : PMap) (b : Bool), Keys m → (∀ e ∈ m, e.1 < n) → Keys l →
    (∀ e ∈ l, e ∈ m) →
    ∃ m' b', simplifyPass n l m b = .ok (m', b') ∧ m'.Sublist m ∧ (∀ x v, Cov n m x v → Cov n m' x v) ∧
      (b' = true → b = true ∨ m'.length < m.length)
  | [], m, b, _, _, _, _ => ⟨m, b, rfl, .refl _, fun _ _ h => h, fun h => .inl h⟩
  | (pos, ver) :: l, m, b, hk, hn, hl, hm => by
    have hmem := hm _ List.mem_cons_self
    unfold Keys at hl
    rw [List.pairwise_cons] at hl
    obtain ⟨r, h1, h2⟩ := redundant_spec (n := n) (ver := ver) hk (hn _ hmem)
    unfold simplifyPass
    rw [h1]
    simp only [G.ok_bind]
    cases r with
    | false =>
      simp only [Bool.false_eq_true, if_false]
      exact simplifyPass_spec l m b hk hn hl.2 (fun e he => hm e (List.mem_cons_of_mem _ he))
    | true =>
      simp only [if_true]
      have hsub : (m.filter (fun e => e.1 ≠ pos)).Sublist m := List.filter_sublist
      obtain ⟨m', b', g1, g2, g3, g4⟩ := simplifyPass_spec l (m.filter (fun e => e.1 ≠ pos)) true (hk.filter _)
        (fun e he => hn e (List.mem_filter.1 he).1) hl.2 (fun e he => List.mem_filter.2 ⟨hm e (List.mem_cons_of_mem _ he), by
          have := hl.1 e he
          simpa using fun h => this h.symm⟩)
      refine ⟨m', b', g1, g2.trans hsub, fun x v h => g3 x v (cov_filter hk hmem (h2 rfl) h), fun _ => .inr ?_⟩
      have := g2.length_le
      have : (m.filter (fun e => e.1 ≠ pos)).length < m.length := by
        rw [List.length_filter_lt_length_iff_exists]
        exact ⟨_, hmem, by simp⟩
      omega

theorem simplify_spec {order : PMap → List (Nat × Nat)} (ho : IsOrder order) {n : Nat} : ∀ (fuel : Nat) (m : PMap),
    m.length < fuel → Keys m → (∀ e ∈ m, e.1 < n) →
    ∃ m', simplify order n fuel m = .ok m' ∧ m'.Sublist m ∧ (∀ x v, Cov n m x v → Cov n m' x v)
  | 0, m, h, _, _ => by omega
  | fuel + 1, m, hf, hk, hn => by
    have hko : Keys (order m) := (List.Perm.pairwise_iff (fun h => fun e => h e.symm) (ho m)).2 hk
    obtain ⟨m', b', h1, h2, h3, h4⟩ := simplifyPass_spec (order m) m false hk hn hko (fun e he => (ho m).mem_iff.1 he)
    unfold simplify
    rw [h1]
    simp only [G.ok_bind]
    cases b' with
    | false => exact ⟨m', rfl, h2, h3⟩
    | true =>
      simp only [if_true]
      rcases h4 rfl with h | h
      · cases h
      obtain ⟨m'', g1, g2, g3⟩ := simplify_spec ho fuel m' (by omega) (hk.sublist h2) (fun e he => hn e (h2.subset he))
      exact ⟨m'', g1, g2.trans h2, fun x v h => g3 x v (h3 x v h)⟩

theorem contactLoop_keys {m : Monitor} : ∀ (l prev ptrs : PMap) {tr : List Ev} {out : PMap}, Keys ptrs →
    Runs (contactLoop m l prev ptrs) tr (.ok out) → Keys out
  | [], prev, ptrs, tr, out, hk, h => by
    unfold contactLoop at h
    obtain ⟨-, h⟩ := runs_pure.1 h
    cases h
    exact hk
  | (x, ver) :: rest, prev, ptrs, tr, out, hk, h => by
    unfold contactLoop at h
    obtain ⟨⟨updated, prev'⟩, t1, t2, -, -, h2⟩ := runs_bind_ok.1 h
    cases updated with
    | none => exact contactLoop_keys rest prev' ptrs hk h2
    | some y => exact contactLoop_keys rest prev' _ (hk.set _ _) h2

theorem simplifyPass_fixed {n : Nat} {m : PMap} {b : Bool} : ∀ {l : List (Nat × Nat)},
    (∀ e ∈ l, redundant n m e.1 e.2 = .ok false) → simplifyPass n l m b = .ok (m, b)
  | [], _ => rfl
  | e :: l, h => by
    unfold simplifyPass
    rw [h e List.mem_cons_self]
    exact simplifyPass_fixed (fun f hf => h f (List.mem_cons_of_mem _ hf))

/-- a map without redundant entries is left as it is -/
theorem simplify_fixed {order : PMap → List (Nat × Nat)} (ho : IsOrder order) {n fuel : Nat} {m : PMap}
    (h : ∀ e ∈ m, redundant n m e.1 e.2 = .ok false) : simplify order n (fuel + 1) m = .ok m := by
  unfold simplify
  rw [simplifyPass_fixed (fun e he => h e ((ho m).mem_iff.1 he))]
  rfl

/-! ### a new version -/

theorem markPath_all {ver : Nat} : ∀ {L : List Nat} {m : PMap} {x : Nat}, Keys m → (∀ e ∈ m, e.2 ≤ ver) →
    ∀ e, e ∈ (markPath ver L m x).1 ↔ (e.1 ∈ L ∧ e.2 = ver) ∨ (e ∈ m ∧ e.1 ∉ L)
  | [], m, x, _, _, e => by simp [markPath]
  | pos :: L, m, x, hk, hv, e => by
    unfold markPath
    rw [if_neg, markPath_all (hk.set _ _)]
    · rw [mem_set, List.mem_cons]
      constructor
      · rintro (⟨h1, h2⟩ | ⟨rfl | ⟨h1, h2⟩, h3⟩)
        · exact .inl ⟨.inr h1, h2⟩
        · exact .inl ⟨.inl rfl, rfl⟩
        · exact .inr ⟨h1, by tauto⟩
      · rintro (⟨h1, h2⟩ | ⟨h1, h2⟩)
        · by_cases h : e.1 ∈ L
          · exact .inl ⟨h, h2⟩
          · refine .inr ⟨.inl (Prod.ext (h1.resolve_right h) h2), h⟩
        · exact .inr ⟨.inr ⟨h1, by tauto⟩, by tauto⟩
    · intro f hf
      rcases mem_set.1 hf with rfl | hf
      · exact le_refl _
      · exact hv f hf.1
    · cases hl : m.lookup pos with
      | none => simp
      | some v =>
        have := hv _ (hk.lookup.1 hl)
        simp only [Option.any_some, decide_eq_true_eq]
        omega

/-- In ascending order, a pass removes all entries with version `ver` whose parent also has it. -/
theorem simplifyPass_removes {n ver : Nat} : ∀ (l : List (Nat × Nat)) (m : PMap) (b : Bool) (m' : PMap) (b' : Bool), Keys m →
    l.Pairwise (fun a b => a.1 < b.1) → (∀ e ∈ l, e ∈ m) →
    (∀ e ∈ l, e.2 = ver → ∀ y path, rightDirectPath e.1 n = .ok (y :: path) → (y, ver) ∈ m ∧ e.1 < y) →
    simplifyPass n l m b = .ok (m', b') → m'.Sublist m ∧ ∀ e ∈ l, e.2 = ver → e ∈ m' → rightDirectPath e.1 n = .ok []
  | [], m, b, m', b', _, _, _, _, h => by
    cases h
    exact ⟨.refl _, by simp⟩
  | (pos, v) :: l, m, b, m', b', hk, hl, hm, hp, h => by
    rw [List.pairwise_cons] at hl
    unfold simplifyPass at h
    obtain ⟨r, h1, h2⟩ := G.bind_eq_ok.1 h
    have hsub : (m.filter (fun e => e.1 ≠ pos)).Sublist m := List.filter_sublist
    cases r with
    | false =>
      simp only [Bool.false_eq_true, if_false] at h2
      obtain ⟨g1, g2⟩ := simplifyPass_removes l m b m' b' hk hl.2 (fun e he => hm e (List.mem_cons_of_mem _ he))
        (fun e he => hp e (List.mem_cons_of_mem _ he)) h2
      refine ⟨g1, ?_⟩
      intro e he hev hem
      rcases List.mem_cons.1 he with rfl | he
      · unfold redundant at h1
        obtain ⟨path, h3, h4⟩ := G.bind_eq_ok.1 h1
        cases path with
        | nil => exact h3
        | cons y path =>
          exfalso
          obtain ⟨h5, -⟩ := hp _ List.mem_cons_self hev y path h3
          simp only [hk.lookup.2 h5] at h4
          simp only at hev
          rw [hev] at h4
          simp [pure, Except.pure] at h4
      · exact g2 e he hev hem
    | true =>
      simp only [if_true] at h2
      obtain ⟨g1, g2⟩ := simplifyPass_removes l (m.filter (fun e => e.1 ≠ pos)) true m' b' (hk.filter _) hl.2
        (fun e he => List.mem_filter.2 ⟨hm e (List.mem_cons_of_mem _ he), by
          have := hl.1 e he
          simp only [decide_eq_true_eq]
          omega⟩)
        (fun e he hev y path hy => by
          obtain ⟨h5, h6⟩ := hp e (List.mem_cons_of_mem _ he) hev y path hy
          have := hl.1 e he
          refine ⟨List.mem_filter.2 ⟨h5, ?_⟩, h6⟩
          simp only [decide_eq_true_eq]
          simp only at this
          omega) h2
      refine ⟨g1.trans hsub, ?_⟩
      intro e he hev hem
      rcases List.mem_cons.1 he with rfl | he
      · have := List.mem_filter.1 (g1.subset hem)
        simp at this
      · exact g2 e he hev hem

/-- what is left after a pass in ascending order is left at the end -/
theorem simplify_removes {order : PMap → List (Nat × Nat)} (ho : IsOrder order) (ha : Ascending order) {n ver fuel : Nat}
    {m m' : PMap} (hf : m.length < fuel) (hk : Keys m) (hn : ∀ e ∈ m, e.1 < n)
    (hp : ∀ e ∈ m, e.2 = ver → ∀ y path, rightDirectPath e.1 n = .ok (y :: path) → (y, ver) ∈ m)
    (h : simplify order n fuel m = .ok m') : ∀ e ∈ m', e.2 = ver → rightDirectPath e.1 n = .ok [] := by
  obtain ⟨f, rfl⟩ : ∃ f, fuel = f + 1 := ⟨fuel - 1, by omega⟩
  have hko : Keys (order m) := (List.Perm.pairwise_iff (fun h => fun e => h e.symm) (ho m)).2 hk
  have hlt : (order m).Pairwise (fun a b => a.1 < b.1) := by
    refine List.Pairwise.imp₂ ?_ (ha m) hko
    intro a b h1 h2
    omega
  unfold simplify at h
  obtain ⟨⟨m1, b1⟩, h1, h2⟩ := G.bind_eq_ok.1 h
  obtain ⟨g1, g2⟩ := simplifyPass_removes (ver := ver) (order m) m false m1 b1 hk hlt (fun e he => (ho m).mem_iff.1 he)
    (fun e he hev y path hy => by
      refine ⟨hp e ((ho m).mem_iff.1 he) hev y path hy, ?_⟩
      obtain ⟨path', k1, -, k3⟩ := rightDirectPath_spec (hn e ((ho m).mem_iff.1 he))
      rw [hy] at k1
      cases k1
      exact ((k3 y).1 List.mem_cons_self).lt) h1
  have hsub : m'.Sublist m1 := by
    simp only at h2
    cases b1 with
    | false =>
      simp only [Bool.false_eq_true, if_false] at h2
      cases h2
      exact .refl _
    | true =>
      simp only [if_true] at h2
      obtain ⟨m2, b2, k1, k2, -, k4⟩ := simplifyPass_spec (order m) m false hk hn hko (fun e he => (ho m).mem_iff.1 he)
      rw [h1] at k1
      cases k1
      have hlen : m1.length < m.length := (k4 rfl).resolve_left (by simp)
      obtain ⟨m3, k5, k6, -⟩ := simplify_spec ho f m1 (by omega) (hk.sublist k2) (fun e he => hn e (k2.subset he))
      rw [h2] at k5
      cases k5
      exact k6
  intro e he hev
  exact g2 e ((ho m).mem_iff.2 (g1.subset (hsub.subset he))) hev (hsub.subset he)

end Katie.Client
