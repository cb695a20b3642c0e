import Verif.Model.Provider
import Verif.Spec.Trace
import Verif.Lemmas.Log

/- Lemmas about the data provider: its tables of timestamps and prefix tree roots. -/

namespace Katie.Alg
open Katie Katie.Wire

/-- a table of timestamps: one per position, non-decreasing in the position -/
structure TsMap (m : List (Nat × Nat)) : Prop where
  keys : (m.map Prod.fst).Nodup
  mono : ∀ e ∈ m, ∀ f ∈ m, e.1 ≤ f.1 → e.2 ≤ f.2

theorem TsMap.nil : TsMap [] := ⟨by simp, by simp⟩

theorem TsMap.unique {m : List (Nat × Nat)} (h : TsMap m) {x a b : Nat} (ha : (x, a) ∈ m) (hb : (x, b) ∈ m) : a = b :=
  le_antisymm (h.mono _ ha _ hb (le_refl _)) (h.mono _ hb _ ha (le_refl _))

theorem lookup_mem {β : Type} {m : List (Nat × β)} {x : Nat} {a : β} (h : m.lookup x = some a) : (x, a) ∈ m := by
  induction m with
  | nil => simp at h
  | cons e m ih =>
    obtain ⟨k, b⟩ := e
    rw [List.lookup_cons] at h
    by_cases hk : x = k
    · subst hk; simp at h; subst h; simp
    · rw [show (x == k) = false by simpa using hk] at h
      exact List.mem_cons_of_mem _ (ih h)

theorem lookup_none {β : Type} {m : List (Nat × β)} {x : Nat} (h : m.lookup x = none) : x ∉ m.map Prod.fst := by
  induction m with
  | nil => simp
  | cons e m ih =>
    obtain ⟨k, b⟩ := e
    rw [List.lookup_cons] at h
    by_cases hk : x = k
    · subst hk; simp at h
    · rw [show (x == k) = false by simpa using hk] at h
      simp only [List.map_cons, List.mem_cons, not_or]
      exact ⟨hk, ih h⟩

theorem lookup_of_mem {β : Type} {m : List (Nat × β)} (hn : (m.map Prod.fst).Nodup) {x : Nat} {a : β}
    (h : (x, a) ∈ m) : m.lookup x = some a := by
  induction m with
  | nil => simp at h
  | cons e m ih =>
    obtain ⟨k, b⟩ := e
    rw [List.map_cons, List.nodup_cons] at hn
    rw [List.lookup_cons]
    rcases List.mem_cons.1 h with h | h
    · obtain ⟨rfl, rfl⟩ := Prod.mk.inj h; simp
    · have : x ≠ k := by
        rintro rfl
        exact hn.1 (List.mem_map.2 ⟨(x, a), by assumption, rfl⟩)
      rw [show (x == k) = false by simpa using this]
      exact ih hn.2 h

theorem addTimestamp_ok {m m' : List (Nat × Nat)} {x a : Nat} (h : addTimestamp m x a = .ok m') :
    m' = (x, a) :: m ∧ x ∉ m.map Prod.fst ∧ ∀ e ∈ m, (x ≤ e.1 → a ≤ e.2) ∧ (e.1 ≤ x → e.2 ≤ a) := by
  unfold addTimestamp at h
  split at h
  · cases h
  next h1 =>
  split at h
  · cases h
  next h2 =>
  simp only [List.any_eq_true, not_exists, not_and, beq_iff_eq, decide_eq_true_eq, not_or] at h1 h2
  refine ⟨(Except.ok.inj h).symm, ?_, ?_⟩
  · intro hx
    obtain ⟨e, he, rfl⟩ := List.mem_map.1 hx
    exact h1 e he rfl
  · intro e he
    have := h1 e he
    have := h2 e he
    omega

theorem TsMap.add {m m' : List (Nat × Nat)} {x a : Nat} (hm : TsMap m) (h : addTimestamp m x a = .ok m') :
    TsMap m' := by
  obtain ⟨rfl, h1, h2⟩ := addTimestamp_ok h
  refine ⟨by simpa using ⟨by simpa using h1, hm.keys⟩, ?_⟩
  intro e he f hf hef
  rcases List.mem_cons.1 he with rfl | he <;> rcases List.mem_cons.1 hf with rfl | hf
  · exact le_refl _
  · exact (h2 f hf).1 hef
  · exact (h2 e he).2 hef
  · exact hm.mono e he f hf hef

theorem addPrefixTree_ok {m m' : List (Nat × Bytes)} {x : Nat} {r : Bytes} (h : addPrefixTree m x r = .ok m') :
    m'.lookup x = some r ∧ ∀ y s, m.lookup y = some s → m'.lookup y = some s := by
  unfold addPrefixTree at h
  split at h
  · next e he =>
    split at h
    · cases h
    next hr =>
    have : m = m' := Except.ok.inj h
    subst this
    have : r = e := by simpa using hr
    subst this
    exact ⟨he, fun _ _ h => h⟩
  · next hn =>
    have : (x, r) :: m = m' := Except.ok.inj h
    subst this
    refine ⟨by simp, ?_⟩
    intro y s hy
    rw [List.lookup_cons]
    by_cases hk : y = x
    · subst hk; rw [hn] at hy; cases hy
    · rw [show (y == x) = false by simpa using hk]; exact hy

/-! ### growth -/

/-- the second provider knows everything the first one knows; the retained data is the same -/
structure Grows {σ : Type} (p q : Provider σ) : Prop where
  ts : ∀ e ∈ p.timestamps, e ∈ q.timestamps
  roots : ∀ x r, p.prefixTrees.lookup x = some r → q.prefixTrees.lookup x = some r
  full : q.fullSubtrees = p.fullSubtrees
  entries : q.logEntries = p.logEntries

variable {σ : Type}

theorem Grows.refl (p : Provider σ) : Grows p p := ⟨fun _ h => h, fun _ _ h => h, rfl, rfl⟩

theorem Grows.state (p : Provider σ) (s : σ) : Grows p { p with state := s } := ⟨fun _ h => h, fun _ _ h => h, rfl, rfl⟩

theorem Grows.trans {p q r : Provider σ} (h1 : Grows p q) (h2 : Grows q r) : Grows p r :=
  ⟨fun e h => h2.ts e (h1.ts e h), fun x s h => h2.roots x s (h1.roots x s h),
    h2.full.trans h1.full, h2.entries.trans h1.entries⟩

/-- what `getTimestamp` does -/
theorem getTimestamp_spec (H : Handle σ) (x : Nat) (p : Provider σ) (hm : TsMap p.timestamps) :
    Grows p (p.getTimestamp H x).2 ∧ TsMap (p.getTimestamp H x).2.timestamps ∧
    ∀ a, (p.getTimestamp H x).1 = .ok a → (x, a) ∈ (p.getTimestamp H x).2.timestamps := by
  unfold Provider.getTimestamp
  split
  · next ts h => exact ⟨Grows.refl p, hm, fun a ha => by cases ha; exact lookup_mem h⟩
  · next h =>
    split
    · exact ⟨Grows.state _ _, hm, fun a ha => by cases ha⟩
    · next ts s hs =>
      split
      · exact ⟨Grows.state _ _, hm, fun a ha => by cases ha⟩
      · next m hadd =>
        refine ⟨⟨?_, fun _ _ h => h, rfl, rfl⟩, hm.add hadd, ?_⟩
        · intro e he
          rw [(addTimestamp_ok hadd).1]; exact List.mem_cons_of_mem _ he
        · intro a ha; cases ha
          rw [(addTimestamp_ok hadd).1]; exact List.mem_cons_self

theorem record_spec {β : Type} (x : Nat) (root : Bytes) (b : β) (p : Provider σ) :
    Grows p (p.record x root b).2 ∧ (p.record x root b).2.timestamps = p.timestamps ∧
    (p.record x root b).2.state = p.state ∧
    ∀ b', (p.record x root b).1 = .ok b' → b' = b ∧ (p.record x root b).2.prefixTrees.lookup x = some root := by
  unfold Provider.record
  split
  · exact ⟨Grows.refl p, rfl, rfl, fun a ha => by cases ha⟩
  · next m h =>
    obtain ⟨h1, h2⟩ := addPrefixTree_ok h
    exact ⟨⟨fun _ h => h, h2, rfl, rfl⟩, rfl, rfl, fun a ha => by cases ha; exact ⟨rfl, h1⟩⟩

/-- the position a request is about, if it asks for data of a log entry -/
def Req.pos? : Req → Option Nat
  | .ts x => some x
  | .search x _ _ => some x
  | .monitor x _ => some x
  | .incl x vers => if vers.length = 0 then none else some x
  | .stop _ _ => none
  | .addLadder _ _ _ _ => none

/-- the common shape of the three requests that yield a prefix tree root -/
def viaRoot {γ : Type} (H : Handle σ) (x : Nat) (f : σ → G (Bytes × γ) × σ) (p : Provider σ) : G γ × Provider σ :=
  match p.getTimestamp H x with
  | (.error e, p) => (.error e, p)
  | (.ok _, p) =>
    match f p.state with
    | (.error e, s) => (.error e, { p with state := s })
    | (.ok (root, res), s) => Provider.record x root res { p with state := s }

/-- add a unit result -/
def withUnit (f : σ → G Bytes × σ) (s : σ) : G (Bytes × Unit) × σ :=
  match f s with
  | (.error e, s) => (.error e, s)
  | (.ok r, s) => (.ok (r, ()), s)

theorem getSearch_eq (H : Handle σ) (x ver : Nat) (om : Bool) (p : Provider σ) :
    p.getSearch H x ver om = viaRoot H x (H.search x ver om) p := by
  unfold Provider.getSearch viaRoot
  generalize p.getTimestamp H x = r
  obtain ⟨r1, p'⟩ := r
  cases r1 with
  | error e => rfl
  | ok t =>
    simp only
    generalize H.search x ver om p'.state = g
    obtain ⟨g1, s⟩ := g
    cases g1 <;> rfl

theorem getMonitor_eq (H : Handle σ) (x ver : Nat) (p : Provider σ) :
    p.getMonitor H x ver = viaRoot H x (withUnit (H.monitor x ver)) p := by
  unfold Provider.getMonitor viaRoot withUnit
  generalize p.getTimestamp H x = r
  obtain ⟨r1, p'⟩ := r
  cases r1 with
  | error e => rfl
  | ok t =>
    simp only
    generalize H.monitor x ver p'.state = g
    obtain ⟨g1, s⟩ := g
    cases g1 <;> rfl

theorem getIncl_eq (H : Handle σ) (x : Nat) (vers : List Nat) (p : Provider σ) :
    p.getIncl H x vers = if vers.length = 0 then (.ok (), p) else viaRoot H x (withUnit (H.incl x vers)) p := by
  unfold Provider.getIncl
  by_cases hv : vers.length = 0
  · rw [if_pos hv, if_pos hv]
  rw [if_neg hv, if_neg hv]
  unfold viaRoot withUnit
  generalize p.getTimestamp H x = r
  obtain ⟨r1, p'⟩ := r
  cases r1 with
  | error e => rfl
  | ok t =>
    simp only
    generalize H.incl x vers p'.state = g
    obtain ⟨g1, s⟩ := g
    cases g1 <;> rfl

theorem viaRoot_spec {γ : Type} (H : Handle σ) (x : Nat) (f : σ → G (Bytes × γ) × σ) (p : Provider σ)
    (hm : TsMap p.timestamps) :
    Grows p (viaRoot H x f p).2 ∧ TsMap (viaRoot H x f p).2.timestamps ∧
    ∀ a, (viaRoot H x f p).1 = .ok a → x ∈ (viaRoot H x f p).2.timestamps.map Prod.fst ∧
      ∃ root s, f (p.getTimestamp H x).2.state = (.ok (root, a), s) ∧ (viaRoot H x f p).2.state = s ∧
        (viaRoot H x f p).2.prefixTrees.lookup x = some root := by
  generalize ho : viaRoot H x f p = out
  unfold viaRoot at ho
  obtain ⟨h1, h2, h3⟩ := getTimestamp_spec H x p hm
  revert ho h1 h2 h3
  generalize p.getTimestamp H x = r
  obtain ⟨r1, p'⟩ := r
  intro ho h1 h2 h3
  cases r1 with
  | error e => subst ho; exact ⟨h1, h2, fun a ha => by cases ha⟩
  | ok t =>
    simp only at ho h1 h2 h3 ⊢
    have hx : x ∈ p'.timestamps.map Prod.fst := List.mem_map.2 ⟨_, h3 t rfl, rfl⟩
    revert ho
    generalize f p'.state = g
    obtain ⟨g1, s⟩ := g
    intro ho
    cases g1 with
    | error e => subst ho; exact ⟨h1.trans (Grows.state _ _), h2, fun a ha => by cases ha⟩
    | ok rr =>
      obtain ⟨root, res⟩ := rr
      simp only at ho
      obtain ⟨k1, k2, k3, k4⟩ := record_spec x root res { p' with state := s }
      subst ho
      refine ⟨h1.trans ((Grows.state _ _).trans k1), by rw [k2]; exact h2, ?_⟩
      intro a ha
      obtain ⟨rfl, k5⟩ := k4 a ha
      refine ⟨by rw [k2]; exact hx, root, s, rfl, k3, k5⟩

theorem answer_spec (H : Handle σ) (q : Req) (p : Provider σ) (hm : TsMap p.timestamps) :
    Grows p (p.answer H q).2 ∧ TsMap (p.answer H q).2.timestamps ∧
    ∀ a, (p.answer H q).1 = .ok a →
      (∀ x, q.pos? = some x → x ∈ (p.answer H q).2.timestamps.map Prod.fst) := by
  cases q with
  | ts x =>
    obtain ⟨h1, h2, h3⟩ := getTimestamp_spec H x p hm
    refine ⟨h1, h2, ?_⟩
    intro a ha y hy
    cases hy
    exact List.mem_map.2 ⟨_, h3 a ha, rfl⟩
  | search x ver om =>
    have he : p.answer H (.search x ver om) = viaRoot H x (H.search x ver om) p := getSearch_eq H x ver om p
    obtain ⟨h1, h2, h3⟩ := viaRoot_spec H x (H.search x ver om) p hm
    rw [he]
    exact ⟨h1, h2, fun a ha y hy => by cases hy; exact (h3 a ha).1⟩
  | monitor x ver =>
    have he : p.answer H (.monitor x ver) = viaRoot H x (withUnit (H.monitor x ver)) p := getMonitor_eq H x ver p
    obtain ⟨h1, h2, h3⟩ := viaRoot_spec H x (withUnit (H.monitor x ver)) p hm
    rw [he]
    exact ⟨h1, h2, fun a ha y hy => by cases hy; exact (h3 a ha).1⟩
  | incl x vers =>
    have he : p.answer H (.incl x vers) = _ := getIncl_eq H x vers p
    rw [he]
    by_cases hv : vers.length = 0
    · rw [if_pos hv]
      refine ⟨Grows.refl p, hm, ?_⟩
      intro a _ y hy
      simp only [Req.pos?, if_pos hv] at hy; cases hy
    · rw [if_neg hv]
      obtain ⟨h1, h2, h3⟩ := viaRoot_spec H x (withUnit (H.incl x vers)) p hm
      refine ⟨h1, h2, fun a ha y hy => ?_⟩
      simp only [Req.pos?, if_neg hv] at hy; cases hy; exact (h3 a ha).1
  | stop x ver => exact ⟨Grows.refl p, hm, fun a _ y hy => by cases hy⟩
  | addLadder x om g l => exact ⟨Grows.state _ _, hm, fun a _ y hy => by cases hy⟩

/-- the requests and answers of a run -/
def Provider.trace {α : Type} (H : Handle σ) : Prog α → Provider σ → List Ev
  | .ret _, _ => []
  | .op q k, p => ⟨q, (p.answer H q).1⟩ :: trace H (k (p.answer H q).1) (p.answer H q).2

/-- What a run of a program does to the provider: it is a run in the sense of `Runs`, nothing known is lost, the
timestamps remain a table, and every timestamp learned is in it. -/
theorem run_spec {α : Type} (H : Handle σ) (prog : Prog α) (p : Provider σ) (hm : TsMap p.timestamps) :
    Grows p (p.run H prog).2 ∧ TsMap (p.run H prog).2.timestamps ∧
    Runs prog (p.trace H prog) (p.run H prog).1 ∧
      (∀ x a, ⟨.ts x, .ok a⟩ ∈ p.trace H prog → (x, a) ∈ (p.run H prog).2.timestamps) ∧
      (∀ e ∈ p.trace H prog, ∀ a, e.a = .ok a → ∀ x, e.q.pos? = some x → x ∈ (p.run H prog).2.timestamps.map Prod.fst) := by
  induction prog generalizing p with
  | ret r => exact ⟨Grows.refl p, hm, .ret _, by simp [Provider.trace], by simp [Provider.trace]⟩
  | op q k ih =>
    obtain ⟨g1, m1, t1⟩ := answer_spec H q p hm
    obtain ⟨g2, m2, r2, h2, h3⟩ := ih (p.answer H q).1 (p.answer H q).2 m1
    refine ⟨g1.trans g2, m2, .op _ r2, ?_, ?_⟩
    · intro x a hx
      rcases List.mem_cons.1 hx with hx | hx
      · have hq : q = .ts x := (Ev.mk.inj hx).1.symm
        subst hq
        have ha : (p.answer H (.ts x)).1 = .ok a := (eq_of_heq (Ev.mk.inj hx).2).symm
        exact g2.ts _ ((getTimestamp_spec H x p hm).2.2 a ha)
      · exact h2 x a hx
    · intro e he a ha x hx
      rcases List.mem_cons.1 he with rfl | he
      · obtain ⟨f, hf, hfx⟩ := List.mem_map.1 (t1 a ha x hx)
        exact List.mem_map.2 ⟨f, g2.ts f hf, hfx⟩
      · exact h3 e he a ha x hx

theorem retainLoop_spec (es : List (Nat × LogEntry)) (p : Provider σ) (hm : TsMap p.timestamps) :
    TsMap (Provider.retainLoop es p).2.timestamps ∧ Grows p (Provider.retainLoop es p).2 ∧
    (Provider.retainLoop es p).2.state = p.state ∧
    ((Provider.retainLoop es p).1 = .ok () → ∀ e ∈ es,
      (e.1, e.2.timestamp) ∈ (Provider.retainLoop es p).2.timestamps ∧
      (Provider.retainLoop es p).2.prefixTrees.lookup e.1 = some e.2.prefixTree) := by
  induction es generalizing p with
  | nil => exact ⟨hm, Grows.refl p, rfl, by simp⟩
  | cons e es ih =>
    obtain ⟨x, l⟩ := e
    unfold Provider.retainLoop
    split
    · exact ⟨hm, Grows.refl p, rfl, fun h => by cases h⟩
    next ts h1 =>
    have hg : Grows p { p with timestamps := ts } :=
      ⟨fun e he => by rw [(addTimestamp_ok h1).1]; exact List.mem_cons_of_mem _ he, fun _ _ h => h, rfl, rfl⟩
    simp only
    split
    · exact ⟨hm.add h1, hg, rfl, fun h => by cases h⟩
    next pt h2 =>
    have hg2 : Grows p { p with timestamps := ts, prefixTrees := pt } :=
      hg.trans ⟨fun _ h => h, (addPrefixTree_ok h2).2, rfl, rfl⟩
    obtain ⟨i1, i2, i3, i4⟩ := ih { p with timestamps := ts, prefixTrees := pt } (hm.add h1)
    refine ⟨i1, hg2.trans i2, i3, ?_⟩
    intro hok e he
    rcases List.mem_cons.1 he with rfl | he
    · refine ⟨i2.ts _ ?_, i2.roots _ _ (addPrefixTree_ok h2).1⟩
      rw [show ({ p with timestamps := ts, prefixTrees := pt } : Provider σ).timestamps = ts from rfl,
        (addTimestamp_ok h1).1]
      exact List.mem_cons_self
    · exact i4 hok e he

/-! ### a total, monotone timestamp function through a table -/

/-- the greatest timestamp known at or before a position -/
def extendTs (m : List (Nat × Nat)) (x : Nat) : Nat := ((m.filter (fun e => e.1 ≤ x)).map Prod.snd).foldr max 0

theorem foldr_max_le {l : List Nat} {b : Nat} : l.foldr max 0 ≤ b ↔ ∀ a ∈ l, a ≤ b := by
  induction l with
  | nil => simp
  | cons a l ih => simp [ih]

theorem le_foldr_max {l : List Nat} {a : Nat} (h : a ∈ l) : a ≤ l.foldr max 0 := foldr_max_le.1 (le_refl _) a h

theorem extendTs_mono (m : List (Nat × Nat)) {x y : Nat} (h : x ≤ y) : extendTs m x ≤ extendTs m y := by
  unfold extendTs
  rw [foldr_max_le]
  intro a ha
  obtain ⟨e, he, rfl⟩ := List.mem_map.1 ha
  refine le_foldr_max (List.mem_map.2 ⟨e, ?_, rfl⟩)
  simp only [List.mem_filter, decide_eq_true_eq] at he ⊢
  exact ⟨he.1, by omega⟩

theorem extendTs_mem {m : List (Nat × Nat)} (hm : TsMap m) {x a : Nat} (h : (x, a) ∈ m) : extendTs m x = a := by
  apply le_antisymm
  · unfold extendTs
    rw [foldr_max_le]
    intro b hb
    obtain ⟨e, he, rfl⟩ := List.mem_map.1 hb
    simp only [List.mem_filter, decide_eq_true_eq] at he
    exact hm.mono e he.1 _ h he.2
  · exact le_foldr_max (List.mem_map.2 ⟨(x, a), by simp [h], rfl⟩)

/-! ### Finish -/

theorem insertLeaf_mem {e f : Nat × LogEntry} {l : List (Nat × LogEntry)} :
    f ∈ Provider.insertLeaf e l ↔ f = e ∨ f ∈ l := by
  induction l with
  | nil => simp [Provider.insertLeaf]
  | cons g l ih =>
    unfold Provider.insertLeaf
    split
    · simp
    · simp only [List.mem_cons, ih]; tauto

theorem sortLeaves_mem {f : Nat × LogEntry} {l : List (Nat × LogEntry)} :
    f ∈ l.foldr Provider.insertLeaf [] ↔ f ∈ l := by
  induction l with
  | nil => simp
  | cons g l ih => simp only [List.foldr_cons, insertLeaf_mem, ih, List.mem_cons]

theorem newLeaves_mem {p : Provider σ} {x : Nat} {e : LogEntry} : (x, e) ∈ p.newLeaves ↔
    (x, e.timestamp) ∈ p.timestamps ∧ p.logEntries.lookup x = none ∧ e.prefixTree = (p.prefixTrees.lookup x).getD [] := by
  unfold Provider.newLeaves
  rw [sortLeaves_mem]
  simp only [List.mem_map, List.mem_filter, Option.isNone_iff_eq_none, Prod.mk.injEq]
  constructor
  · rintro ⟨f, ⟨h1, h2⟩, rfl, rfl⟩
    exact ⟨h1, h2, rfl⟩
  · rintro ⟨h1, h2, h3⟩
    refine ⟨(x, e.timestamp), ⟨h1, h2⟩, rfl, ?_⟩
    cases e; simp only at h3 ⊢; rw [h3]

end Katie.Alg
