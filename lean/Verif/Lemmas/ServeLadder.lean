import Verif.Lemmas.ServeLabel
import Verif.Lemmas.ClientOps

/-
The parts of a request that surround the proof: the binary ladder with the VRF proofs, and the entries that the client
has retained.
-/

namespace Katie.Server
open Katie Katie.Wire Katie.Alg Katie.Ladder Katie.ServerSpec Katie.PrefixSpec Katie.AuditSpec Katie.SearchSpec Katie.Props
  Katie.Client Katie.SearchTree Katie.ServedSpec

/-! ### ladders -/

theorem ladder_self {t : Nat} (ht : t < 2 ^ 31 - 1) :
    ∃ b, searchBinaryLadder t t [] [] = .ok b ∧ baseBinaryLadder t = .ok b ∧ b.Nodup ∧ 0 ∈ b ∧ t ∈ b ∧ ∀ v ∈ b, v < 2 ^ 31 := by
  obtain ⟨b, h1, h2, -, h4, h5⟩ := baseBinaryLadder_ok ht
  refine ⟨b, ?_, h1, Alg.Bisection.nodup h2, List.mem_of_mem_head? h4, ?_, h5⟩
  · unfold searchBinaryLadder
    rw [h1, G.ok_bind, searchLoop_self]
    simp
  · have := List.mem_of_getLast? h2.lowEnd
    exact (List.mem_filter.1 this).1

theorem lookup_fun {β : Type} {K : Nat → β} : ∀ {L : List (Nat × β)}, (∀ e ∈ L, e.2 = K e.1) → ∀ v,
    L.lookup v = if v ∈ L.map Prod.fst then some (K v) else none
  | [], _, v => by simp
  | (w, k) :: L, h, v => by
    have ih := lookup_fun (L := L) (fun e he => h e (List.mem_cons_of_mem _ he)) v
    have hk : k = K w := h _ List.mem_cons_self
    by_cases hv : v = w
    · subst hv
      rw [List.lookup_cons_self, hk]
      simp
    · rw [List.lookup_cons, (by simpa using hv : (v == w) = false), ih]
      simp only [List.map_cons, List.mem_cons, hv, false_or]

/-- the table of a ladder -/
def ladderTable (out : Nat → Bytes) (C : Nat → Option Bytes) (vs : List Nat) : Versions :=
  (vs.map (fun v => (v, (⟨out v, C v⟩ : Known)))).reverse

theorem ladderTable_lookup (out : Nat → Bytes) (C : Nat → Option Bytes) (vs : List Nat) (v : Nat) :
    (ladderTable out C vs).lookup v = if v ∈ vs then some ⟨out v, C v⟩ else none := by
  rw [lookup_fun (K := fun v => (⟨out v, C v⟩ : Known))]
  · congr 1
    simp [ladderTable]
  · intro e he
    rw [ladderTable, List.mem_reverse] at he
    obtain ⟨v, -, rfl⟩ := List.mem_map.1 he
    rfl

theorem ladderTable_table {out com : Nat → Bytes} {C : Nat → Option Bytes} {vs : List Nat}
    (h : ∀ v ∈ vs, C v = none ∨ C v = some (com v)) : Table vs out com (ladderTable out C vs) := by
  constructor
  · intro v hv
    exact ⟨_, by rw [ladderTable_lookup, if_pos hv]⟩
  · intro v k hk
    rw [ladderTable_lookup] at hk
    split at hk
    · next hv =>
      cases hk
      exact ⟨hv, rfl, h v hv⟩
    · cases hk

theorem addVersion_new {cs : Log.Suite} {vs : Versions} {v : Nat} {o : Bytes} {c : Option Bytes} (ho : o.length = cs.hashSize)
    (hc : ∀ x, c = some x → x.length = cs.hashSize) (hv : vs.lookup v = none) :
    Alg.addVersion cs vs v o c = .ok ((v, ⟨o, c⟩) :: vs) := by
  unfold Alg.addVersion
  rw [if_neg (by simpa using ho), if_neg, if_neg (by simp [hv])]
  · rfl
  · cases c with
    | none => simp
    | some x => simpa using hc x rfl

theorem lookup_append_none {β : Type} {A B : List (Nat × β)} {v : Nat} :
    (A ++ B).lookup v = none ↔ A.lookup v = none ∧ B.lookup v = none := by
  rw [List.lookup_append]
  cases A.lookup v <;> simp

theorem addLadder_ok {env : Env} {l : Bytes} : ∀ {vs : List Nat} {s : Produced}, vs.Nodup →
    (∀ v ∈ vs, ∃ o pr, computeVrf env l v = .ok (o, pr) ∧ o.length = env.cs.hashSize) →
    (∀ v ∈ vs, s.versions.lookup v = none) →
    addLadder env l vs s = .ok (vs.map (fun v => ⟨(vrfOf env l v).2, none⟩),
      { s with versions := ladderTable (fun v => (vrfOf env l v).1) (fun _ => none) vs ++ s.versions })
  | [], s, _, _, _ => rfl
  | v :: vs, s, hn, hv, hs => by
    rw [List.nodup_cons] at hn
    obtain ⟨o, pr, h1, h2⟩ := hv v List.mem_cons_self
    unfold addLadder
    rw [h1, G.ok_bind]
    unfold Produced.addVersion
    rw [addVersion_new h2 (by simp) (hs v List.mem_cons_self)]
    simp only [G.ok_bind, G.pure_eq]
    rw [addLadder_ok hn.2 (fun w hw => hv w (List.mem_cons_of_mem _ hw))]
    · simp only [G.ok_bind, List.map_cons, vrfOf, h1, ladderTable, List.reverse_cons, List.append_assoc, List.singleton_append]
    · intro w hw
      have hne : w ≠ v := fun h => hn.1 (h ▸ hw)
      rw [List.lookup_cons, (by simpa using hne : (w == v) = false)]
      exact hs w (List.mem_cons_of_mem _ hw)

theorem processSteps_ok {env : CEnv} {l : Bytes} {manual : List (Nat × Bytes)} {out : Nat → Bytes} {C : Nat → Option Bytes}
    {f : Nat → BinaryLadderStep} : ∀ {vs : List Nat} {w : Verifier}, vs.Nodup →
    (∀ v ∈ vs, ∃ input, vrfInput l v = .ok input ∧ env.vrfVerify input (f v).proof = .ok (out v)) →
    (∀ v ∈ vs, (out v).length = env.cs.hashSize) →
    (∀ v ∈ vs, ladderCommitment manual v (f v) = .ok (C v)) →
    (∀ v ∈ vs, ∀ c, C v = some c → c.length = env.cs.hashSize) →
    (∀ v ∈ vs, w.p.state.versions.lookup v = none) →
    processSteps env l manual (vs.map (fun v => (v, f v))) w = .ok
      { w with p := { w.p with state := { w.p.state with versions := ladderTable out C vs ++ w.p.state.versions } } }
  | [], w, _, _, _, _, _, _ => rfl
  | v :: vs, w, hn, hv, ho, hc, hl, hw => by
    rw [List.nodup_cons] at hn
    obtain ⟨input, h1, h2⟩ := hv v List.mem_cons_self
    rw [List.map_cons]
    unfold processSteps
    rw [h1, G.ok_bind, h2, G.ok_bind, hc v List.mem_cons_self, G.ok_bind]
    unfold Verifier.addVersion Received.addVersion
    rw [addVersion_new (ho v List.mem_cons_self) (hl v List.mem_cons_self) (hw v List.mem_cons_self)]
    simp only [G.ok_bind, G.pure_eq]
    rw [processSteps_ok (C := C) (out := out) hn.2 (fun x hx => hv x (List.mem_cons_of_mem _ hx)) (fun x hx => ho x (List.mem_cons_of_mem _ hx))
      (fun x hx => hc x (List.mem_cons_of_mem _ hx)) (fun x hx => hl x (List.mem_cons_of_mem _ hx))]
    · simp [ladderTable]
    · intro x hx
      have hne : x ≠ v := fun h => hn.1 (h ▸ hx)
      rw [List.lookup_cons, (by simpa using hne : (x == v) = false)]
      exact hw x (List.mem_cons_of_mem _ hx)

theorem zip_map_self {α β : Type} (f : α → β) : ∀ l : List α, l.zip (l.map f) = l.map (fun v => (v, f v))
  | [] => rfl
  | a :: l => by simp [zip_map_self f l]

/-! ### the retained entries -/

theorem retain_ok {σ : Type} {n : Nat} {E : Nat → LogEntry} (ht : GoodTimes (fun x => (E x).timestamp) n) :
    ∀ {f : List Nat} {p : Provider σ}, f.Nodup → (∀ x ∈ f, x < n) → (∀ e ∈ p.timestamps, e.1 < n ∧ e.2 = (E e.1).timestamp) →
    (∀ x ∈ f, p.timestamps.lookup x = none) → (∀ x ∈ f, p.prefixTrees.lookup x = none) →
    Provider.retainLoop (f.map (fun x => (x, E x))) p = (.ok (), { p with
      timestamps := (f.map (fun x => (x, (E x).timestamp))).reverse ++ p.timestamps
      prefixTrees := (f.map (fun x => (x, (E x).prefixTree))).reverse ++ p.prefixTrees })
  | [], p, _, _, _, _, _ => rfl
  | x :: f, p, hn, hlt, hp, h1, h2 => by
    rw [List.nodup_cons] at hn
    rw [List.map_cons]
    unfold Provider.retainLoop
    simp only
    rw [addTimestamp_agrees ht hp (hlt x List.mem_cons_self) (h1 x List.mem_cons_self)]
    simp only
    have h3 : addPrefixTree p.prefixTrees x (E x).prefixTree = .ok ((x, (E x).prefixTree) :: p.prefixTrees) := by
      unfold addPrefixTree
      rw [h2 x List.mem_cons_self]
    rw [h3]
    simp only
    have hne : ∀ y ∈ f, (y == x) = false := fun y hy => by
      have : y ≠ x := fun h => hn.1 (h ▸ hy)
      simpa using this
    rw [retain_ok ht hn.2 (fun y hy => hlt y (List.mem_cons_of_mem _ hy))]
    · simp
    · intro e he
      rcases List.mem_cons.1 he with rfl | he
      · exact ⟨hlt x List.mem_cons_self, rfl⟩
      · exact hp e he
    · intro y hy
      rw [List.lookup_cons, hne y hy]
      exact h1 y (List.mem_cons_of_mem _ hy)
    · intro y hy
      rw [List.lookup_cons, hne y hy]
      exact h2 y (List.mem_cons_of_mem _ hy)

theorem frontierEntries_ok {env : Env} {st : Store} {E : Nat → LogEntry} : ∀ {f : List Nat},
    (∀ x ∈ f, getEntry env st x = .ok (E x)) → frontierEntries env st f = .ok (f.map (fun x => (x, E x)))
  | [], _ => rfl
  | x :: f, h => by
    have h1 := h x List.mem_cons_self
    have h2 := frontierEntries_ok (f := f) (fun y hy => h y (List.mem_cons_of_mem _ hy))
    unfold frontierEntries
    unfold getEntry at h1
    cases hl : st.entries.lookup x with
    | none => rw [hl] at h1; cases h1
    | some raw =>
      rw [hl] at h1
      simp only at h1
      simp only [h1, h2, G.ok_bind, List.map_cons, G.pure_eq]

/-- the tables of a provider with the entries `f` retained -/
def retainedTables {σ : Type} (s : σ) (E : Nat → LogEntry) (full : List Bytes) (f : List Nat) : Provider σ :=
  ⟨s, full, f.map (fun x => (x, E x)), (f.map (fun x => (x, (E x).timestamp))).reverse,
    (f.map (fun x => (x, (E x).prefixTree))).reverse⟩

theorem addRetained_tables {σ : Type} {n : Nat} {E : Nat → LogEntry} (ht : GoodTimes (fun x => (E x).timestamp) n) {f : List Nat}
    (hn : f.Nodup) (hlt : ∀ x ∈ f, x < n) (s : σ) (full : List Bytes) :
    (newProvider s).addRetained full (f.map (fun x => (x, E x))) = (.ok (), retainedTables s E full f) := by
  unfold Provider.addRetained
  rw [retain_ok ht hn hlt]
  · simp [retainedTables, newProvider]
  · intro e he; cases he
  · intro x _; rfl
  · intro x _; rfl

theorem retainedTables_fresh {n : Nat} {E : Nat → LogEntry} (ht : GoodTimes (fun x => (E x).timestamp) n) {f : List Nat}
    (hn : f.Nodup) (hlt : ∀ x ∈ f, x < n) {s : Produced} (full : List Bytes) (h1 : s.tracker = {}) (h2 : s.timestamps = [])
    (h3 : s.proofs = []) : Fresh n E (retainedTables s E full f) where
  ts := by
    have := (retainLoop_spec (f.map (fun x => (x, E x))) ({ newProvider s with fullSubtrees := full, logEntries := f.map (fun x => (x, E x)) }) TsMap.nil).1
    have e := addRetained_tables ht hn hlt s full
    unfold Provider.addRetained at e
    rw [e] at this
    exact this
  agrees := by
    constructor
    · intro e he
      simp only [retainedTables, List.mem_reverse, List.mem_map] at he
      obtain ⟨x, hx, rfl⟩ := he
      exact ⟨hlt x hx, rfl⟩
    · intro x r hr
      rw [lookup_fun (K := fun x => (E x).prefixTree)] at hr
      · split at hr
        · exact (Option.some.inj hr).symm
        · cases hr
      · intro e he
        simp only [retainedTables, List.mem_reverse, List.mem_map] at he
        obtain ⟨x, hx, rfl⟩ := he
        rfl
  retained x hx := by
    rw [lookup_fun (K := fun x => E x)] at hx
    · rw [lookup_fun (K := fun x => (E x).prefixTree)]
      · simp only [retainedTables, List.map_map, List.map_reverse] at hx ⊢
        split at hx
        · next h =>
          rw [if_pos]
          · simp
          · simpa using h
        · exact absurd rfl hx
      · intro e he
        simp only [retainedTables, List.mem_reverse, List.mem_map] at he
        obtain ⟨x, hx, rfl⟩ := he
        rfl
    · intro e he
      simp only [retainedTables, List.mem_map] at he
      obtain ⟨x, hx, rfl⟩ := he
      rfl
  tracker := h1
  times := h2
  proofs := h3

end Katie.Server
