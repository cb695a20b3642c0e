import Verif.Lemmas.Stays
import Verif.Lemmas.TornLog
import Verif.Lemmas.ServeOnly

/-
A handler that works for a tree of size `n` gives the same answer on another database that has the same log entries, the
same versions of the prefix tree and the same log tree up to `n`.
-/

namespace Katie.Alg
open Katie Katie.Wire Katie.Ladder Prog

section
variable {db db' : ServerDB} {index index' : List Nat} {n : Nat}

/-- the same log entries, and the same versions of the label in them -/
structure SameBelow (n : Nat) (db db' : ServerDB) (index index' : List Nat) : Prop where
  entry : ∀ x < n, db'.entry x = db.entry x
  great : ∀ x < n, greatestAt index' x = greatestAt index x

theorem SameBelow.getTs (h : SameBelow n db db' index index') {x : Nat} (hx : x < n) :
    (Produced.handle db' index').getTs x = (Produced.handle db index).getTs x := by
  funext s
  simp only [Produced.handle, Produced.getTs, h.entry x hx]

theorem SameBelow.getTimestamp (h : SameBelow n db db' index index') {x : Nat} (hx : x < n) (p : Provider Produced) :
    p.getTimestamp (Produced.handle db' index') x = p.getTimestamp (Produced.handle db index) x := by
  unfold Provider.getTimestamp
  rw [h.getTs hx]

theorem SameBelow.answer (h : SameBelow n db db' index index') {q : Req} (hq : q.below n) (p : Provider Produced) :
    p.answer (Produced.handle db' index') q = p.answer (Produced.handle db index) q := by
  cases q with
  | ts x => exact h.getTimestamp hq p
  | search x v om =>
    change p.getSearch _ x v om = p.getSearch _ x v om
    unfold Provider.getSearch
    rw [h.getTimestamp hq, show (Produced.handle db' index').search x v om = (Produced.handle db index).search x v om by
      funext s
      simp only [Produced.handle, Produced.search, h.entry x hq, h.great x hq]]
  | monitor x v =>
    change p.getMonitor _ x v = p.getMonitor _ x v
    unfold Provider.getMonitor
    rw [h.getTimestamp hq, show (Produced.handle db' index').monitor x v = (Produced.handle db index).monitor x v by
      funext s
      simp only [Produced.handle, Produced.monitor, h.entry x hq]]
  | incl x vers =>
    change p.getIncl _ x vers = p.getIncl _ x vers
    unfold Provider.getIncl
    rcases hq with rfl | hq
    · rfl
    · rw [h.getTimestamp hq, show (Produced.handle db' index').incl x vers = (Produced.handle db index).incl x vers by
        funext s
        simp only [Produced.handle, Produced.incl, h.entry x hq]]
  | stop x v =>
    change (Except.ok ((Produced.handle db' index').stop x v p.state), p) = (Except.ok ((Produced.handle db index).stop x v p.state), p)
    simp only [Produced.handle, Produced.stop, h.great x hq]
  | addLadder x om g l => rfl

theorem SameBelow.run (h : SameBelow n db db' index index') {α : Type} {Q : α → Prop} {prog : Prog α} (hs : Stays n Q prog)
    (p : Provider Produced) : p.run (Produced.handle db' index') prog = p.run (Produced.handle db index) prog := by
  induction prog generalizing p with
  | ret r => rfl
  | op q k ih =>
    unfold Provider.run
    rw [h.answer hs.1]
    exact ih _ (hs.2 _) _

/-- everything that the provider knows is about log entries before `n` -/
structure Small (n : Nat) (p : Provider Produced) : Prop where
  ts : ∀ e ∈ p.timestamps, e.1 < n
  proofs : ∀ e ∈ p.state.proofs, e.1 < n

theorem Small.getTimestamp {p : Provider Produced} (h : Small n p) {x : Nat} (hx : x < n) :
    Small n (p.getTimestamp (Produced.handle db index) x).2 := by
  unfold Provider.getTimestamp
  split
  · exact h
  have key : ((Produced.handle db index).getTs x p.state).2.proofs = p.state.proofs := by
    simp only [Produced.handle, Produced.getTs]
    split <;> rfl
  split
  · next e s hs =>
    rw [hs] at key
    exact ⟨h.ts, by change ∀ e ∈ s.proofs, _; rw [show s.proofs = _ from key]; exact h.proofs⟩
  next a s hs =>
  rw [hs] at key
  have key' : ∀ e ∈ s.proofs, e.1 < n := by rw [show s.proofs = _ from key]; exact h.proofs
  split
  · exact ⟨h.ts, key'⟩
  next m hm =>
    refine ⟨?_, key'⟩
    rw [(addTimestamp_ok hm).1]
    intro e he
    rcases List.mem_cons.1 he with rfl | he
    · exact hx
    · exact h.ts e he

theorem Small.record {β : Type} {p : Provider Produced} (h : Small n p) (x : Nat) (root : Bytes) (b : β) :
    Small n (p.record x root b).2 := by
  obtain ⟨-, h1, h2, -⟩ := record_spec x root b p
  exact ⟨by rw [h1]; exact h.ts, by rw [h2]; exact h.proofs⟩

theorem Small.viaRoot {γ : Type} {p : Provider Produced} (h : Small n p) {x : Nat} (hx : x < n) {f : Produced → G (Bytes × γ) × Produced}
    (hf : ∀ s, (∀ e ∈ s.proofs, e.1 < n) → ∀ e ∈ (f s).2.proofs, e.1 < n) :
    Small n (viaRoot (Produced.handle db index) x f p).2 := by
  have h1 := h.getTimestamp (db := db) (index := index) hx
  unfold Alg.viaRoot
  cases hg : p.getTimestamp (Produced.handle db index) x with
  | mk r p1 =>
  rw [hg] at h1
  cases r with
  | error e => exact h1
  | ok t =>
    have h2 := hf _ h1.proofs
    simp only
    cases hs : f p1.state with
    | mk r s =>
    rw [hs] at h2
    cases r with
    | error e => exact ⟨h1.ts, h2⟩
    | ok a => exact Small.record (p := { p1 with state := s }) ⟨h1.ts, h2⟩ _ _ _

theorem Small.answer {p : Provider Produced} (h : Small n p) {q : Req} (hq : q.below n) :
    Small n (p.answer (Produced.handle db index) q).2 := by
  have push : ∀ (l : List (Nat × List Nat)) (x : Nat) (w : List Nat), x < n → (∀ e ∈ l, e.1 < n) → ∀ e ∈ l ++ [(x, w)], e.1 < n := by
    intro l x w hx hl e he
    rcases List.mem_append.1 he with he | he
    · exact hl e he
    · rw [List.mem_singleton.1 he]; exact hx
  cases q with
  | ts x => exact h.getTimestamp hq
  | search x v om =>
    have e : p.answer (Produced.handle db index) (.search x v om) = Alg.viaRoot (Produced.handle db index) x _ p := getSearch_eq _ x v om p
    rw [e]
    refine h.viaRoot hq (fun s hs => ?_)
    simp only [Produced.handle, Produced.search]
    split
    · exact hs
    · split
      · exact hs
      · exact push _ _ _ hq hs
  | monitor x v =>
    have e : p.answer (Produced.handle db index) (.monitor x v) = Alg.viaRoot (Produced.handle db index) x _ p := getMonitor_eq _ x v p
    rw [e]
    refine h.viaRoot hq (fun s hs => ?_)
    have key : ∀ e ∈ ((Produced.handle db index).monitor x v s).2.proofs, e.1 < n := by
      simp only [Produced.handle, Produced.monitor]
      split
      · exact hs
      · split
        · exact hs
        · exact push _ _ _ hq hs
    unfold withUnit
    split <;> (next hm => rw [hm] at key; exact key)
  | incl x vers =>
    have e : p.answer (Produced.handle db index) (.incl x vers) = _ := getIncl_eq (Produced.handle db index) x vers p
    rw [e]
    split
    · exact h
    · next hl =>
      have hx : x < n := by
        rcases hq with rfl | hq
        · exact absurd rfl hl
        · exact hq
      refine h.viaRoot hx (fun s hs => ?_)
      have key : ∀ e ∈ ((Produced.handle db index).incl x vers s).2.proofs, e.1 < n := by
        simp only [Produced.handle, Produced.incl]
        split
        · exact hs
        · exact push _ _ _ hx hs
      unfold withUnit
      split <;> (next hm => rw [hm] at key; exact key)
  | stop x v => exact h
  | addLadder x om g l => exact ⟨h.ts, h.proofs⟩

theorem Small.run {p : Provider Produced} (h : Small n p) {α : Type} {Q : α → Prop} {prog : Prog α} (hs : Stays n Q prog) :
    Small n (p.run (Produced.handle db index) prog).2 ∧ ∀ a, (p.run (Produced.handle db index) prog).1 = .ok a → Q a := by
  induction prog generalizing p with
  | ret r => exact ⟨h, hs⟩
  | op q k ih => exact ih _ (h.answer hs.1) (hs.2 _)

/-! ### the proof -/

/-- the same database up to size `n` -/
structure Sees (cs : Log.Suite) (n : Nat) (db db' : ServerDB) : Prop where
  entry : ∀ x < n, db'.entry x = db.entry x
  tiles : ∀ ss : List Prefix.Search, (∀ s ∈ ss, s.version ≤ n) → Prefix.search cs db'.prefixStore ss = Prefix.search cs db.prefixStore ss
  log : ∀ leaves nP m, Log.getBatch cs db'.logStore leaves n nP m = Log.getBatch cs db.logStore leaves n nP m

theorem readRoots_same (h : ∀ x < n, db'.entry x = db.entry x) : ∀ {xs : List Nat}, (∀ x ∈ xs, x < n) →
    Produced.readRoots db' xs = Produced.readRoots db xs
  | [], _ => rfl
  | x :: xs, hx => by
    unfold Produced.readRoots
    rw [h x (hx x (by simp)), readRoots_same h (fun y hy => hx y (by simp [hy]))]

theorem searches_small {vs : Versions} : ∀ {l : List (Nat × List Nat)} {ss : List Prefix.Search}, (∀ e ∈ l, e.1 < n) →
    Produced.searches vs l = .ok ss → ∀ s ∈ ss, s.version ≤ n
  | [], ss, _, h => by
    cases h
    simp
  | e :: l, ss, hl, h => by
    unfold Produced.searches at h
    obtain ⟨vrfs, -, h⟩ := G.bind_eq_ok.1 h
    obtain ⟨more, hm, h⟩ := G.bind_eq_ok.1 h
    cases h
    intro s hs
    rcases List.mem_cons.1 hs with rfl | hs
    · exact hl e (by simp)
    · exact searches_small (fun f hf => hl f (by simp [hf])) hm s hs

theorem Sees.output {cs : Log.Suite} (h : Sees cs n db db') {p : Provider Produced} (hp : Small n p) (nP m : Option Nat) :
    p.output cs db' index' n nP m = p.output cs db index n nP m := by
  have hleaf : ∀ x ∈ Provider.emptyLeaves p.newLeaves, x < n := by
    intro x hx
    unfold Provider.emptyLeaves at hx
    obtain ⟨⟨y, e⟩, he, rfl⟩ := List.mem_map.1 hx
    exact hp.ts _ (newLeaves_mem.1 (List.mem_filter.1 he).1).1
  have hpt : (Produced.handle db' index').prefixTrees (Provider.emptyLeaves p.newLeaves) p.state =
      (Produced.handle db index).prefixTrees (Provider.emptyLeaves p.newLeaves) p.state := by
    simp only [Produced.handle, Produced.prefixTrees, readRoots_same h.entry hleaf]
  have hins : p.inspectedLeaves (Produced.handle db' index') = p.inspectedLeaves (Produced.handle db index) := by
    unfold Provider.inspectedLeaves
    simp only
    rw [hpt]
  have hproofs : ∀ leaves p', p.inspectedLeaves (Produced.handle db index) = (.ok leaves, p') → p'.state.proofs = p.state.proofs := by
    intro leaves p' hi
    unfold Provider.inspectedLeaves at hi
    simp only [Produced.handle, Produced.prefixTrees] at hi
    split at hi
    · cases hi
    next s hs =>
    split at hs
    · cases hs
    · cases hs
      split at hi
      · cases hi
      · cases hi
        rfl
  unfold Provider.output
  rw [hins]
  split
  · rfl
  next leaves p' hi =>
    have hpr := hproofs _ _ hi
    have : Produced.output cs db' (leaves.map (·.1)) n nP m p'.state = Produced.output cs db (leaves.map (·.1)) n nP m p'.state := by
      unfold Produced.output
      cases hss : Produced.searches p'.state.versions p'.state.proofs with
      | error e => rfl
      | ok ss =>
        rw [G.ok_bind, G.ok_bind, h.tiles ss (searches_small (by rw [hpr]; exact hp.proofs) hss)]
        simp only [h.log]
    rw [this]

end

end Katie.Alg
