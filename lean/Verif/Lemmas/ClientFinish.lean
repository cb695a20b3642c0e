import Verif.Spec.Committed
import Verif.Props.C05_C06_LogSound
import Verif.Props.C48_Injective

/-
What a client knows after `Finish`: the entries it has inspected are those of the log whose root it has computed.
-/

namespace Katie.CommittedSpec
open Katie Katie.Wire Katie.Alg

theorem HashBroken.mono {cs : Log.Suite} {A A' B B' : List Bytes} (h : HashBroken cs A B) (hA : ∀ a ∈ A, a ∈ A')
    (hB : ∀ b ∈ B, b ∈ B') : HashBroken cs A' B' := by
  rcases h with ⟨a, ha, b, hb, h⟩ | ⟨a, ha, h⟩
  · exact Or.inl ⟨a, hA a ha, b, hB b hb, h⟩
  · refine Or.inr ⟨a, ?_, h⟩
    rcases List.mem_append.1 ha with ha | ha
    · exact List.mem_append_left _ (hA a ha)
    · exact List.mem_append_right _ (hB a ha)

theorem collides_symm {H : Bytes → Bytes} {A B : List Bytes} (h : LogSpec.Collides H A B) : LogSpec.Collides H B A := by
  obtain ⟨a, ha, b, hb, hne, he⟩ := h
  exact ⟨b, hb, a, ha, hne.symm, he.symm⟩

theorem HashBroken.symm {cs : Log.Suite} {A B : List Bytes} (h : HashBroken cs A B) : HashBroken cs B A := by
  rcases h with h | ⟨a, ha, h⟩
  · exact Or.inl (collides_symm h)
  · refine Or.inr ⟨a, ?_, h⟩
    rcases List.mem_append.1 ha with ha | ha
    · exact List.mem_append_right _ ha
    · exact List.mem_append_left _ ha

theorem marshal_eq (e : LogEntry) : e.marshal = .ok (leafString e) := rfl

theorem leafString_inj {e e' : LogEntry} (h : e.timestamp < 2 ^ 64) (h' : e'.timestamp < 2 ^ 64)
    (hs : leafString e = leafString e') : e = e' :=
  Props.C48_log_entry e e' h h' (leafString e) (marshal_eq e) (by rw [marshal_eq, hs])

theorem leafHashes_ok {cs : Log.Suite} (l : List (Nat × LogEntry)) :
    Provider.leafHashes cs l = .ok (l.map (fun e => cs.H (leafString e.2))) := by
  induction l with
  | nil => rfl
  | cons e l ih =>
    unfold Provider.leafHashes LogEntry.hash
    rw [marshal_eq, ih]
    rfl

/-! ### the inspected leaves -/

theorem mem_insertLeaf {e f : Nat × LogEntry} {l : List (Nat × LogEntry)} :
    f ∈ Provider.insertLeaf e l ↔ f = e ∨ f ∈ l := by
  induction l with
  | nil => simp [Provider.insertLeaf]
  | cons a l ih =>
    unfold Provider.insertLeaf
    split
    · simp
    · simp only [List.mem_cons, ih]; tauto

theorem mem_sortLeaves {f : Nat × LogEntry} {l : List (Nat × LogEntry)} :
    f ∈ l.foldr Provider.insertLeaf [] ↔ f ∈ l := by
  induction l with
  | nil => simp
  | cons a l ih => simp only [List.foldr_cons, mem_insertLeaf, ih, List.mem_cons]

theorem keys_insertLeaf {e : Nat × LogEntry} {l : List (Nat × LogEntry)} :
    ((Provider.insertLeaf e l).map Prod.fst).Perm (e.1 :: l.map Prod.fst) := by
  induction l with
  | nil => simp [Provider.insertLeaf]
  | cons a l ih =>
    unfold Provider.insertLeaf
    split
    · simp
    · simp only [List.map_cons]
      exact (List.Perm.cons _ ih).trans (List.Perm.swap _ _ _)

theorem keys_sortLeaves {l : List (Nat × LogEntry)} :
    ((l.foldr Provider.insertLeaf []).map Prod.fst).Perm (l.map Prod.fst) := by
  induction l with
  | nil => simp
  | cons a l ih =>
    simp only [List.foldr_cons, List.map_cons]
    exact keys_insertLeaf.trans (List.Perm.cons _ ih)

/-- the leaves that `Finish` inspects: those of all timestamps known and not retained, with the recorded root or the
empty string -/
theorem mem_newLeaves {σ : Type} {p : Provider σ} {x : Nat} {e : LogEntry} : (x, e) ∈ p.newLeaves ↔
    (x, e.timestamp) ∈ p.timestamps ∧ p.logEntries.lookup x = none ∧ e.prefixTree = (p.prefixTrees.lookup x).getD [] := by
  unfold Provider.newLeaves
  rw [mem_sortLeaves, List.mem_map]
  constructor
  · rintro ⟨⟨y, t⟩, h, he⟩
    obtain ⟨h1, h2⟩ := List.mem_filter.1 h
    obtain ⟨rfl, rfl⟩ := Prod.mk.inj he
    exact ⟨h1, by simpa using h2, rfl⟩
  · rintro ⟨h1, h2, h3⟩
    refine ⟨(x, e.timestamp), List.mem_filter.2 ⟨h1, by simp [h2]⟩, ?_⟩
    rw [← h3]

theorem newLeaves_nodup {σ : Type} {p : Provider σ} (hm : TsMap p.timestamps) : (p.newLeaves.map Prod.fst).Nodup := by
  unfold Provider.newLeaves
  refine keys_sortLeaves.symm.nodup ?_
  rw [List.map_map]
  exact (List.Nodup.sublist (List.Sublist.map _ List.filter_sublist) hm.keys)

theorem lookup_filter_ne {β : Type} {m : List (Nat × β)} {x y : Nat} (h : x ≠ y) :
    (m.filter (fun k => k.1 ≠ y)).lookup x = m.lookup x := by
  induction m with
  | nil => rfl
  | cons e m ih =>
    obtain ⟨k, b⟩ := e
    by_cases hk : k = y
    · rw [List.filter_cons_of_neg (by simp [hk]), ih, List.lookup_cons,
        show (x == k) = false by simpa [hk] using h]
    · rw [List.filter_cons_of_pos (by simpa using hk), List.lookup_cons, List.lookup_cons, ih]

/-- filling in the missing roots -/
theorem fillRoots_spec : ∀ (l : List (Nat × LogEntry)) (roots : List Bytes) (m : List (Nat × Bytes)),
    (l.map Prod.fst).Nodup → (∀ e ∈ l, e.2.prefixTree = (m.lookup e.1).getD []) →
    (Provider.fillRoots l roots m).1.map (fun e => (e.1, e.2.timestamp)) = l.map (fun e => (e.1, e.2.timestamp)) ∧
    (∀ e ∈ (Provider.fillRoots l roots m).1, e.2.prefixTree = ((Provider.fillRoots l roots m).2.lookup e.1).getD []) ∧
    (∀ x r, r ≠ [] → m.lookup x = some r → (Provider.fillRoots l roots m).2.lookup x = some r) ∧
    (∀ x, x ∉ l.map Prod.fst → (Provider.fillRoots l roots m).2.lookup x = m.lookup x) := by
  intro l
  induction l with
  | nil => intro roots m _ _; exact ⟨rfl, by simp [Provider.fillRoots], fun _ _ _ h => h, fun _ _ => rfl⟩
  | cons a l ih =>
    obtain ⟨x, e⟩ := a
    intro roots m hn hl
    rw [List.map_cons, List.nodup_cons] at hn
    have hx := hl (x, e) List.mem_cons_self
    simp only at hx
    unfold Provider.fillRoots
    split
    · next hemp =>
      cases roots with
      | nil =>
        obtain ⟨i1, i2, i3, i4⟩ := ih [] m hn.2 (fun f hf => hl f (List.mem_cons_of_mem _ hf))
        refine ⟨by simp [i1], ?_, i3, ?_⟩
        · intro f hf
          rcases List.mem_cons.1 hf with rfl | hf
          · change e.prefixTree = _
            rw [hx]; simp only; rw [i4 x hn.1]
          · exact i2 f hf
        · intro y hy
          simp only [List.map_cons, List.mem_cons, not_or] at hy
          exact i4 y hy.2
      | cons r0 roots =>
        obtain ⟨i1, i2, i3, i4⟩ := ih roots ((x, r0) :: m.filter (fun k => k.1 ≠ x)) hn.2 (by
          intro f hf
          have hne : f.1 ≠ x := by
            intro h; exact hn.1 (List.mem_map.2 ⟨f, hf, h⟩)
          rw [List.lookup_cons, show (f.1 == x) = false by simpa using hne]
          simp only
          rw [lookup_filter_ne hne]
          exact hl f (List.mem_cons_of_mem _ hf))
        refine ⟨congrArg (List.cons (x, e.timestamp)) i1, ?_, ?_, ?_⟩
        · intro f hf
          rcases List.mem_cons.1 hf with rfl | hf
          · simp only
            rw [i4 x hn.1]
            simp
          · exact i2 f hf
        · intro y r hr hy
          refine i3 y r hr ?_
          have hne : y ≠ x := by
            rintro rfl
            rw [hy] at hx
            simp only [Option.getD_some] at hx
            rw [hx] at hemp
            exact hr (by simpa using hemp)
          rw [List.lookup_cons, show (y == x) = false by simpa using hne]
          simp only
          rw [lookup_filter_ne hne, hy]
        · intro y hy
          simp only [List.map_cons, List.mem_cons, not_or] at hy
          simp only
          rw [i4 y hy.2, List.lookup_cons, show (y == x) = false by simpa using hy.1]
          simp only
          rw [lookup_filter_ne hy.1]
    · obtain ⟨i1, i2, i3, i4⟩ := ih roots m hn.2 (fun f hf => hl f (List.mem_cons_of_mem _ hf))
      refine ⟨by simp [i1], ?_, i3, ?_⟩
      · intro f hf
        rcases List.mem_cons.1 hf with rfl | hf
        · simp only; rw [hx, i4 x hn.1]
        · exact i2 f hf
      · intro y hy
        simp only [List.map_cons, List.mem_cons, not_or] at hy
        exact i4 y hy.2

/-- what `inspectedLeaves` does -/
theorem inspectedLeaves_spec {cs : Log.Suite} {p q : Provider Received} {ls : List (Nat × LogEntry)}
    (hm : TsMap p.timestamps) (h : p.inspectedLeaves (Received.handle cs) = (.ok ls, q)) :
    q.timestamps = p.timestamps ∧ q.fullSubtrees = p.fullSubtrees ∧ q.logEntries = p.logEntries ∧
    q.state.inner.inclusion = p.state.inner.inclusion ∧
    (∀ x r, r ≠ [] → p.prefixTrees.lookup x = some r → q.prefixTrees.lookup x = some r) ∧
    (∀ x, p.logEntries.lookup x ≠ none → q.prefixTrees.lookup x = p.prefixTrees.lookup x) ∧
    (∀ x t, (x, t) ∈ p.timestamps → p.logEntries.lookup x = none →
      (x, (⟨t, (q.prefixTrees.lookup x).getD []⟩ : LogEntry)) ∈ ls) ∧
    (∀ e ∈ ls, (e.1, e.2.timestamp) ∈ p.timestamps) := by
  unfold Provider.inspectedLeaves at h
  dsimp only at h
  split at h
  · cases h
  next roots s hr =>
  split at h
  · cases h
  obtain ⟨h1, h2⟩ := Prod.mk.inj h
  have h1 := Except.ok.inj h1
  subst h2
  obtain ⟨f1, f2, f3, f4⟩ := fillRoots_spec p.newLeaves roots p.prefixTrees (newLeaves_nodup hm)
    (fun e he => (mem_newLeaves.1 he).2.2)
  rw [h1] at f1 f2
  refine ⟨rfl, rfl, rfl, ?_, f3, ?_, ?_, ?_⟩
  · change Received.prefixTrees _ p.state = _ at hr
    unfold Received.prefixTrees at hr
    split at hr
    · cases hr
    · obtain ⟨-, rfl⟩ := Prod.mk.inj hr
      rfl
  · intro x hx
    refine f4 x ?_
    intro hmem
    obtain ⟨e, he, rfl⟩ := List.mem_map.1 hmem
    exact hx (mem_newLeaves.1 he).2.1
  · intro x t hxt hnone
    have hmem : (x, t) ∈ p.newLeaves.map (fun e => (e.1, e.2.timestamp)) :=
      List.mem_map.2 ⟨(x, ⟨t, (p.prefixTrees.lookup x).getD []⟩), mem_newLeaves.2 ⟨hxt, hnone, rfl⟩, rfl⟩
    rw [← f1] at hmem
    obtain ⟨⟨y, e⟩, he, heq⟩ := List.mem_map.1 hmem
    obtain ⟨rfl, rfl⟩ := Prod.mk.inj heq
    have := f2 _ he
    simp only at this ⊢
    rw [← this]
    exact he
  · intro e he
    have hmem : (e.1, e.2.timestamp) ∈ ls.map (fun e => (e.1, e.2.timestamp)) := List.mem_map.2 ⟨e, he, rfl⟩
    rw [f1] at hmem
    obtain ⟨⟨y, e'⟩, he', heq⟩ := List.mem_map.1 hmem
    rw [← heq]
    exact (mem_newLeaves.1 he').1

/-! ### the entries that are kept -/

theorem retained_spec {σ : Type} {p : Provider σ} : ∀ {xs : List Nat} {es : List (Nat × LogEntry)},
    p.retained xs = .ok es → es.map Prod.fst = xs ∧
      ∀ e ∈ es, p.timestamps.lookup e.1 = some e.2.timestamp ∧ p.prefixTrees.lookup e.1 = some e.2.prefixTree := by
  intro xs
  induction xs with
  | nil => intro es h; cases h; simp
  | cons x xs ih =>
    intro es h
    unfold Provider.retained at h
    split at h
    · cases h
    next ts hts =>
    split at h
    · cases h
    next pt hpt =>
    obtain ⟨rest, hr, h⟩ := G.bind_eq_ok.1 h
    have h := Except.ok.inj h
    subst h
    obtain ⟨i1, i2⟩ := ih hr
    refine ⟨by simp [i1], ?_⟩
    intro e he
    rcases List.mem_cons.1 he with rfl | he
    · exact ⟨hts, hpt⟩
    · exact i2 e he

/-! ### `Finish` -/

/-- The retained entries are known to the provider and are those of the log. -/
def RetainedOk (cs : Log.Suite) (W : List Content) {σ : Type} (p : Provider σ) : Prop :=
  ∀ e ∈ p.logEntries, (e.1, e.2.timestamp) ∈ p.timestamps ∧ p.prefixTrees.lookup e.1 = some e.2.prefixTree ∧
    ∃ c, W[e.1]? = some c ∧ e.2 = c.entry cs

/-- what a client that accepted knows about the log -/
structure Learned (cs : Log.Suite) (W : List Content) (p : Provider Received) (r : Provider.Result) : Prop where
  times : ∀ x t, (x, t) ∈ p.timestamps → ∃ c, W[x]? = some c ∧ c.time = t
  roots : ∀ x t s, (x, t) ∈ p.timestamps → s ≠ [] → p.prefixTrees.lookup x = some s →
    ∃ c, W[x]? = some c ∧ s = PrefixSpec.rootHash cs.H cs.hashSize c.map
  heads : r.fullSubtrees = LogSpec.heads cs.H (leaves cs W)
  entries : ∀ e ∈ r.logEntries, ∃ c, W[e.1]? = some c ∧ e.2 = c.entry cs
  frontier : SearchTree.frontier W.length = .ok (r.logEntries.map Prod.fst)

theorem leaves_length {cs : Log.Suite} {W : List Content} : (leaves cs W).length = W.length := by simp [leaves]

theorem finish_learned {cs : Log.Suite} (hcs : cs.Good) {W : List Content} (hW : WellFormed cs W) {p q : Provider Received}
    {nP m : Option Nat} {r : Provider.Result} (hm : TsMap p.timestamps) (h64 : ∀ e ∈ p.timestamps, e.2 < 2 ^ 64)
    (hret : RetainedOk cs W p) (hmn : ∀ k ∈ m, k ≤ W.length)
    (h : p.finish cs (Received.handle cs) W.length nP m = (.ok r, q))
    (hroot : Log.root cs W.length r.fullSubtrees = .ok (logRoot cs W)) :
    Learned cs W p r ∨ HashBroken cs (logStrings cs W) (finishStrings cs W.length nP m p) := by
  unfold Provider.finish at h
  split at h
  · cases h
  next ls p1 hl =>
  obtain ⟨a1, a2, a3, a4, a5, a6, a7, a8⟩ := inspectedLeaves_spec hm hl
  rw [leafHashes_ok] at h
  dsimp only at h
  split at h
  · cases h
  next proof s hf =>
  obtain ⟨h, -⟩ := Prod.mk.inj h
  obtain ⟨v, hv, h⟩ := G.bind_eq_ok.1 h
  obtain ⟨res, hres, h⟩ := G.bind_eq_ok.1 h
  obtain ⟨f, hfr, h⟩ := G.bind_eq_ok.1 h
  obtain ⟨es, hes, h⟩ := G.bind_eq_ok.1 h
  have h := (Except.ok.inj h).symm
  subst h
  have hproof : proof = p1.state.inner.inclusion := by
    change Received.finish p1.state = _ at hf
    unfold Received.finish at hf
    split at hf
    · cases hf
    split at hf
    · cases hf
    split at hf
    · cases hf
    · exact (Except.ok.inj (Prod.mk.inj hf).1).symm
  subst hproof
  have hstr : finishStrings cs W.length nP m p = ls.map (fun e => leafString e.2) ++
      (LogSpec.evalInputs W.length res.nodes ++ LogSpec.rootInputs cs.H W.length res.fullSubtrees) := by
    unfold finishStrings
    rw [hl]
    simp only [leafHashes_ok, G.ok_bind, hv, hres]
  have hlen : (leaves cs W).length = W.length := leaves_length
  have hn0 : 0 < W.length := by
    unfold Log.root at hroot
    split at hroot
    · cases hroot
    · omega
  have hL : ∀ v ∈ leaves cs W, v.length = cs.hashSize := by
    intro v hv
    obtain ⟨c, -, rfl⟩ := List.mem_map.1 hv
    exact hcs.len _
  -- the claimed leaves are those of the log
  have key : ((∀ i (hi : i < (ls.map (·.1)).length), (leaves cs W)[(ls.map (·.1))[i]]? =
        (ls.map (fun e => cs.H (leafString e.2)))[i]?) ∧ res.fullSubtrees = LogSpec.heads cs.H (leaves cs W)) ∨
      LogSpec.Collides cs.H (LogSpec.inputs cs.H (leaves cs W))
        (LogSpec.evalInputs W.length res.nodes ++ LogSpec.rootInputs cs.H W.length res.fullSubtrees) := by
    cases m with
    | none =>
      cases hv
      rw [← hlen] at hres hroot
      rcases Props.C05_inclusion_sound hcs (leaves cs W) hL (by omega) _ nP _ _ res hres hroot with ⟨-, k1, k2, -⟩ | k
      · exact Or.inl ⟨k1, k2⟩
      · rw [hlen] at k; exact Or.inr k
    | some k =>
      change Log.retain cs k p1.fullSubtrees = .ok v at hv
      rw [← hlen] at hres hroot
      rcases Props.C06_consistency_sound hcs (leaves cs W) hL k (by rw [hlen]; exact hmn k rfl) _ v hv _ nP _ _ res hres
        hroot with ⟨-, -, k1, k2, -⟩ | k
      · exact Or.inl ⟨k1, k2⟩
      · rw [hlen] at k; exact Or.inr k
  rcases key with ⟨k1, k2⟩ | hc
  swap
  · right
    refine HashBroken.mono (Or.inl hc) (fun a ha => ?_) (fun b hb => ?_)
    · exact List.mem_append_left _ (List.mem_append_left _ ha)
    · rw [hstr]; exact List.mem_append_right _ hb
  by_cases hcol : LogSpec.Collides cs.H (W.map (fun c => leafString (c.entry cs))) (ls.map (fun e => leafString e.2))
  · right
    refine HashBroken.mono (Or.inl hcol) (fun a ha => ?_) (fun b hb => ?_)
    · exact List.mem_append_left _ (List.mem_append_right _ ha)
    · rw [hstr]; exact List.mem_append_left _ hb
  left
  -- every inspected leaf is an entry of the log
  have hleaf : ∀ e ∈ ls, ∃ c, W[e.1]? = some c ∧ e.2 = c.entry cs := by
    intro e he
    obtain ⟨i, hi, rfl⟩ := List.mem_iff_getElem.1 he
    have := k1 i (by simpa using hi)
    simp only [List.getElem_map] at this
    rw [List.getElem?_map (f := fun e : Nat × LogEntry => cs.H (leafString e.2)), List.getElem?_eq_getElem hi] at this
    unfold leaves at this
    rw [List.getElem?_map, Option.map_some, Option.map_eq_some_iff] at this
    obtain ⟨c, hc, hh⟩ := this
    refine ⟨c, hc, ?_⟩
    have hcW := List.mem_of_getElem? hc
    have hss : leafString (c.entry cs) = leafString ls[i].2 := by
      by_contra hne
      exact hcol ⟨_, List.mem_map.2 ⟨c, hcW, rfl⟩, _, List.mem_map.2 ⟨ls[i], he, rfl⟩, hne, hh⟩
    exact (leafString_inj (hW.times c hcW) (h64 _ (a8 _ he)) hss).symm
  -- every timestamp known is that of a retained entry or of an inspected leaf
  have hall : ∀ x t, (x, t) ∈ p.timestamps → ∃ c, W[x]? = some c ∧ c.time = t ∧
      ∀ s, p1.prefixTrees.lookup x = some s → s = PrefixSpec.rootHash cs.H cs.hashSize c.map := by
    intro x t hxt
    cases hlk : p.logEntries.lookup x with
    | none =>
      obtain ⟨c, h1, h2⟩ := hleaf _ (a7 x t hxt hlk)
      simp only at h1 h2
      refine ⟨c, h1, ?_, ?_⟩
      · exact (congrArg LogEntry.timestamp h2).symm
      · intro s hs
        rw [hs] at h2
        exact congrArg LogEntry.prefixTree h2
    | some e =>
      obtain ⟨h1, h2, c, h3, h4⟩ := hret (x, e) (lookup_mem hlk)
      simp only at h1 h2 h3 h4
      refine ⟨c, h3, ?_, ?_⟩
      · rw [hm.unique hxt h1, h4]; rfl
      · intro s hs
        rw [a6 x (by simp [hlk]), h2, h4] at hs
        exact (Option.some.inj hs).symm
  refine ⟨fun x t hxt => ?_, fun x t s hxt hs0 hs => ?_, k2, ?_, ?_⟩
  · obtain ⟨c, h1, h2, -⟩ := hall x t hxt
    exact ⟨c, h1, h2⟩
  · obtain ⟨c, h1, -, h2⟩ := hall x t hxt
    exact ⟨c, h1, h2 s (a5 x s hs0 hs)⟩
  · intro e he
    obtain ⟨b1, b2⟩ := (retained_spec hes).2 e he
    dsimp only at b1 b2
    rw [a1] at b1
    obtain ⟨c, c1, c2, c3⟩ := hall _ _ (lookup_mem b1)
    refine ⟨c, c1, ?_⟩
    have c4 := c3 _ b2
    have : e.2 = ⟨e.2.timestamp, e.2.prefixTree⟩ := rfl
    rw [this, c4, ← c2]
    rfl
  · rw [(retained_spec hes).1]; exact hfr

end Katie.CommittedSpec
