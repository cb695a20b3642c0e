import Verif.Lemmas.ContactState
import Verif.Model.ServerOps
import Verif.Lemmas.ServeCalm
import Verif.Props.C29_ContactMonitor

/-
C65 and C66: the monitoring map that a client keeps for a label.

After a search that ended right of the last distinguished entry, `updateContactState` adds the position where it ended to
the map (client_crypto.go:366-389).  The map is sent with the next monitoring request, and the server checks it with
`verifyEntries` (monitor.go:16-45).  Vocabulary: `Verif/Spec/ContactMap.lean`.
-/

namespace Katie.Props
open Katie Katie.Wire Katie.Alg Katie.SearchSpec Katie.SearchTree Katie.Client Katie.ContactSpec

/-! ### C66: nothing is dropped -/

/-- Whatever the order in which Go goes through the map, the update ends with a map sorted by position.  Every version that
was monitored at a position is still taken care of, and so is the new one. -/
theorem C66_nothing_dropped {order : PMap → List (Nat × Nat)} (ho : IsOrder order) {n : Nat} {contact : List MonitorMapEntry}
    (hc : Positions n contact) {x : Nat} (hx : x < n) (ver : Nat) :
    ∃ es y, updateContactState order contact x n ver = .ok (es, y) ∧ Positions n es ∧
      (∀ e ∈ contact, Covers n es e.position e.version) ∧ Covers n es x ver := by
  obtain ⟨path, h1, h2, h3⟩ := rightDirectPath_spec hx
  obtain ⟨k1, k2⟩ := contactMap_spec (hc.sorted.imp (fun h => Nat.ne_of_lt h))
  obtain ⟨m1, m2, m3, -⟩ := markPath_spec ver (x :: path) (contactMap contact) x k1
  have hn : ∀ e ∈ (markPath ver (x :: path) (contactMap contact) x).1, e.1 < n := by
    intro e he
    rcases m3 e he with h | ⟨-, h⟩
    · exact hc.inTree _ ((k2 e).1 h)
    · rcases List.mem_cons.1 h with h | h
      · omega
      · exact ((h3 _).1 h).lt_n
  obtain ⟨m', s1, s2, s3⟩ := simplify_spec ho _ _ (Nat.lt_succ_self _) m1 hn
  obtain ⟨c1, c2⟩ := contactStruct_spec (m1.sublist s2)
  refine ⟨contactStruct m', (markPath ver (x :: path) (contactMap contact) x).2, ?_, ⟨c1, ?_⟩, ?_, ?_⟩
  · unfold updateContactState
    rw [h1]
    simp only [G.ok_bind]
    rw [s1]
    rfl
  · intro e he
    exact hn _ (s2.subset ((c2 e).1 he))
  · intro e he
    obtain ⟨e', g1, g2, g3⟩ := m2 (e.position, e.version) ((k2 _).2 he)
    obtain ⟨f, f1, f2, f3⟩ := s3 e.position e.version ⟨e', g1, .inl g2, g3⟩
    exact ⟨⟨f.1, f.2⟩, (c2 _).2 f1, f2, f3⟩
  · obtain ⟨e', g1, g2, g3⟩ := markPath_first (L := path) (x := x) (ver := ver) (pos := x) k1
    obtain ⟨f, f1, f2, f3⟩ := s3 x ver ⟨e', g1, .inl g2, g3⟩
    exact ⟨⟨f.1, f.2⟩, (c2 _).2 f1, f2, f3⟩

/-- Nothing is invented: an entry of the new map was there before, or is for the version that was found, at the position
where it was found or at one above and to the right of it.  The position reported is one of these. -/
theorem C66_nothing_invented {order : PMap → List (Nat × Nat)} (ho : IsOrder order) {n : Nat} {contact : List MonitorMapEntry}
    (hc : Positions n contact) {x : Nat} (hx : x < n) {ver : Nat} {es : List MonitorMapEntry} {y : Nat}
    (h : updateContactState order contact x n ver = .ok (es, y)) :
    (∀ e ∈ es, e ∈ contact ∨ e.version = ver ∧ RightUp n x e.position) ∧ RightUp n x y := by
  obtain ⟨path, h1, h2, h3⟩ := rightDirectPath_spec hx
  obtain ⟨k1, k2⟩ := contactMap_spec (hc.sorted.imp (fun h => Nat.ne_of_lt h))
  obtain ⟨m1, m2, m3, m4⟩ := markPath_spec ver (x :: path) (contactMap contact) x k1
  have hup : ∀ z, z ∈ x :: path → RightUp n x z := by
    intro z hz
    rcases List.mem_cons.1 hz with h | h
    · exact .inl h
    · exact .inr ((h3 _).1 h)
  have hn : ∀ e ∈ (markPath ver (x :: path) (contactMap contact) x).1, e.1 < n := by
    intro e he
    rcases m3 e he with h | ⟨-, h⟩
    · exact hc.inTree _ ((k2 e).1 h)
    · rcases hup _ h with h | h
      · omega
      · exact h.lt_n
  obtain ⟨m', s1, s2, -⟩ := simplify_spec ho _ _ (Nat.lt_succ_self _) m1 hn
  obtain ⟨c1, c2⟩ := contactStruct_spec (m1.sublist s2)
  unfold updateContactState at h
  rw [h1] at h
  simp only [G.ok_bind] at h
  rw [s1] at h
  cases h
  refine ⟨fun e he => ?_, ?_⟩
  · rcases m3 _ (s2.subset ((c2 e).1 he)) with h | ⟨h, h'⟩
    · exact .inl ((k2 _).1 h)
    · exact .inr ⟨h, hup _ h'⟩
  · rcases m4 with h | h
    · exact .inl h
    · exact hup _ h

/-- A map with three entries over a log of eight; version 4 is found at entry 5, below entry 7.  The position 4 is dropped
or not, depending on the order. -/
example : Positions 8 [⟨0, 1⟩, ⟨3, 2⟩, ⟨4, 3⟩] ∧
    updateContactState id [⟨0, 1⟩, ⟨3, 2⟩, ⟨4, 3⟩] 5 8 4 = .ok ([⟨0, 1⟩, ⟨4, 3⟩, ⟨7, 4⟩], 7) ∧
    updateContactState List.reverse [⟨0, 1⟩, ⟨3, 2⟩, ⟨4, 3⟩] 5 8 4 = .ok ([⟨0, 1⟩, ⟨7, 4⟩], 7) :=
  ⟨⟨by decide, by decide⟩, by decide, by decide⟩

/-! ### C65: what the server accepts -/

theorem entriesSorted_iff : ∀ {es : List MonitorMapEntry}, Server.entriesSorted es = .ok () ↔
    es.Pairwise (fun a b => a.position < b.position ∧ a.version < b.version)
  | [] => by simp [Server.entriesSorted, pure, Except.pure]
  | [a] => by simp [Server.entriesSorted, pure, Except.pure]
  | a :: b :: rest => by
    unfold Server.entriesSorted
    rw [List.pairwise_cons]
    by_cases h1 : a.position ≥ b.position
    · rw [if_pos h1]
      constructor
      · intro h; cases h
      · intro h
        have := h.1 b List.mem_cons_self
        omega
    rw [if_neg h1]
    by_cases h2 : a.version ≥ b.version
    · rw [if_pos h2]
      constructor
      · intro h; cases h
      · intro h
        have := h.1 b List.mem_cons_self
        omega
    rw [if_neg h2, entriesSorted_iff]
    refine ⟨fun h => ⟨?_, h⟩, fun h => h.2⟩
    intro c hc
    rcases List.mem_cons.1 hc with rfl | hc
    · omega
    · have := (List.pairwise_cons.1 h).1 c hc
      omega

theorem entriesPlaced_iff {index : List Nat} {n : Nat} (hi : ∀ x ∈ index, x < n) : ∀ {es : List MonitorMapEntry} {m : PMap},
    (∃ m', Server.entriesPlaced index n es m = .ok m') ↔
      ∀ e ∈ es, ∃ first, index[e.version]? = some first ∧ RightUp n first e.position
  | [], m => by simp [Server.entriesPlaced, pure, Except.pure]
  | e :: es, m => by
    unfold Server.entriesPlaced
    cases hx : index[e.version]? with
    | none =>
      simp only
      constructor
      · rintro ⟨m', h⟩; cases h
      · intro h
        obtain ⟨first, h1, -⟩ := h e List.mem_cons_self
        rw [hx] at h1
        cases h1
    | some first =>
      simp only
      obtain ⟨path, h1, -, h3⟩ := rightDirectPath_spec (hi first (List.mem_of_getElem? hx))
      rw [h1]
      simp only [G.ok_bind]
      have hup : RightUp n first e.position ↔ ¬ (e.position ≠ first ∧ ¬ path.contains e.position = true) := by
        unfold RightUp
        rw [List.contains_iff_mem, h3]
        tauto
      by_cases hb : e.position ≠ first ∧ ¬ path.contains e.position = true
      · rw [if_pos hb]
        constructor
        · rintro ⟨m', h⟩; cases h
        · intro h
          obtain ⟨f, g1, g2⟩ := h e List.mem_cons_self
          rw [hx] at g1
          cases g1
          exact absurd hb (hup.1 g2)
      · rw [if_neg hb, entriesPlaced_iff hi]
        constructor
        · intro h f hf
          rcases List.mem_cons.1 hf with rfl | hf
          · exact ⟨first, hx, hup.2 hb⟩
          · exact h f hf
        · exact fun h f hf => h f (List.mem_cons_of_mem _ hf)

/-- **C65, the server's check.**  The server accepts exactly the maps whose positions and versions strictly increase, with
each position the entry where the version appeared or one above and to the right. -/
theorem C65_server_accepts_iff {index : List Nat} {n : Nat} (hi : ∀ x ∈ index, x < n) (es : List MonitorMapEntry) :
    (∃ m, Server.verifyEntries es index n = .ok m) ↔ Acceptable index n es := by
  unfold Server.verifyEntries
  constructor
  · rintro ⟨m, h⟩
    obtain ⟨u, h1, h2⟩ := G.bind_eq_ok.1 h
    exact ⟨entriesSorted_iff.1 h1, (entriesPlaced_iff hi).1 ⟨m, h2⟩⟩
  · rintro ⟨h1, h2⟩
    obtain ⟨m, h3⟩ := (entriesPlaced_iff hi (m := [])).2 h2
    exact ⟨m, by rw [entriesSorted_iff.2 h1]; exact h3⟩

/-- What is accepted stays so while the log and the versions of the label grow. -/
theorem C65_stays_acceptable {index index' : List Nat} {n n' : Nat} {es : List MonitorMapEntry} (h : Acceptable index n es)
    (hi : index <+: index') (hn : n ≤ n') : Acceptable index' n' es := by
  refine ⟨h.sorted, fun e he => ?_⟩
  obtain ⟨first, h1, h2⟩ := h.placed e he
  obtain ⟨rest, rfl⟩ := hi
  refine ⟨first, ?_, h2.grow hn⟩
  rw [List.getElem?_append_left (List.getElem?_eq_some_iff.1 h1).1]
  exact h1

/-- **C65, monitoring.**  Contact monitoring makes an acceptable map from an acceptable map. -/
theorem C65_monitoring_keeps {index : List Nat} {m m' : Monitor} {es : List MonitorMapEntry} {ts : Nat → Nat} {tr : List Ev}
    (h : Acceptable index m.treeSize es) (hr : ContactRun m (contactMap es) ts tr m') :
    Acceptable index m.treeSize (contactStruct (m'.contact.getD [])) := by
  obtain ⟨k1, k2⟩ := contactMap_spec (h.sorted.imp (fun h => Nat.ne_of_lt h.1))
  have hr' := hr
  obtain ⟨prev, out, hI, rfl⟩ := hr.inv
  have hout : ((if out = [] then none else some out : Option PMap)).getD [] = out := by
    by_cases e : out = [] <;> simp [e]
  simp only [hout]
  have hk : Keys out := by
    have hr := hr.run
    unfold Alg.contactMonitor at hr
    rw [hr'.contact] at hr
    simp only [] at hr
    obtain ⟨out', t1, t2, -, h1, h2⟩ := runs_bind_ok.1 hr
    obtain ⟨-, h2⟩ := runs_pure.1 h2
    have h3 := contactLoop_keys _ _ _ .nil h1
    have h4 : (if out = [] then none else some out : Option PMap) = if out' = [] then none else some out' :=
      congrArg Monitor.contact (Except.ok.inj h2)
    by_cases e : out = []
    · rw [e]; exact .nil
    · rw [if_neg e] at h4
      by_cases e' : out' = []
      · rw [if_pos e'] at h4; cases h4
      · rw [if_neg e'] at h4
        cases h4
        exact h3
  obtain ⟨c1, c2⟩ := contactStruct_spec hk
  have hor : ∀ e ∈ contactStruct out, ∃ x, (⟨x, e.version⟩ : MonitorMapEntry) ∈ es ∧ Top m.treeSize x e.position := by
    intro e he
    obtain ⟨⟨x, v'⟩, h1, h2, h3, h4⟩ := hI.origin e.position e.version (hk.lookup.2 ((c2 e).1 he))
    simp only at h2 h3 h4
    rw [← h2]
    exact ⟨x, (k2 (x, v')).1 (mem_sortDesc.1 h1), h4⟩
  refine ⟨?_, fun e he => ?_⟩
  · refine c1.imp_of_mem ?_
    intro a b ha hb hlt
    refine ⟨hlt, ?_⟩
    obtain ⟨x, h1, h2⟩ := hor a ha
    obtain ⟨z, h3, h4⟩ := hor b hb
    have hxz : x < z := by
      by_contra hge
      have h5 : RightUp m.treeSize x b.position := h4.1.between (by omega) (by have := h2.1.le; omega)
      have := h2.2 _ h5
      omega
    have hinj : ∀ (l : List MonitorMapEntry), l.Pairwise (fun a b => a.position < b.position ∧ a.version < b.version) →
        (⟨x, a.version⟩ : MonitorMapEntry) ∈ l → (⟨z, b.version⟩ : MonitorMapEntry) ∈ l → a.version < b.version := by
      intro l
      induction l with
      | nil => simp
      | cons c l ih =>
        intro hp hx hz
        rw [List.pairwise_cons] at hp
        rcases List.mem_cons.1 hx with e1 | hx
        · rcases List.mem_cons.1 hz with e2 | hz
          · rw [← e1] at e2
            have : z = x := congrArg MonitorMapEntry.position e2
            omega
          · have := hp.1 _ hz
            rw [← e1] at this
            exact this.2
        · rcases List.mem_cons.1 hz with e2 | hz
          · have := hp.1 _ hx
            rw [← e2] at this
            have := this.1
            simp only at this
            omega
          · exact ih hp.2 hx hz
    exact hinj es h.sorted h1 h3
  · obtain ⟨x, h1, h2⟩ := hor e he
    obtain ⟨first, h3, h4⟩ := h.placed _ h1
    exact ⟨first, h3, h4.trans h2.1⟩

/-- **C65, a new version.**  If the map was acceptable and the version found is later than all that are monitored, then the
new map is acceptable, provided that Go goes through the map from left to right, or that the search ended on the right
edge of the tree (as greatest-version searches do).  Missing for the full claim: other orders, and versions that are not
new; for these it is false (`C65_order_matters`, `C65_same_version_refused`, `C65_older_version_refused`). -/
theorem C65_new_version_partial {order : PMap → List (Nat × Nat)} (ho : IsOrder order) {n : Nat} {index : List Nat}
    (hi : index.Pairwise (· ≤ ·)) (hin : ∀ x ∈ index, x < n) {contact : List MonitorMapEntry} (hc : Acceptable index n contact)
    {ver first x : Nat} (hnew : ∀ e ∈ contact, e.version < ver) (hf : index[ver]? = some first) (hx : RightUp n first x)
    (hor : Ascending order ∨ ∀ y, ¬ RightAnc n x y) :
    ∃ es y m, updateContactState order contact x n ver = .ok (es, y) ∧ Server.verifyEntries es index n = .ok m := by
  have hxn : x < n := by
    rcases hx with rfl | h
    · exact hin _ (List.mem_of_getElem? hf)
    · exact h.lt_n
  have hple : ∀ e ∈ contact, ∀ z, index[e.version]? = some z → z ≤ first := by
    intro e he z hz
    have h1 := hnew e he
    obtain ⟨a1, a2⟩ := List.getElem?_eq_some_iff.1 hz
    obtain ⟨b1, b2⟩ := List.getElem?_eq_some_iff.1 hf
    rw [← a2, ← b2]
    exact List.pairwise_iff_getElem.1 hi _ _ a1 b1 h1
  have hup : ∀ e ∈ contact, e.position < n := by
    intro e he
    obtain ⟨z, h1, h2⟩ := hc.placed e he
    rcases h2 with h2 | h2
    · rw [h2]; exact hin _ (List.mem_of_getElem? h1)
    · exact h2.lt_n
  obtain ⟨path, h1, h2, h3⟩ := rightDirectPath_spec hxn
  have hpath : ∀ z, z ∈ x :: path ↔ RightUp n x z := by
    intro z
    unfold RightUp
    rw [List.mem_cons, h3]
  obtain ⟨k1, k2⟩ := contactMap_spec (hc.sorted.imp (fun h => Nat.ne_of_lt h.1))
  have hall := markPath_all (L := x :: path) (x := x) (ver := ver) k1
    (fun e he => (hnew _ ((k2 e).1 he)).le)
  obtain ⟨m1, -, -, -⟩ := markPath_spec ver (x :: path) (contactMap contact) x k1
  have hn : ∀ e ∈ (markPath ver (x :: path) (contactMap contact) x).1, e.1 < n := by
    intro e he
    rcases (hall e).1 he with ⟨h, -⟩ | ⟨h, -⟩
    · rcases (hpath _).1 h with h | h
      · omega
      · exact h.lt_n
    · exact hup _ ((k2 e).1 h)
  obtain ⟨m', s1, s2, -⟩ := simplify_spec ho _ _ (Nat.lt_succ_self _) m1 hn
  obtain ⟨c1, c2⟩ := contactStruct_spec (m1.sublist s2)
  -- at most one position is left for the new version
  have htop : ∀ e ∈ m', e.2 = ver → ∀ y, ¬ RightAnc n e.1 y := by
    intro e he hev
    have hmem := (hall e).1 (s2.subset he)
    rcases hor with ha | ha
    · have := simplify_removes ho ha (ver := ver) (Nat.lt_succ_self _) m1 hn (by
        intro e he hev y path' hy
        rw [hall]
        left
        refine ⟨?_, rfl⟩
        rw [hpath]
        rcases (hall e).1 he with ⟨h, -⟩ | ⟨h, -⟩
        · obtain ⟨p', g1, -, g3⟩ := rightDirectPath_spec (hn e he)
          rw [hy] at g1
          cases g1
          exact ((hpath _).1 h).trans (.inr ((g3 y).1 List.mem_cons_self))
        · exact absurd hev (Nat.ne_of_lt (hnew _ ((k2 e).1 h)))) s1 e he hev
      obtain ⟨p', g1, -, g3⟩ := rightDirectPath_spec (hn e (s2.subset he))
      rw [this] at g1
      cases g1
      intro y hy
      exact absurd ((g3 y).2 hy) (by simp)
    · rcases hmem with ⟨h, -⟩ | ⟨h, -⟩
      · rcases (hpath _).1 h with h | h
        · rw [h]; exact ha
        · exact absurd h (ha _)
      · exact absurd hev (Nat.ne_of_lt (hnew _ ((k2 e).1 h)))
  have hacc : Acceptable index n (contactStruct m') := by
    refine ⟨c1.imp_of_mem ?_, fun e he => ?_⟩
    · intro a b ha hb hlt
      refine ⟨hlt, ?_⟩
      have ha' := (c2 a).1 ha
      have hb' := (c2 b).1 hb
      rcases (hall _).1 (s2.subset ha') with ⟨g1, g2⟩ | ⟨g1, g2⟩
      · simp only at g1 g2
        rw [hpath] at g1
        exfalso
        rcases (hall _).1 (s2.subset hb') with ⟨f1, f2⟩ | ⟨f1, f2⟩
        · simp only at f1 f2
          rw [hpath] at f1
          have : RightAnc n a.position b.position := by
            rcases f1 with f1 | f1
            · have := g1.le; omega
            · rcases g1 with g1 | g1
              · rw [g1]; exact f1
              · exact g1.linear f1 hlt
          exact htop _ ha' g2 _ this
        · simp only at f2
          refine f2 ((hpath _).2 ?_)
          obtain ⟨z, r1, r2⟩ := hc.placed _ ((k2 _).1 f1)
          have := hple _ ((k2 _).1 f1) z r1
          have := hx.le
          have := g1.le
          exact r2.between (by omega) (by simp only; omega)
      · rcases (hall _).1 (s2.subset hb') with ⟨f1, f2⟩ | ⟨f1, f2⟩
        · simp only at f2
          rw [f2]
          exact hnew a ((k2 _).1 g1)
        · have e1 : a ∈ contact := (k2 (a.position, a.version)).1 g1
          have e2 : b ∈ contact := (k2 (b.position, b.version)).1 f1
          obtain ⟨i, hi1, rfl⟩ := List.mem_iff_getElem.1 e1
          obtain ⟨j, hj1, rfl⟩ := List.mem_iff_getElem.1 e2
          have hp := List.pairwise_iff_getElem.1 hc.sorted
          rcases Nat.lt_trichotomy i j with h | h | h
          · exact (hp i j hi1 hj1 h).2
          · subst h; omega
          · have := (hp j i hj1 hi1 h).1; omega
    · rcases (hall _).1 (s2.subset ((c2 e).1 he)) with ⟨g1, g2⟩ | ⟨g1, g2⟩
      · simp only at g1 g2
        rw [g2]
        exact ⟨first, hf, hx.trans ((hpath _).1 g1)⟩
      · exact hc.placed e ((k2 (e.position, e.version)).1 g1)
  obtain ⟨m, hm⟩ := (C65_server_accepts_iff hin _).2 hacc
  refine ⟨contactStruct m', (markPath ver (x :: path) (contactMap contact) x).2, m, ?_, hm⟩
  unfold updateContactState
  rw [h1]
  simp only [G.ok_bind]
  rw [s1]
  rfl

/-- Versions 0, 1, 2 of a label appeared in entries 0, 2, 5; the client monitors version 1 and then finds version 2 at the end
of a log of eight entries. -/
example : Acceptable [0, 2, 5] 8 [⟨3, 1⟩] ∧ (∀ y, ¬ RightAnc 8 7 y) ∧
    updateContactState id [⟨3, 1⟩] 7 8 2 = .ok ([⟨7, 2⟩], 7) ∧
    Server.verifyEntries [⟨7, 2⟩] [0, 2, 5] 8 = .ok [(7, 2)] := by
  refine ⟨⟨by simp, ?_⟩, ?_, by decide, by decide⟩
  · intro e he
    simp only [List.mem_singleton] at he
    subst he
    exact ⟨2, rfl, .inr (rightAnc_num.2 ⟨by decide, 2, 0, by decide, by decide, by decide⟩)⟩
  · intro y hy
    have := hy.lt
    have := hy.lt_n
    omega

/-! ### the claim is false -/

/-- the configuration of the examples below: contact monitoring, and no entry is distinguished -/
def mapCfg : Config := { mode := contactMonitoring, rmw := 1000 }

/-- the greatest version at an entry, given where the versions appeared -/
def mapVersions (index : List Nat) (x : Nat) : Int := (index.filter (· ≤ x)).length - 1

/-- the timestamps of the examples -/
def mapTimes (x : Nat) : Nat := 10 + x

/-- **C65 is false: the same version twice.**  A label appears in entry 2 and does not change.  A client searches for its
greatest version in the log with 3 entries, and again in the log with 8.  There is no distinguished entry, so both searches
update the map.  It then contains the version twice, and the server refuses it, whatever the order. -/
theorem C65_same_version_refused :
    Prog.eval (honest mapTimes (mapVersions [2])) (greatestVersionSearch mapCfg 0 3) = .ok 2 ∧
    Prog.eval (honest mapTimes (mapVersions [2])) (rightmostDistinguished mapCfg 3) = .ok none ∧
    Prog.eval (honest mapTimes (mapVersions [2])) (greatestVersionSearch mapCfg 0 8) = .ok 7 ∧
    Prog.eval (honest mapTimes (mapVersions [2])) (rightmostDistinguished mapCfg 8) = .ok none ∧
    ∀ order, IsOrder order →
      updateContactState order [] 2 3 0 = .ok ([⟨2, 0⟩], 2) ∧
      updateContactState order [⟨2, 0⟩] 7 8 0 = .ok ([⟨2, 0⟩, ⟨7, 0⟩], 7) ∧
      Server.verifyEntries [⟨2, 0⟩, ⟨7, 0⟩] [2] 8 = goErr "monitoring map is not sorted by version" := by
  refine ⟨by decide, by decide, by decide, by decide, fun order ho => ⟨?_, ?_, by decide⟩⟩
  · unfold updateContactState
    rw [show rightDirectPath 2 3 = .ok [] by decide]
    simp only [G.ok_bind, show markPath 0 [2] (contactMap []) 2 = ([(2, 0)], 2) by decide]
    rw [simplify_fixed ho (by decide)]
    rfl
  · unfold updateContactState
    rw [show rightDirectPath 7 8 = .ok [] by decide]
    simp only [G.ok_bind, show markPath 0 [7] (contactMap [⟨2, 0⟩]) 7 = ([(7, 0), (2, 0)], 7) by decide]
    rw [simplify_fixed ho (by decide)]
    rfl

/-- **C65 is false: an older version.**  Versions 0 and 1 of a label appear in entries 0 and 2.  A client searches for the
greatest version in the log with 3 entries, and for version 0 in the log with 4.  The map then has a later version to the
left of an earlier one, and the server refuses it. -/
theorem C65_older_version_refused :
    Prog.eval (honest mapTimes (mapVersions [0, 2])) (greatestVersionSearch mapCfg 1 3) = .ok 2 ∧
    Prog.eval (honest mapTimes (mapVersions [0, 2])) (fixedVersionSearch mapCfg 0 4) = .ok 1 ∧
    Prog.eval (honest mapTimes (mapVersions [0, 2])) (rightmostDistinguished mapCfg 4) = .ok none ∧
    updateContactState id [] 2 3 1 = .ok ([⟨2, 1⟩], 2) ∧
    updateContactState id [⟨2, 1⟩] 1 4 0 = .ok ([⟨2, 1⟩, ⟨3, 0⟩], 3) ∧
    Server.verifyEntries [⟨2, 1⟩, ⟨3, 0⟩] [0, 2] 4 = goErr "monitoring map is not sorted by version" :=
  ⟨by decide, by decide, by decide, by decide, by decide, by decide⟩

/-- **C65 is false: the order of Go's maps.**  Versions 0 and 1 of a label appear in entries 0 and 1.  A client searches for
version 0 in the log with 8 entries.  From left to right, the map ends with one entry, which the server accepts; in
another order it ends with two entries for the same version, which the server refuses. -/
theorem C65_order_matters :
    Prog.eval (honest mapTimes (mapVersions [0, 1])) (fixedVersionSearch mapCfg 0 8) = .ok 0 ∧
    Prog.eval (honest mapTimes (mapVersions [0, 1])) (rightmostDistinguished mapCfg 8) = .ok none ∧
    ∃ order order', IsOrder order ∧ IsOrder order' ∧
      updateContactState order [] 0 8 0 = .ok ([⟨7, 0⟩], 7) ∧
      Server.verifyEntries [⟨7, 0⟩] [0, 1] 8 = .ok [(7, 0)] ∧
      updateContactState order' [] 0 8 0 = .ok ([⟨1, 0⟩, ⟨7, 0⟩], 7) ∧
      Server.verifyEntries [⟨1, 0⟩, ⟨7, 0⟩] [0, 1] 8 = goErr "monitoring map is not sorted by version" :=
  ⟨by decide, by decide, List.reverse, id, fun m => m.reverse_perm, fun m => .refl m, by decide, by decide, by decide, by decide⟩

end Katie.Props
