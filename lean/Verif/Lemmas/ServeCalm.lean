import Verif.Lemmas.ServeSafe

/-
The handlers of the server end with a response or an error.
-/

namespace Katie.Alg
open Katie Katie.Wire Katie.Ladder Prog

section
variable {db : ServerDB} {index : List Nat}

theorem getTimestamp_versions (x : Nat) (p : Provider Produced) :
    (p.getTimestamp (Produced.handle db index) x).2.state.versions = p.state.versions := by
  unfold Provider.getTimestamp
  cases p.timestamps.lookup x with
  | some t => rfl
  | none =>
    simp only [Produced.handle, Produced.getTs]
    cases db.entry x with
    | error e => rfl
    | ok e =>
      simp only
      cases addTimestamp p.timestamps x e.timestamp <;> rfl

theorem record_state {σ β : Type} (x : Nat) (r : Bytes) (b : β) (p : Provider σ) : (Provider.record x r b p).2.state = p.state := by
  unfold Provider.record
  cases addPrefixTree p.prefixTrees x r <;> rfl

theorem viaRoot_versions {β : Type} {x : Nat} {f : Produced → G (Bytes × β) × Produced} (hf : ∀ s, (f s).2.versions = s.versions)
    (p : Provider Produced) : (viaRoot (Produced.handle db index) x f p).2.state.versions = p.state.versions := by
  unfold viaRoot
  have h1 := getTimestamp_versions (db := db) (index := index) x p
  revert h1
  generalize p.getTimestamp (Produced.handle db index) x = r
  obtain ⟨r1, p'⟩ := r
  intro h1
  cases r1 with
  | error e => exact h1
  | ok t =>
    simp only at h1 ⊢
    have h2 := hf p'.state
    revert h2
    generalize f p'.state = o
    obtain ⟨o1, s'⟩ := o
    intro h2
    cases o1 with
    | error e => exact h2.trans h1
    | ok ra => simp only [record_state]; exact h2.trans h1

theorem answer_versions (q : Req) (p : Provider Produced) :
    (p.answer (Produced.handle db index) q).2.state.versions = p.state.versions := by
  cases q with
  | ts x => exact getTimestamp_versions x p
  | search x v om =>
    rw [show p.answer (Produced.handle db index) (.search x v om) = viaRoot (Produced.handle db index) x _ p from getSearch_eq _ x v om p]
    refine viaRoot_versions (fun s => ?_) p
    simp only [Produced.handle, Produced.search]
    cases produceLadder s.tracker x v om (greatestAt index x) with
    | error e => rfl
    | ok r => cases db.entry x <;> rfl
  | monitor x v =>
    rw [show p.answer (Produced.handle db index) (.monitor x v) = viaRoot (Produced.handle db index) x _ p from getMonitor_eq _ x v p]
    refine viaRoot_versions (fun s => ?_) p
    simp only [withUnit, Produced.handle, Produced.monitor]
    cases db.entry x with
    | error e => rfl
    | ok e => cases monitoringBinaryLadder v <;> rfl
  | incl x vers =>
    rw [show p.answer (Produced.handle db index) (.incl x vers) = _ from getIncl_eq (Produced.handle db index) x vers p]
    split
    · rfl
    refine viaRoot_versions (fun s => ?_) p
    simp only [withUnit, Produced.handle, Produced.incl]
    cases db.entry x <;> rfl
  | stop x v => rfl
  | addLadder x om g l => rfl

theorem run_versions {α : Type} (prog : Prog α) (p : Provider Produced) :
    (p.run (Produced.handle db index) prog).2.state.versions = p.state.versions := by
  induction prog generalizing p with
  | ret r => rfl
  | op q k ih => exact (ih _ _).trans (answer_versions q p)

end
end Katie.Alg

namespace Katie.Server
open Katie Katie.Wire Katie.Alg Katie.Ladder Katie.ServerSpec Katie.PrefixSpec Katie.AuditSpec Katie.SearchSpec Katie.SearchTree

/-- a server with a log of `n` entries -/
structure Live (env : Env) (bs : List Batch) (n : Nat) (E : Nat → LogEntry) (t : Tree) : Prop where
  honest : Honest env.cs (serverDB env t.tx) bs n E
  beyond : ∀ x, n ≤ x → ∃ m, getEntry env t.tx x = goErr m
  index : ∀ l, ∃ index, getIndex t.tx l = .ok index ∧ index.Pairwise (· ≤ ·) ∧ ∀ x ∈ index, x < n
  version : ∀ l v, ∃ ov, getVersion env t.tx l v = .ok ov
  head : ∃ th, t.head = some th ∧ th.treeSize = n
  auditor : ∀ a, t.auditor = some a → 0 < a.treeSize ∧ a.treeSize ≤ n

section
variable {env : Env} {bs : List Batch} {n : Nat} {E : Nat → LogEntry} {t : Tree}

theorem Live.log (h : Live env bs n E t) : LogOf n E (serverDB env t.tx) := ⟨h.honest.entry, h.beyond⟩

/-- the heads of a response -/
structure Within (n : Nat) (last : Option Nat) (h : Heads) : Prop where
  size : h.n = n
  auditor : ∀ k, h.nP = some k → 0 < k ∧ k ≤ n
  old : ∀ k, h.m = some k → 0 < k ∧ k ≤ n
  last : ∀ k, last = some k → 0 < k ∧ k ≤ n

theorem fullTreeHead_calm (hl : Live env bs n E t) {last : Option Nat} (h0 : last ≠ some 0) :
    Calm (fullTreeHead t last) ∧ ∀ h, fullTreeHead t last = .ok h → Within n last h := by
  obtain ⟨th, h1, h2⟩ := hl.head
  have haud : ∀ k, t.auditor.map (·.treeSize) = some k → 0 < k ∧ k ≤ n := by
    intro k hk
    cases ha : t.auditor with
    | none => rw [ha] at hk; cases hk
    | some a =>
      rw [ha] at hk
      cases hk
      exact hl.auditor a ha
  unfold fullTreeHead
  rw [h1]
  simp only
  cases last with
  | none =>
    refine ⟨.pure, ?_⟩
    rintro h ⟨⟩
    exact ⟨h2, haud, by simp, by simp⟩
  | some l =>
    have hl0 : 0 < l := Nat.pos_of_ne_zero (fun h => h0 (by rw [h]))
    refine ⟨.ite (fun _ => .pure) (fun _ => .ite (fun _ => .err) (fun _ => .pure)), ?_⟩
    intro h
    simp only
    split
    · rintro ⟨⟩
      exact ⟨h2, by simp, by simp, by simp; omega⟩
    · split
      · rintro ⟨⟩
      · rintro ⟨⟩
        exact ⟨h2, haud, by simp; omega, by simp; omega⟩

theorem runOn_calm (hl : Live env bs n E t) {index : List Nat} {α : Type} {prog : Prog α} {Q : α → Prop}
    (hs : Spec prog Mild Q IsErr) {p : Provider Produced} (hp : Steady n E p) :
    Calm (runOn (handleFor env t index) prog p) ∧ ∀ r, runOn (handleFor env t index) prog p = .ok r →
      Q r.1 ∧ Steady n E r.2 ∧ r.2.state.versions = p.state.versions := by
  obtain ⟨h1, h2, h3⟩ := run_calm (index := index) hl.log hs hp
  have h4 := run_versions (db := serverDB env t.tx) (index := index) prog p
  unfold runOn handleFor
  revert h1 h2 h3 h4
  generalize p.run (Produced.handle (serverDB env t.tx) index) prog = o
  obtain ⟨o1, q⟩ := o
  intro h1 h2 h3 h4
  cases o1 with
  | error e => exact ⟨fun f hf => h1 f (by cases hf; rfl), fun r hr => by cases hr⟩
  | ok a =>
    refine ⟨.ok, ?_⟩
    rintro r ⟨⟩
    exact ⟨h3 a rfl, h2, h4⟩

theorem updateView_calm (hl : Live env bs n E t) {now : Nat} {index : List Nat} {last : Option Nat}
    (hlast : ∀ k, last = some k → 0 < k ∧ k ≤ n) {s : Produced} (hs1 : s.tracker = {}) (hs2 : s.timestamps = []) (hs3 : s.proofs = []) :
    Calm (updateView env now t index last (newProvider s)) ∧ ∀ p, updateView env now t index last (newProvider s) = .ok p →
      Steady n E p ∧ p.state.versions = s.versions := by
  obtain ⟨th, h1, h2⟩ := hl.head
  obtain ⟨f, hf⟩ := retained_exists hl.honest.size hlast
  unfold updateView
  rw [h1]
  simp only [loadRetained_ok (env := env) (st := t.tx) hl.honest.entry hl.honest.times hf, G.ok_bind, h2]
  have hsize := hl.honest.size
  obtain ⟨k1, k2⟩ := runOn_calm hl (index := index) (updateView_mild (cfg := env.cfg) (now := now) (by omega : n < 2 ^ 64)
    (fun k hk => (hlast k hk).1)) (retainedTables_fresh hl.honest.times hf.nodup hf.lt [] hs1 hs2 hs3).steady
  refine ⟨.bind k1 (fun _ _ => .pure), fun p hp => ?_⟩
  obtain ⟨r, hr, hp⟩ := G.bind_eq_ok.1 hp
  cases hp
  obtain ⟨-, h5, h6⟩ := k2 r hr
  exact ⟨h5, h6⟩

theorem outputOf_calm (hl : Live env bs n E t) {index : List Nat} {last : Option Nat} {h : Heads} (hh : Within n last h)
    {p : Provider Produced} (hp : Steady n E p) (hvs : ∀ v k, p.state.versions.lookup v = some k → k.vrf.length = env.cs.hashSize) :
    Calm (outputOf env t index h p) := by
  have := output_calm (index := index) hl.honest hp hvs hh.auditor hh.old
  unfold outputOf
  rw [hh.size]
  revert this
  generalize p.output env.cs (serverDB env t.tx) index n h.nP h.m = o
  obtain ⟨o1, q⟩ := o
  intro h1
  cases o1 with
  | error e => exact fun f hf => h1 f (by cases hf; rfl)
  | ok a => exact .ok

theorem wBytes_calm {k : Nat} {name : String} {b : Bytes} : Calm (wBytes k name b) := by
  unfold wBytes
  exact .ite (fun _ => .err) (fun _ => .ok)

theorem wSeq_calm {a b : G Bytes} (ha : Calm a) (hb : Calm b) : Calm (a +> b) := by
  unfold wSeq
  cases a with
  | error e => exact ha
  | ok x =>
    cases b with
    | error e => exact hb
    | ok y => exact .ok

theorem computeVrf_calm {l : Bytes} {v : Nat} : Calm (computeVrf env l v) := by
  unfold computeVrf vrfInput
  exact .bind (wSeq_calm wBytes_calm .ok) (fun _ _ => .pure)

/-- the VRF outputs in the table have the right length -/
def TableLen (env : Env) (s : Produced) : Prop := ∀ v k, s.versions.lookup v = some k → k.vrf.length = env.cs.hashSize

theorem addVersion_calm {s : Produced} (hs : TableLen env s) {v : Nat} {o : Bytes} :
    Calm (s.addVersion env.cs v o) ∧ ∀ s', s.addVersion env.cs v o = .ok s' →
      TableLen env s' ∧ s'.tracker = s.tracker ∧ s'.timestamps = s.timestamps ∧ s'.proofs = s.proofs := by
  unfold Produced.addVersion Alg.addVersion
  refine ⟨.bind (.ite (fun _ => .err) (fun _ => .ite (fun _ => .err) (fun _ => .ite (fun _ => .err) (fun _ => .pure)))) (fun _ _ => .pure), ?_⟩
  intro s' h
  obtain ⟨vs, h1, h2⟩ := G.bind_eq_ok.1 h
  cases h2
  split at h1
  · cases h1
  · rename_i hlen
    split at h1
    · cases h1
    · split at h1
      · cases h1
      · cases h1
        refine ⟨?_, rfl, rfl, rfl⟩
        intro w k hk
        simp only [List.lookup_cons] at hk
        split at hk
        · cases hk
          simpa using hlen
        · exact hs w k hk

theorem addLadder_calm {l : Bytes} : ∀ {vs : List Nat} {s : Produced}, TableLen env s →
    Calm (addLadder env l vs s) ∧ ∀ r, addLadder env l vs s = .ok r →
      TableLen env r.2 ∧ r.2.tracker = s.tracker ∧ r.2.timestamps = s.timestamps ∧ r.2.proofs = s.proofs
  | [], s, hs => by
    refine ⟨.pure, ?_⟩
    rintro r ⟨⟩
    exact ⟨hs, rfl, rfl, rfl⟩
  | v :: vs, s, hs => by
    unfold addLadder
    refine ⟨.bind computeVrf_calm (fun out _ => .bind (addVersion_calm hs).1 (fun s' h => ?_)), fun r h => ?_⟩
    · exact .bind (addLadder_calm ((addVersion_calm hs).2 s' h).1).1 (fun _ _ => .pure)
    · obtain ⟨out, -, h⟩ := G.bind_eq_ok.1 h
      obtain ⟨s', h1, h⟩ := G.bind_eq_ok.1 h
      obtain ⟨⟨steps, s''⟩, h2, h⟩ := G.bind_eq_ok.1 h
      cases h
      obtain ⟨a1, a2, a3, a4⟩ := (addVersion_calm hs).2 s' h1
      obtain ⟨b1, b2, b3, b4⟩ := (addLadder_calm a1).2 _ h2
      exact ⟨b1, b2.trans a2, b3.trans a3, b4.trans a4⟩

theorem addRequired_calm {l : Bytes} : ∀ {vs : List Nat} {s : Produced}, TableLen env s →
    Calm (addRequired env l vs s) ∧ ∀ r, addRequired env l vs s = .ok r → TableLen env r ∧ r.proofs = s.proofs
  | [], s, hs => by
    refine ⟨.pure, ?_⟩
    rintro r ⟨⟩
    exact ⟨hs, rfl⟩
  | v :: vs, s, hs => by
    unfold addRequired
    refine ⟨.bind computeVrf_calm (fun out _ => .bind (addVersion_calm hs).1 (fun s' h => ?_)), fun r h => ?_⟩
    · exact (addRequired_calm ((addVersion_calm hs).2 s' h).1).1
    · obtain ⟨out, -, h⟩ := G.bind_eq_ok.1 h
      obtain ⟨s', h1, h⟩ := G.bind_eq_ok.1 h
      obtain ⟨a1, -, -, a4⟩ := (addVersion_calm hs).2 s' h1
      obtain ⟨b1, b4⟩ := (addRequired_calm a1).2 _ h
      exact ⟨b1, b4.trans a4⟩

theorem searchLadder_calm {version : Option Nat} {index : List Nat} (hv : searchTarget version index < 2 ^ 31 - 1) :
    Calm (searchLadder version index) := by
  unfold searchLadder
  refine .ite (fun _ => .pure) (fun _ => ?_)
  obtain ⟨b, hb, -⟩ := ladder_self hv
  exact .of_ok hb

/-- Search. -/
theorem search_calm (hl : Live env bs n E t) {now : Nat} {req : SearchRequest} (h0 : req.last ≠ some 0)
    (hv : ∀ index, getIndex t.tx req.label = .ok index → searchTarget req.version index < 2 ^ 31 - 1) :
    Calm (search env now t req) := by
  unfold search
  refine .bind (fullTreeHead_calm hl h0).1 (fun h hh => ?_)
  have hw := (fullTreeHead_calm hl h0).2 h hh
  obtain ⟨index, hi, -⟩ := hl.index req.label
  have hv := hv index hi
  obtain ⟨ov, hov⟩ := hl.version req.label (searchTarget req.version index)
  rw [hi, G.ok_bind]
  refine .bind (searchLadder_calm hv) (fun ladder _ => ?_)
  rw [hov, G.ok_bind]
  have hT : TableLen env ({} : Produced) := fun v k h => by cases h
  refine .bind (addLadder_calm hT).1 ?_
  rintro ⟨steps, s⟩ hs
  obtain ⟨s1, s2, s3, s4⟩ := (addLadder_calm hT).2 _ hs
  refine .bind (updateView_calm hl hw.last s2 s3 s4).1 (fun p hp => ?_)
  obtain ⟨p1, p2⟩ := (updateView_calm hl hw.last s2 s3 s4).2 p hp
  have hprog : Spec (searchProg env.cfg req.version (searchTarget req.version index) n) Mild (fun _ => True) IsErr := by
    unfold searchProg
    exact .ite (fun _ => greatestVersionSearch_mild hv) (fun _ => fixedVersionSearch_mild hv)
  obtain ⟨k1, k2, -⟩ := run_calm (index := index) hl.log hprog p1
  have k3 := run_versions (db := serverDB env t.tx) (index := index) (searchProg env.cfg req.version (searchTarget req.version index) n) p
  rw [hw.size, runSearch_eq]
  unfold handleFor
  revert k1 k2 k3
  generalize p.run (Produced.handle (serverDB env t.tx) index) (searchProg env.cfg req.version (searchTarget req.version index) n) = o
  obtain ⟨o1, q⟩ := o
  intro k1 k2 k3
  have fin : Calm (do
      let (proof, p) ← outputOf env t index h q
      pure (⟨h.fth, (match req.version with
        | none => some (searchTarget req.version index)
        | some _ => none), ov.opening, ov.value, populate req.version index p.state ladder steps, proof⟩ : SearchResponse)) :=
    .bind (outputOf_calm hl hw k2 (by rw [k3, p2]; exact s1)) (fun _ _ => .pure)
  cases o1 with
  | ok a => exact fin
  | error e =>
    simp only
    split
    · exact fin
    · exact fun f hf => k1 f (by cases hf; rfl)

/-! ### monitoring -/

theorem startMonitor_calm (hl : Live env bs n E t) {now : Nat} {last : Option Nat} (h0 : last ≠ some 0) {label : Bytes} :
    Calm (startMonitor env now t last label) ∧ ∀ op, startMonitor env now t last label = .ok op →
      Within n last op.heads ∧ getIndex t.tx label = .ok op.index ∧ Steady n E op.provider ∧ op.provider.state.versions = [] ∧
      op.monitor.treeSize = n ∧ op.monitor.owner = none := by
  obtain ⟨index, hi, -⟩ := hl.index label
  have main : ∀ h, fullTreeHead t last = .ok h → _ := fun h hh =>
    updateView_calm hl (now := now) (index := index) ((fullTreeHead_calm hl h0).2 h hh).last (s := {}) rfl rfl rfl
  have main2 : ∀ p, Steady n E p → _ := fun p hp => runOn_calm hl (index := index) (newMonitor_mild (cfg := env.cfg) (n := n)) (p := p) hp
  unfold startMonitor
  constructor
  · refine .bind (fullTreeHead_calm hl h0).1 (fun h hh => ?_)
    have hw := (fullTreeHead_calm hl h0).2 h hh
    rw [hi, G.ok_bind, hw.size]
    refine .bind (main h hh).1 (fun p hp => ?_)
    exact .bind (main2 p ((main h hh).2 p hp).1).1 (fun _ _ => .pure)
  · intro op hop
    obtain ⟨h, hh, hop⟩ := G.bind_eq_ok.1 hop
    have hw := (fullTreeHead_calm hl h0).2 h hh
    rw [hi, G.ok_bind, hw.size] at hop
    obtain ⟨p, hp, hop⟩ := G.bind_eq_ok.1 hop
    obtain ⟨⟨m, p'⟩, hm, hop⟩ := G.bind_eq_ok.1 hop
    cases hop
    obtain ⟨p1, p2⟩ := (main h hh).2 p hp
    obtain ⟨⟨-, -, m1, -, m2⟩, m3, m4⟩ := (main2 p p1).2 _ hm
    exact ⟨hw, hi, m3, m4.trans p2, m1, m2⟩

theorem finishMonitor_calm (hl : Live env bs n E t) {label : Bytes} {op : MonitorOp} {last : Option Nat} (hw : Within n last op.heads)
    (hp : Steady n E op.provider) (hv : op.provider.state.versions = []) : Calm (finishMonitor env t label op) := by
  have hT : TableLen env op.provider.state := fun v k h => by rw [hv] at h; cases h
  unfold finishMonitor
  refine .bind (addRequired_calm hT).1 (fun s hs => ?_)
  obtain ⟨s1, s2⟩ := (addRequired_calm hT).2 s hs
  exact .bind (outputOf_calm hl hw (hp.setState (by rw [s2]; exact hp.proofs)) s1) (fun _ _ => .pure)

theorem entriesSorted_calm : ∀ {es : List MonitorMapEntry}, Calm (entriesSorted es)
  | [] => .pure
  | [_] => .pure
  | a :: b :: rest => by
    unfold entriesSorted
    exact .ite (fun _ => .err) (fun _ => .ite (fun _ => .err) (fun _ => entriesSorted_calm))

theorem entriesPlaced_calm {index : List Nat} (hi : ∀ x ∈ index, x < n) : ∀ {es : List MonitorMapEntry} {ptrs : PMap},
    Calm (entriesPlaced index n es ptrs) ∧ ((∀ e ∈ ptrs, e.1 < n ∧ e.2 < index.length) → ptrs.Pairwise (fun a b => a.1 ≠ b.1) →
      ∀ m, entriesPlaced index n es ptrs = .ok m → (∀ e ∈ m, e.1 < n ∧ e.2 < index.length) ∧ m.Pairwise (fun a b => a.1 ≠ b.1))
  | [], ptrs => by
    refine ⟨.pure, ?_⟩
    rintro h1 h2 m ⟨⟩
    exact ⟨h1, h2⟩
  | e :: es, ptrs => by
    unfold entriesPlaced
    split
    · exact ⟨.err, fun _ _ m h => by cases h⟩
    · rename_i first hfirst
      have hlt : e.version < index.length := by
        by_contra hc
        rw [List.getElem?_eq_none (by omega)] at hfirst
        cases hfirst
      have hfn : first < n := hi _ (List.mem_of_getElem? hfirst)
      obtain ⟨path, hpath, hanc⟩ := rightDirectPath_ok hfn
      rw [hpath, G.ok_bind]
      refine ⟨.ite (fun _ => .err) (fun _ => (entriesPlaced_calm hi).1), ?_⟩
      intro h1 h2 m hm
      split at hm
      · cases hm
      · rename_i hpos
        refine (entriesPlaced_calm hi).2 ?_ ?_ m hm
        · intro f hf
          rcases List.mem_cons.1 hf with h | h
          · rw [h]
            refine ⟨?_, hlt⟩
            by_cases he : e.position = first
            · rw [he]; exact hfn
            · have : path.contains e.position = true := by
                by_contra hc
                exact hpos ⟨he, hc⟩
              exact (hanc _ (List.contains_iff_mem.1 this)).lt_n
          · exact h1 f (List.mem_filter.1 h).1
        · refine List.pairwise_cons.2 ⟨fun f hf => ?_, h2.filter _⟩
          have := (List.mem_filter.1 hf).2
          simpa using fun h : e.position = f.1 => of_decide_eq_true this h.symm

theorem verifyEntries_calm {index : List Nat} (hi : ∀ x ∈ index, x < n) {es : List MonitorMapEntry} :
    Calm (verifyEntries es index n) ∧ ∀ m, verifyEntries es index n = .ok m →
      (∀ e ∈ m, e.1 < n ∧ e.2 < index.length) ∧ m.Pairwise (fun a b => a.1 ≠ b.1) := by
  unfold verifyEntries
  refine ⟨.bind entriesSorted_calm (fun _ _ => (entriesPlaced_calm hi).1), fun m hm => ?_⟩
  obtain ⟨-, -, hm⟩ := G.bind_eq_ok.1 hm
  exact (entriesPlaced_calm hi).2 (by simp) (by simp) m hm

/-- fewer than 2^31 versions of the label -/
def FewOf (t : Tree) (label : Bytes) : Prop := ∀ index, getIndex t.tx label = .ok index → index.length < 2 ^ 31

/-- ContactMonitor. -/
theorem contactMonitor_calm (hl : Live env bs n E t) {now : Nat} {req : ContactMonitorRequest} (h0 : req.last ≠ some 0)
    (hf : FewOf t req.label) : Calm (contactMonitor env now t req) := by
  unfold contactMonitor
  refine .bind (startMonitor_calm hl h0).1 (fun op hop => ?_)
  obtain ⟨hw, hidx, hp, hv, hsz, -⟩ := (startMonitor_calm hl h0).2 op hop
  obtain ⟨index, hi1, -, hi2⟩ := hl.index req.label
  have hie : index = op.index := Except.ok.inj (hi1.symm.trans hidx)
  subst hie
  have hlen := hf _ hi1
  rw [hw.size]
  refine .bind (verifyEntries_calm hi2).1 (fun ptrs hptrs => ?_)
  obtain ⟨e1, e2⟩ := (verifyEntries_calm hi2).2 ptrs hptrs
  have hspec := contactMonitor_mild (m := { op.monitor with contact := some ptrs }) (c := ptrs) rfl e2
    (fun e he => by simp only [hsz]; exact (e1 e he).1) (fun e he => by have := (e1 e he).2; omega)
  refine .bind (runOn_calm hl hspec hp).1 ?_
  rintro ⟨m, p⟩ hm
  obtain ⟨-, q1, q2⟩ := (runOn_calm hl hspec hp).2 _ hm
  exact .bind (finishMonitor_calm hl (op := { op with monitor := m, provider := p }) hw q1 (q2.trans hv)) (fun _ _ => .pure)

theorem ladders_calm : ∀ {vs : List Nat}, (∀ v ∈ vs, v < 2 ^ 31 - 1) → Calm (ladders vs)
  | [], _ => .pure
  | v :: vs, h => by
    obtain ⟨b, hb, -⟩ := ladder_self (h v List.mem_cons_self)
    unfold ladders
    rw [hb, G.ok_bind]
    exact .bind (ladders_calm (fun w hw => h w (List.mem_cons_of_mem _ hw))) (fun _ _ => .pure)

theorem ladderVrfs_calm {label : Bytes} {g : Int} : ∀ {vs : List Nat}, Calm (ladderVrfs env label g vs) ∧
    ∀ r, ladderVrfs env label g vs = .ok r → r.2.length ≤ r.1.length
  | [] => by
    refine ⟨.pure, ?_⟩
    rintro r ⟨⟩
    exact le_refl _
  | v :: vs => by
    unfold ladderVrfs
    refine ⟨.bind computeVrf_calm (fun _ _ => .bind ladderVrfs_calm.1 (fun _ _ => .pure)), fun r hr => ?_⟩
    obtain ⟨out, -, hr⟩ := G.bind_eq_ok.1 hr
    obtain ⟨⟨proofs, outputs⟩, h1, hr⟩ := G.bind_eq_ok.1 hr
    cases hr
    have := ladderVrfs_calm.2 _ h1
    simp only at this ⊢
    split <;> simp <;> omega

theorem assignCommitments_calm : ∀ {ps : List Bytes} {cs : List (Option Bytes)}, cs.length ≤ ps.length → Calm (assignCommitments ps cs)
  | [], [], _ => by unfold assignCommitments; exact .pure
  | [], c :: cs, h => by simp at h
  | p :: ps, [], _ => by unfold assignCommitments; exact .pure
  | p :: ps, c :: cs, h => by
    unfold assignCommitments
    exact .bind (assignCommitments_calm (by simpa using h)) (fun _ _ => .pure)

theorem getBinaryLadder_calm (hl : Live env bs n E t) {label : Bytes} {vs : List Nat} {g : Int} :
    Calm (getBinaryLadder env t label vs g n) := by
  unfold getBinaryLadder
  refine .bind ladderVrfs_calm.1 ?_
  rintro ⟨proofs, outputs⟩ hr
  have hle := ladderVrfs_calm.2 _ hr
  simp only at hle ⊢
  by_cases hlen : ∀ v ∈ outputs, v.length = env.cs.hashSize
  · obtain ⟨out, o1, o2⟩ := search_total hl.honest.good hl.honest.small hl.honest.hist (searches := [⟨n, outputs⟩]) (by
      intro s hs
      rw [List.mem_singleton.1 hs]
      exact ⟨hl.honest.pos, hl.honest.len.ge, hlen⟩)
    rw [show t.tx.tiles = (serverDB env t.tx).prefixStore from rfl, o1, G.ok_bind]
    cases o2 with
    | cons h hs =>
      exact assignCommitments_calm (by rw [h]; exact hle)
  · refine .bind ?_ (fun out ho => ?_)
    · unfold Prefix.search Prefix.checkSearches
      have : ¬ (outputs.all (fun v => v.length == env.cs.hashSize) = true) := by
        intro hc
        exact hlen (fun v hv => by simpa using List.all_eq_true.1 hc v hv)
      have hp := hl.honest.pos
      rw [if_neg (by simp only; omega), if_pos this]
      exact .err
    · unfold Prefix.search Prefix.checkSearches at ho
      have : ¬ (outputs.all (fun v => v.length == env.cs.hashSize) = true) := by
        intro hc
        exact hlen (fun v hv => by simpa using List.all_eq_true.1 hc v hv)
      have hp := hl.honest.pos
      rw [if_neg (by simp only; omega), if_pos this] at ho
      cases ho

theorem initVersions_few {index : List Nat} (hs : index.Pairwise (· ≤ ·)) (hlen : index.length < 2 ^ 31) : ∀ {xs : List Nat},
    ∀ v ∈ initVersions index xs, v < 2 ^ 31 - 1
  | [], v, h => by cases h
  | x :: xs, v, h => by
    unfold initVersions at h
    simp only at h
    split at h
    · cases h
    · rcases List.mem_cons.1 h with rfl | h
      · have := (bsearch_spec (t := x + 1) hs).1
        simp only [Owner.greatestAt]
        omega
      · exact initVersions_few hs hlen v h

/-- OwnerInit. -/
theorem ownerInit_calm (hl : Live env bs n E t) {now : Nat} {req : OwnerInitRequest} (h0 : req.last ≠ some 0)
    (hf : FewOf t req.label) : Calm (ownerInit env now t req) := by
  unfold ownerInit
  refine .bind (startMonitor_calm hl h0).1 (fun op hop => ?_)
  obtain ⟨hw, hidx, hp, hv, hsz, -⟩ := (startMonitor_calm hl h0).2 op hop
  obtain ⟨index, hi1, hi3, hi2⟩ := hl.index req.label
  have hie : index = op.index := Except.ok.inj (hi1.symm.trans hidx)
  subst hie
  have hlen := hf _ hi1
  have hpos : 0 < op.monitor.treeSize := by rw [hsz]; exact hl.honest.pos
  simp only
  refine .bind (runOn_calm hl (initEntries_mild hpos) hp).1 ?_
  rintro ⟨entries, p⟩ he
  obtain ⟨-, p1, p2⟩ := (runOn_calm hl (initEntries_mild hpos) hp).2 _ he
  have hvers := initVersions_few hi3 hlen (xs := entries)
  refine .bind (.bind (ladders_calm hvers) (fun _ _ => .pure)) (fun all _ => ?_)
  rw [hw.size]
  refine .bind (getBinaryLadder_calm hl) (fun ladder _ => ?_)
  refine .bind (runOn_calm hl (ownerInit_mild hpos hvers) p1).1 ?_
  rintro ⟨r, q⟩ hr
  obtain ⟨-, q1, q2⟩ := (runOn_calm hl (ownerInit_mild hpos hvers) p1).2 _ hr
  exact .bind (finishMonitor_calm hl (op := { op with monitor := r.1, provider := q }) hw q1 (q2.trans (p2.trans hv))) (fun _ _ => .pure)

def takeLast (o : Owner) (last : Int) : G Owner :=
  if last < 0 ∨ last > o.upcoming.length then goPanic "slice bounds out of range"
  else pure { o with upcoming := o.upcoming.take last.toNat }

theorem takeLast_calm {o : Owner} {last : Int} (h0 : 0 ≤ last) (h1 : last ≤ o.upcoming.length) : Calm (takeLast o last) := by
  unfold takeLast
  rw [if_neg (by omega)]
  exact .pure

theorem takeLast_few {o o' : Owner} {last : Int} (hs : o.upcoming.Pairwise (· ≤ ·)) (hg : o.greatest < 2 ^ 31 - 1)
    (h : takeLast o last = .ok o') : FewVersions o' := by
  unfold takeLast at h
  split at h
  · cases h
  · cases h
    refine ⟨hs.sublist (List.take_sublist _ _), ?_⟩
    simp only [Owner.greatest, List.length_take] at hg ⊢
    omega

theorem ownerState_calm {index : List Nat} (hs : index.Pairwise (· ≤ ·)) (hlen : index.length < 2 ^ 31) {req : OwnerMonitorRequest} :
    Calm (ownerState index n req) ∧ ∀ o, ownerState index n req = .ok o → FewVersions o := by
  have hb := (bsearch_spec (t := req.start + 1) hs).1
  have hd : (index.drop (bsearch index (req.start + 1))).Pairwise (· ≤ ·) := hs.sublist (List.drop_sublist _ _)
  unfold ownerState
  refine ⟨.ite (fun _ => .err) (fun h1 => .ite (fun _ => .err) (fun h2 => .ite (fun _ => .err) (fun h3 => ?_))), ?_⟩
  · cases hg : req.greatestVersion with
    | none =>
      exact takeLast_calm (last := 0) (le_refl _) (Int.natCast_nonneg _)
    | some v =>
      rw [hg] at h2 h3
      simp only [Option.any_some, decide_eq_true_eq, Option.all_some, not_and, Owner.setStarting, Option.pure_def,
        Option.bind_eq_bind, Option.bind_some] at h2 h3
      replace h3 : ((bsearch index (req.start + 1) : Nat) : Int) + -1 > -1 →
          ¬ (v : Int) < ((bsearch index (req.start + 1) : Nat) : Int) + -1 := fun h => by simpa using h3 h
      refine takeLast_calm ?_ ?_
      · simp only [Owner.setStarting]; omega
      · simp only [Owner.setStarting, List.length_drop]; omega
  · intro o ho
    split at ho
    · cases ho
    · split at ho
      · cases ho
      · simp only at ho
        rw [apply_ite (· = Except.ok o)] at ho
        split at ho
        · cases ho
        · refine takeLast_few (o := (⟨0, -1, index⟩ : Owner).setStarting req.start) hd ?_ ho
          simp only [Owner.setStarting, Owner.greatest, List.length_drop]
          omega

/-- OwnerMonitor. -/
theorem ownerMonitor_calm (hl : Live env bs n E t) {now : Nat} {req : OwnerMonitorRequest} (h0 : req.last ≠ some 0)
    (hf : FewOf t req.label) : Calm (ownerMonitor env now t req) := by
  unfold ownerMonitor
  refine .bind (startMonitor_calm hl h0).1 (fun op hop => ?_)
  obtain ⟨hw, hidx, hp, hv, hsz, -⟩ := (startMonitor_calm hl h0).2 op hop
  obtain ⟨index, hi1, hi3, hi2⟩ := hl.index req.label
  have hie : index = op.index := Except.ok.inj (hi1.symm.trans hidx)
  subst hie
  have hlen := hf _ hi1
  rw [hw.size]
  refine .bind (verifyEntries_calm hi2).1 (fun ptrs hptrs => ?_)
  obtain ⟨e1, e2⟩ := (verifyEntries_calm hi2).2 ptrs hptrs
  refine .bind (ownerState_calm hi3 hlen).1 (fun o ho => ?_)
  have hfew := (ownerState_calm hi3 hlen).2 o ho
  have hspec := contactMonitor_mild (m := { op.monitor with contact := some ptrs, owner := some o }) (c := ptrs) rfl e2
    (fun e he => by simp only [hsz]; exact (e1 e he).1) (fun e he => by have := (e1 e he).2; omega)
  simp only
  refine .bind (runOn_calm hl hspec hp).1 ?_
  rintro ⟨m, p⟩ hm
  obtain ⟨⟨m1, m2, -⟩, p1, p2⟩ := (runOn_calm hl hspec hp).2 _ hm
  have hspec2 := ownerMonitor_mild (m := m) (by rw [m2]; simp only [hsz]; exact hl.honest.pos) m1 hfew
  simp only
  refine .bind (runOn_calm hl hspec2 p1).1 ?_
  rintro ⟨m', q⟩ hm'
  obtain ⟨-, q1, q2⟩ := (runOn_calm hl hspec2 p1).2 _ hm'
  exact .bind (finishMonitor_calm hl (op := { op with monitor := m', provider := q }) hw q1 (q2.trans (p2.trans hv))) (fun _ _ => .pure)

/-! ### updates -/

theorem updateLadderVersions_calm {a b : Nat} (ha : a < 2 ^ 31) (hb : b < 2 ^ 31 - 1) : Calm (updateLadderVersions a b) := by
  unfold updateLadderVersions
  obtain ⟨l, hl, -⟩ := ladder_self hb
  rw [hl, G.ok_bind]
  obtain ⟨l', hl', -⟩ := ladder_self (show a - 1 < 2 ^ 31 - 1 by omega)
  simp only [hl']
  split <;> exact .ok

theorem infos_calm (hl : Live env bs n E t) {label : Bytes} {pos : Nat} {w : Bool} : ∀ {ver : Nat} {rest : List Nat},
    Calm (infos env t.tx label pos w ver rest) ∧ ∀ r, infos env t.tx label pos w ver rest = .ok r → r.2.length ≤ rest.length
  | ver, [] => by
    unfold infos
    refine ⟨.pure, ?_⟩
    rintro r ⟨⟩
    exact le_refl _
  | ver, p :: rest => by
    unfold infos
    split
    · refine ⟨.pure, ?_⟩
      rintro r ⟨⟩
      simp
    · obtain ⟨ov, hov⟩ := hl.version label (ver % 2 ^ 32)
      rw [hov, G.ok_bind]
      refine ⟨.bind (infos_calm hl).1 (fun _ _ => .pure), fun r hr => ?_⟩
      obtain ⟨⟨values, info⟩, h1, hr⟩ := G.bind_eq_ok.1 hr
      cases hr
      have := (infos_calm hl).2 _ h1
      simpa using this

theorem monitorUpdate_none {m : Monitor} (hm : m.owner = none) {pos : Nat} {k : Int} :
    Spec (monitorUpdate m pos k) Mild (fun _ => True) IsErr := by
  unfold monitorUpdate
  rw [hm]
  exact .fail ⟨_, rfl⟩

theorem next_calm {now : Nat} {u : Updater} (hl : Live env bs n E u.tree) (h0 : u.last ≠ some 0) (hver : u.ver < u.index.length)
    (hlen : u.index.length < 2 ^ 31) {w : Bool} : Calm (next env now u w) := by
  unfold next
  rw [List.getElem?_eq_getElem hver]
  simp only
  refine .bind (infos_calm hl).1 ?_
  rintro ⟨values, info⟩ hi
  have hle := (infos_calm hl).2 _ hi
  rw [List.length_drop] at hle
  simp only at hle ⊢
  obtain ⟨th, h1, h2⟩ := hl.head
  refine .bind ?_ (fun ladder _ => ?_)
  · unfold updaterLadder
    rw [Nat.mod_eq_of_lt (by omega), Nat.mod_eq_of_lt (by omega)]
    refine .bind (updateLadderVersions_calm (by omega) (by omega)) (fun vs _ => ?_)
    rw [h1]
    simp only [h2]
    exact getBinaryLadder_calm hl
  · refine .bind (fullTreeHead_calm hl h0).1 (fun h hh => ?_)
    have hw := (fullTreeHead_calm hl h0).2 h hh
    rw [hw.size]
    have hu := updateView_calm hl (now := now) (index := u.index) hw.last (s := {}) rfl rfl rfl
    refine .bind hu.1 (fun p hp => ?_)
    obtain ⟨p1, p2⟩ := hu.2 p hp
    refine .bind (runOn_calm hl newMonitor_mild p1).1 ?_
    rintro ⟨m, q⟩ hm
    obtain ⟨⟨-, -, -, -, m1⟩, q1, q2⟩ := (runOn_calm hl newMonitor_mild p1).2 _ hm
    have hsp := monitorUpdate_none m1 (pos := u.index[u.ver]) (k := info.length)
    refine .bind (runOn_calm hl hsp q1).1 ?_
    rintro ⟨m', r⟩ hm'
    obtain ⟨-, r1, r2⟩ := (runOn_calm hl hsp q1).2 _ hm'
    refine .bind (outputOf_calm hl hw r1 ?_) (fun _ _ => .pure)
    intro v k hk
    rw [r2, q2, p2] at hk
    cases hk

theorem sendAll_calm {now : Nat} {w : Nat → Bool} : ∀ {fuel : Nat} {u : Updater}, Live env bs n E u.tree → u.last ≠ some 0 →
    u.index.length < 2 ^ 31 →
    (∀ r ∈ (sendAll env now w fuel u).1, Calm r) ∧ ∀ u', (sendAll env now w fuel u).2 = some u' → u'.last ≠ some 0 ∧ u'.label = u.label
  | 0, u, _, h0, _ => by
    unfold sendAll
    refine ⟨by simp, ?_⟩
    rintro u' ⟨⟩
    exact ⟨h0, rfl⟩
  | fuel + 1, u, hl, h0, hlen => by
    unfold sendAll
    split
    · rename_i hver
      have hc := next_calm (now := now) hl h0 hver hlen (w := w (u.index.getD u.ver 0))
      revert hc
      cases next env now u (w (u.index.getD u.ver 0)) with
      | error e =>
        intro hc
        refine ⟨?_, by simp⟩
        simp only [List.mem_singleton, forall_eq]
        exact fun f hf => hc f (by cases hf; rfl)
      | ok r =>
        intro _
        obtain ⟨res, ver⟩ := r
        obtain ⟨th, h1, h2⟩ := hl.head
        have hpos := hl.honest.pos
        have ih := sendAll_calm (now := now) (w := w) (fuel := fuel) (u := { u with ver := ver, last := some u.tree.size }) hl
          (by simp only [Server.Tree.size, h1, h2]; intro h; cases h; omega) hlen
        exact ⟨List.forall_mem_cons.2 ⟨.ok, ih.1⟩, ih.2⟩
    · refine ⟨by simp, ?_⟩
      rintro u' ⟨⟩
      exact ⟨h0, rfl⟩

/-- the database after the new versions have been sequenced -/
def SeqLive (env : Env) (label : Bytes) : Sequenced → Prop
  | .sequenced _ db => ∃ t bs n E, newTree env db = .ok t ∧ Live env bs n E t ∧ FewOf t label
  | _ => True

theorem reloadTree_calm {db : Store} {pos : Nat} {u : Updater} (h : newTree env db = .ok t) (hl : Live env bs n E t) :
    Calm (reloadTree env db pos u) ∧ ∀ u', reloadTree env db pos u = .ok u' → u'.tree = t ∧ u'.last = u.last ∧ u'.label = u.label ∧
      getIndex t.tx u.label = .ok u'.index := by
  have htx : t.tx = db := by
    unfold newTree at h
    obtain ⟨hd, -, h⟩ := G.bind_eq_ok.1 h
    obtain ⟨ad, -, h⟩ := G.bind_eq_ok.1 h
    cases h
    rfl
  obtain ⟨th, h1, h2⟩ := hl.head
  obtain ⟨index, hi, -⟩ := hl.index u.label
  unfold reloadTree
  rw [h, G.ok_bind, if_neg (by rw [h1]; simp), ← htx, hi]
  simp only [G.ok_bind]
  refine ⟨.ite (fun _ => .err) (fun _ => .ite (fun _ => .err) (fun _ => .pure)), ?_⟩
  intro u' hu
  split at hu
  · cases hu
  · split at hu
    · cases hu
    · cases hu
      exact ⟨rfl, rfl, rfl, rfl⟩

theorem process_calm {now : Nat} {u : Updater} (hl : Live env bs n E u.tree) (h0 : u.last ≠ some 0) (hlen : u.index.length < 2 ^ 31)
    {seq : Sequenced} (hseq : SeqLive env u.label seq) : ∀ r ∈ process env now seq u, Calm r := by
  obtain ⟨h1, h2⟩ := sendAll_calm (now := now) (w := fun _ => true) (fuel := u.index.length + 1) hl h0 hlen
  unfold process
  simp only
  intro r hr
  rcases List.mem_append.1 hr with hr | hr
  · exact h1 r hr
  · cases hs : (sendAll env now (fun _ => true) (u.index.length + 1) u).2 with
    | none => rw [hs] at hr; cases hr
    | some u' =>
      rw [hs] at hr
      simp only at hr
      split at hr
      · cases hr
      · obtain ⟨k1, k2⟩ := h2 u' hs
        cases seq with
        | unsupported => rw [List.mem_singleton.1 hr]; exact .err
        | refused => rw [List.mem_singleton.1 hr]; exact .err
        | sequenced pos db =>
          obtain ⟨t', bs', n', E', g1, g2, g3⟩ := hseq
          obtain ⟨c1, c2⟩ := reloadTree_calm (pos := pos) (u := u') g1 g2
          simp only at hr
          cases hrl : reloadTree env db pos u' with
          | error e =>
            rw [hrl] at hr
            rw [List.mem_singleton.1 hr]
            exact calm_error c1 hrl
          | ok u'' =>
            rw [hrl] at hr
            obtain ⟨d1, d2, d3, d4⟩ := c2 u'' hrl
            rw [k2] at d4
            exact (sendAll_calm (by rw [d1]; exact g2) (by rw [d2]; exact k1) (g3 _ d4)).1 r hr

/-- Update. -/
theorem update_calm (hl : Live env bs n E t) {now : Nat} {req : UpdateRequest} (h0 : req.last ≠ some 0) (hf : FewOf t req.label)
    {seq : Sequenced} (hseq : SeqLive env req.label seq) :
    ∃ msgs, update env now seq t req = .ok msgs ∧ ∀ r ∈ msgs, Calm r := by
  obtain ⟨index, hi, -⟩ := hl.index req.label
  unfold update setRequest
  rw [hi]
  simp only [G.ok_bind, G.pure_eq]
  exact ⟨_, rfl, process_calm hl h0 (hf _ hi) hseq⟩

/-- the keys that the mode asks for are there -/
def Keyed (c : Config) : Prop :=
  (c.mode = thirdPartyManagement → c.leafKey ≠ none) ∧ (c.mode = thirdPartyAuditing → c.auditorKey ≠ none)

theorem keyBytes_calm {k : Option Bytes} (h : k ≠ none) : Calm (keyBytes k) := by
  cases k with
  | none => exact absurd rfl h
  | some b => exact .ok

theorem marshalConfig_calm {c : Config} (hk : Keyed c) : Calm (marshalConfig c) := by
  unfold marshalConfig modePart
  refine wSeq_calm .ok (wSeq_calm .ok (wSeq_calm wBytes_calm (wSeq_calm wBytes_calm (wSeq_calm ?_ (wSeq_calm .ok (wSeq_calm .ok (wSeq_calm .ok ?_)))))))
  · refine .ite (fun h => .bind (keyBytes_calm (hk.1 h)) (fun _ _ => wBytes_calm)) (fun _ => .ite (fun h => ?_) (fun _ => .ok))
    exact wSeq_calm .ok (wSeq_calm .ok (.bind (keyBytes_calm (hk.2 h)) (fun _ _ => wBytes_calm)))
  · cases c.maxLifetime <;> exact .ok

theorem verifyOperator_calm {cfg : Config} {verify : Bytes → Bytes → Bool} {label : Bytes} {signed : Nat} (hc : Keyed cfg)
    (hk : cfg.leafKey ≠ none) :
    ∀ {i : Nat} {vs : List UpdateValue}, Calm (verifyOperator cfg verify label signed i vs)
  | _, [] => by unfold verifyOperator; exact .pure
  | i, v :: vs => by
    unfold verifyOperator
    refine .bind ?_ (fun tbs _ => ?_)
    · unfold updateTBS
      exact wSeq_calm (marshalConfig_calm hc) (wSeq_calm wBytes_calm (wSeq_calm .ok wBytes_calm))
    · split
      · rename_i h; exact absurd h hk
      · exact .ite (fun _ => .err) (fun _ => verifyOperator_calm hc hk)

/-- ManagerUpdate. -/
theorem managerUpdate_calm (hl : Live env bs n E t) {now : Nat} {verify : Bytes → Bytes → Bool} {req : ManagerUpdateRequest}
    (h0 : req.last ≠ some 0) (hf : FewOf t req.label) (hk : Keyed env.cfg ∧ env.cfg.leafKey ≠ none ∨ req.values = [])
    {seq : Sequenced} (hseq : SeqLive env req.label seq) :
    Calm (managerUpdate env now verify seq t req) ∧
      ∀ msgs, managerUpdate env now verify seq t req = .ok msgs → ∀ r ∈ msgs, Calm r := by
  obtain ⟨index, hi, -⟩ := hl.index req.label
  have hv : Calm (verifyOperator env.cfg verify req.label req.signedVersion 0 req.values) := by
    rcases hk with hk | hk
    · exact verifyOperator_calm hk.1 hk.2
    · rw [hk]; unfold verifyOperator; exact .pure
  unfold managerUpdate setManagerRequest
  refine ⟨.bind (.bind hv (fun _ _ => ?_)) (fun _ _ => .pure), fun msgs hm => ?_⟩
  · rw [hi, G.ok_bind]
    exact .pure
  · obtain ⟨u, hu, hm⟩ := G.bind_eq_ok.1 hm
    obtain ⟨-, -, hu⟩ := G.bind_eq_ok.1 hu
    rw [hi, G.ok_bind] at hu
    cases hu
    cases hm
    exact process_calm hl h0 (hf _ hi) hseq

end
end Katie.Server
