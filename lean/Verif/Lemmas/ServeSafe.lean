import Verif.Lemmas.NoFault
import Verif.Lemmas.ServeFinal

/-
The server's provider answers requests, and outputs proofs, without crashing or looping.
-/

namespace Katie.Alg
open Katie Katie.Wire Katie.Ladder Katie.Props Katie.SearchSpec Katie.SearchTree Katie.Prefix Katie.PrefixSpec Prog

/-- no panic and no endless loop -/
def Calm {α : Type} (r : G α) : Prop := ∀ f, r = .error f → IsErr f

section
variable {α β : Type}

theorem Calm.ok {a : α} : Calm (.ok a : G α) := fun _ h => nomatch h
theorem Calm.pure {a : α} : Calm (pure a : G α) := Calm.ok
theorem Calm.err {m : String} : Calm (goErr m : G α) := fun _ h => ⟨m, (Except.error.inj h).symm⟩
theorem Calm.of_ok {r : G α} {a : α} (h : r = .ok a) : Calm r := h ▸ Calm.ok

theorem Calm.bind {r : G α} {f : α → G β} (h : Calm r) (hf : ∀ a, r = .ok a → Calm (f a)) : Calm (r >>= f) := by
  cases r with
  | ok a => exact hf a rfl
  | error e =>
    intro g hg
    exact h g (by cases hg; rfl)

theorem Calm.ite {c : Prop} [Decidable c] {r s : G α} (h1 : c → Calm r) (h2 : ¬ c → Calm s) : Calm (if c then r else s) := by
  split
  · exact h1 ‹_›
  · exact h2 ‹_›

/-- what is known about the provider of the server at any time -/
structure Steady (n : Nat) (E : Nat → LogEntry) (p : Provider Produced) : Prop where
  ts : TsMap p.timestamps
  agrees : Agrees n E p
  retained : ∀ x, p.logEntries.lookup x ≠ none → p.prefixTrees.lookup x ≠ none
  proofs : ∀ need ∈ p.state.proofs, need.1 < n

theorem Fresh.steady {n : Nat} {E : Nat → LogEntry} {p : Provider Produced} (h : Fresh n E p) : Steady n E p :=
  ⟨h.ts, h.agrees, h.retained, by rw [h.proofs]; simp⟩

theorem Steady.setState {n : Nat} {E : Nat → LogEntry} {p : Provider Produced} (h : Steady n E p) {s : Produced}
    (hs : ∀ need ∈ s.proofs, need.1 < n) : Steady n E { p with state := s } :=
  ⟨h.ts, ⟨h.agrees.ts, h.agrees.roots⟩, h.retained, hs⟩

/-- the entries of the log -/
structure LogOf (n : Nat) (E : Nat → LogEntry) (db : ServerDB) : Prop where
  entry : ∀ x < n, db.entry x = .ok (E x)
  beyond : ∀ x, n ≤ x → ∃ m, db.entry x = goErr m

section
variable {db : ServerDB} {index : List Nat} {n : Nat} {E : Nat → LogEntry}

theorem LogOf.cases (h : LogOf n E db) (x : Nat) : (∃ m, db.entry x = goErr m) ∨ (x < n ∧ db.entry x = .ok (E x)) := by
  by_cases hx : x < n
  · exact .inr ⟨hx, h.entry x hx⟩
  · exact .inl (h.beyond x (by omega))

theorem addTimestamp_calm {m : List (Nat × Nat)} {x t : Nat} : Calm (addTimestamp m x t) := by
  unfold addTimestamp
  exact .ite (fun _ => .err) (fun _ => .ite (fun _ => .err) (fun _ => .ok))

theorem addPrefixTree_calm {m : List (Nat × Bytes)} {x : Nat} {r : Bytes} : Calm (addPrefixTree m x r) := by
  unfold addPrefixTree
  split
  · exact .ite (fun _ => .err) (fun _ => .ok)
  · exact .ok

theorem getTimestamp_steady (hl : LogOf n E db) {p : Provider Produced} (hp : Steady n E p) (x : Nat) :
    Calm (p.getTimestamp (Produced.handle db index) x).1 ∧ Steady n E (p.getTimestamp (Produced.handle db index) x).2 := by
  unfold Provider.getTimestamp
  cases hx : p.timestamps.lookup x with
  | some t => exact ⟨.ok, hp⟩
  | none =>
    simp only [Produced.handle, Produced.getTs]
    rcases hl.cases x with ⟨m, hm⟩ | ⟨hlt, hm⟩
    · rw [hm]
      exact ⟨.err, hp.setState hp.proofs⟩
    · rw [hm]
      simp only
      cases ha : addTimestamp p.timestamps x (E x).timestamp with
      | error e =>
        refine ⟨?_, hp.setState hp.proofs⟩
        have := addTimestamp_calm (m := p.timestamps) (x := x) (t := (E x).timestamp)
        rw [ha] at this
        intro f hf
        cases hf
        exact this e rfl
      | ok m =>
        refine ⟨.ok, TsMap.add hp.ts ha, ⟨?_, hp.agrees.roots⟩, hp.retained, hp.proofs⟩
        unfold addTimestamp at ha
        split at ha
        · cases ha
        · split at ha
          · cases ha
          · cases ha
            exact List.forall_mem_cons.2 ⟨⟨hlt, rfl⟩, hp.agrees.ts⟩

theorem record_steady {p : Provider Produced} (hp : Steady n E p) (x : Nat) (b : β) :
    Calm (Provider.record x (E x).prefixTree b p).1 ∧ Steady n E (Provider.record x (E x).prefixTree b p).2 := by
  unfold Provider.record
  obtain ⟨m', h1, h2⟩ := addPrefixTree_agrees hp.agrees.roots x
  rw [h1]
  refine ⟨.ok, hp.ts, ⟨hp.agrees.ts, h2⟩, ?_, hp.proofs⟩
  intro y hy
  have h3 := hp.retained y hy
  unfold addPrefixTree at h1
  simp only
  split at h1
  · split at h1
    · cases h1
    · cases h1; exact h3
  · cases h1
    rw [List.lookup_cons]
    split
    · simp
    · exact h3

theorem viaRoot_steady (hl : LogOf n E db) {p : Provider Produced} (hp : Steady n E p) {x : Nat}
    {f : Produced → G (Bytes × β) × Produced} {c : Prop}
    (hf : ∀ s : Produced, (∀ need ∈ s.proofs, need.1 < n) → (∀ need ∈ (f s).2.proofs, need.1 < n) ∧ (c → Calm (f s).1) ∧
      ∀ root a, (f s).1 = .ok (root, a) → root = (E x).prefixTree) :
    (c → Calm (viaRoot (Produced.handle db index) x f p).1) ∧ Steady n E (viaRoot (Produced.handle db index) x f p).2 := by
  unfold viaRoot
  obtain ⟨h1, h2⟩ := getTimestamp_steady (index := index) hl hp x
  revert h1 h2
  generalize p.getTimestamp (Produced.handle db index) x = r
  obtain ⟨r1, p'⟩ := r
  intro h1 h2
  cases r1 with
  | error e =>
    refine ⟨fun _ f hf => h1 f (by cases hf; rfl), h2⟩
  | ok t =>
    simp only at h2 ⊢
    obtain ⟨k1, k2, k3⟩ := hf p'.state h2.proofs
    revert k1 k2 k3
    generalize f p'.state = o
    obtain ⟨o1, s'⟩ := o
    intro k1 k2 k3
    cases o1 with
    | error e => exact ⟨fun hc f hf => k2 hc f (by cases hf; rfl), h2.setState k1⟩
    | ok ra =>
      obtain ⟨root, a⟩ := ra
      simp only
      rw [k3 root a rfl]
      obtain ⟨a1, a2⟩ := record_steady (h2.setState k1) x a
      exact ⟨fun _ => a1, a2⟩

theorem produceLadder_calm {vt : Tracker} {x v : Nat} {om : Bool} {g : Int} (hv : v < 2 ^ 31 - 1) : Calm (produceLadder vt x v om g) := by
  obtain ⟨b, hb, -⟩ := baseBinaryLadder_ok hv
  unfold produceLadder producedVersions searchBinaryLadder
  refine .bind (.ite (fun _ => .pure) (fun _ => ?_)) (fun _ _ => .pure)
  rw [hb]
  exact .pure

theorem monitoringBinaryLadder_calm {v : Nat} (hv : v < 2 ^ 31 - 1) : Calm (monitoringBinaryLadder v) := by
  obtain ⟨b, hb, -⟩ := baseBinaryLadder_ok hv
  unfold monitoringBinaryLadder
  rw [hb]
  exact .pure

theorem proofs_snoc {s : List (Nat × List Nat)} (hs : ∀ need ∈ s, need.1 < n) {x : Nat} (hx : x < n) (w : List Nat) :
    ∀ need ∈ s ++ [(x, w)], need.1 < n := by
  intro need hn
  rcases List.mem_append.1 hn with h | h
  · exact hs need h
  · rw [List.mem_singleton.1 h]; exact hx

theorem calm_error {e : Fault} {r : G α} (h : Calm r) (he : r = .error e) : Calm (.error e : G β) := by
  intro f hf
  cases hf
  exact h _ he

theorem answer_steady (hl : LogOf n E db) (q : Req) {p : Provider Produced} (hp : Steady n E p) :
    (Mild q → Calm (p.answer (Produced.handle db index) q).1) ∧ Steady n E (p.answer (Produced.handle db index) q).2 := by
  cases q with
  | ts x =>
    obtain ⟨h1, h2⟩ := getTimestamp_steady (index := index) hl hp x
    exact ⟨fun _ => h1, h2⟩
  | search x v om =>
    have he : p.answer (Produced.handle db index) (.search x v om) = viaRoot (Produced.handle db index) x _ p :=
      getSearch_eq _ x v om p
    rw [he]
    refine viaRoot_steady hl hp (fun s hs => ?_)
    simp only [Produced.handle, Produced.search]
    cases hpl : produceLadder s.tracker x v om (greatestAt index x) with
    | error e => exact ⟨hs, fun hm => calm_error (produceLadder_calm hm) hpl, fun _ _ h => nomatch h⟩
    | ok r =>
      rcases hl.cases x with ⟨m, hm⟩ | ⟨hlt, hm⟩
      · simp only [hm]
        exact ⟨hs, fun _ => .err, fun _ _ h => nomatch h⟩
      · simp only [hm]
        refine ⟨proofs_snoc hs hlt _, fun _ => .ok, fun root a h => ?_⟩
        cases h
        rfl
  | monitor x v =>
    have he : p.answer (Produced.handle db index) (.monitor x v) = viaRoot (Produced.handle db index) x _ p :=
      getMonitor_eq _ x v p
    rw [he]
    refine viaRoot_steady hl hp (fun s hs => ?_)
    simp only [withUnit, Produced.handle, Produced.monitor]
    rcases hl.cases x with ⟨m, hm⟩ | ⟨hlt, hm⟩
    · simp only [hm]
      exact ⟨hs, fun _ => .err, fun _ _ h => nomatch h⟩
    · simp only [hm]
      cases hpl : monitoringBinaryLadder v with
      | error e => exact ⟨hs, fun hm => calm_error (monitoringBinaryLadder_calm hm) hpl, fun _ _ h => nomatch h⟩
      | ok r =>
        refine ⟨proofs_snoc hs hlt _, fun _ => .ok, fun root a h => ?_⟩
        cases h
        rfl
  | incl x vers =>
    have he : p.answer (Produced.handle db index) (.incl x vers) = _ := getIncl_eq (Produced.handle db index) x vers p
    rw [he]
    split
    · exact ⟨fun _ => .ok, hp⟩
    refine viaRoot_steady hl hp (fun s hs => ?_)
    simp only [withUnit, Produced.handle, Produced.incl]
    rcases hl.cases x with ⟨m, hm⟩ | ⟨hlt, hm⟩
    · simp only [hm]
      exact ⟨hs, fun _ => .err, fun _ _ h => nomatch h⟩
    · simp only [hm]
      refine ⟨proofs_snoc hs hlt _, fun _ => .ok, fun root a h => ?_⟩
      cases h
      rfl
  | stop x v => exact ⟨fun _ => .ok, hp⟩
  | addLadder x om g l => exact ⟨fun _ => .ok, hp.setState hp.proofs⟩

theorem run_steady (hl : LogOf n E db) (prog : Prog α) {p : Provider Produced} (hp : Steady n E p) :
    Steady n E (p.run (Produced.handle db index) prog).2 ∧
    ∀ e ∈ p.trace (Produced.handle db index) prog, Mild e.q → Calm e.a := by
  induction prog generalizing p with
  | ret r => exact ⟨hp, by simp [Provider.trace]⟩
  | op q k ih =>
    obtain ⟨h1, h2⟩ := answer_steady (index := index) hl q hp
    obtain ⟨h3, h4⟩ := ih (p.answer (Produced.handle db index) q).1 h2
    exact ⟨h3, List.forall_mem_cons.2 ⟨h1, h4⟩⟩

/-- running a program on the provider -/
theorem run_calm (hl : LogOf n E db) {prog : Prog α} {Q : α → Prop} (hs : Spec prog Mild Q IsErr) {p : Provider Produced}
    (hp : Steady n E p) :
    Calm (p.run (Produced.handle db index) prog).1 ∧ Steady n E (p.run (Produced.handle db index) prog).2 ∧
    ∀ a, (p.run (Produced.handle db index) prog).1 = .ok a → Q a := by
  obtain ⟨h1, h2⟩ := run_steady (index := index) hl prog hp
  obtain ⟨-, -, hr, -⟩ := run_spec (Produced.handle db index) prog p hp.ts
  refine ⟨?_, h1, fun a ha => hs.ok _ _ (ha ▸ hr)⟩
  intro f hf
  rw [hf] at hr
  rcases hs.error _ _ hr with ⟨q, hq, hmem⟩ | h
  · exact h2 _ hmem hq f rfl
  · exact h

end

/-! ### output -/

theorem outputsFor_calm {vs : Versions} : ∀ {vers : List Nat}, Calm (Produced.outputsFor vs vers)
  | [] => .pure
  | v :: vers => by
    unfold Produced.outputsFor
    split
    · exact .err
    · exact .bind outputsFor_calm (fun _ _ => .pure)

theorem searches_calm {vs : Versions} : ∀ {ps : List (Nat × List Nat)}, Calm (Produced.searches vs ps)
  | [] => .pure
  | p :: ps => by
    unfold Produced.searches
    exact .bind outputsFor_calm (fun _ _ => .bind searches_calm (fun _ _ => .pure))

theorem outputsFor_length {vs : Versions} {N : Nat} (hvs : ∀ v k, vs.lookup v = some k → k.vrf.length = N) :
    ∀ {vers : List Nat} {o : List Bytes}, Produced.outputsFor vs vers = .ok o → o.length = vers.length ∧ ∀ v ∈ o, v.length = N
  | [], o, h => by
    cases h
    exact ⟨rfl, by simp⟩
  | v :: vers, o, h => by
    unfold Produced.outputsFor at h
    split at h
    · cases h
    · rename_i k hk
      obtain ⟨o', h1, h2⟩ := G.bind_eq_ok.1 h
      cases h2
      obtain ⟨h3, h4⟩ := outputsFor_length hvs h1
      exact ⟨by simp [h3], List.forall_mem_cons.2 ⟨hvs v k hk, h4⟩⟩

theorem searches_shape {vs : Versions} {N : Nat} (hvs : ∀ v k, vs.lookup v = some k → k.vrf.length = N) :
    ∀ {ps : List (Nat × List Nat)} {ss : List Search}, Produced.searches vs ps = .ok ss →
      List.Forall₂ (fun p (s : Search) => s.version = p.1 + 1 ∧ s.vrfs.length = p.2.length ∧ ∀ v ∈ s.vrfs, v.length = N) ps ss
  | [], ss, h => by
    cases h
    exact .nil
  | p :: ps, ss, h => by
    unfold Produced.searches at h
    obtain ⟨o, h1, h⟩ := G.bind_eq_ok.1 h
    obtain ⟨more, h2, h⟩ := G.bind_eq_ok.1 h
    cases h
    obtain ⟨h3, h4⟩ := outputsFor_length hvs h1
    exact .cons ⟨rfl, h3, h4⟩ (searches_shape hvs h2)

/-- Every search in existing versions is answered, with one commitment or none for each VRF output. -/
theorem search_total {cs : Suite} (hcs : cs.Good) (hsm : Small cs) {bs : List Batch} {st : Store} (h : History cs bs st)
    {searches : List Search}
    (hreq : ∀ s ∈ searches, 1 ≤ s.version ∧ s.version ≤ bs.length ∧ ∀ v ∈ s.vrfs, v.length = cs.hashSize) :
    ∃ out, Prefix.search cs st searches = .ok out ∧
      List.Forall₂ (fun (s : Search) (r : Proof × List (Option Bytes)) => r.2.length = s.vrfs.length) searches out := by
  obtain ⟨hmap, X, hinv⟩ := history_inv hcs hsm h
  have hchk : ∀ l : List Search, (∀ s ∈ l, 1 ≤ s.version ∧ ∀ v ∈ s.vrfs, v.length = cs.hashSize) →
      checkSearches cs l = .ok () := by
    intro l
    induction l with
    | nil => intro _; rfl
    | cons s l ih =>
      intro hl
      have hs := hl s (by simp)
      have hall : (s.vrfs.all fun v => v.length == cs.hashSize) = true := by
        rw [List.all_eq_true]; intro v hv; simpa using hs.2 v hv
      unfold checkSearches
      rw [if_neg (by omega), if_neg (by simp only [hall, not_true_eq_false, not_false_eq_true])]
      exact ih (fun s' h' => hl s' (by simp [h']))
  unfold Prefix.search
  rw [hchk searches (fun s hs => ⟨(hreq s hs).1, (hreq s hs).2.2⟩)]
  simp only [G.ok_bind]
  have key : ∀ l : List Search, (∀ s ∈ l, s ∈ searches) → ∃ out, l.mapM (searchOne cs st searches) = .ok out ∧
      List.Forall₂ (fun (s : Search) (r : Proof × List (Option Bytes)) => r.2.length = s.vrfs.length) l out := by
    intro l
    induction l with
    | nil => intro _; exact ⟨[], rfl, List.Forall₂.nil⟩
    | cons s l ih =>
      intro hl
      obtain ⟨out, h1, h2⟩ := ih (fun s' h' => hl s' (by simp [h']))
      have hs := hl s (by simp)
      obtain ⟨r1, r2, r4⟩ := hreq s hs
      have one : ∃ r, searchOne cs st searches s = .ok r ∧ r.2.length = s.vrfs.length := by
        by_cases hW : (searches.filter (fun t => t.version == s.version)).flatMap Search.vrfs = []
        · have hV : s.vrfs = [] := (List.flatMap_eq_nil_iff.1 hW) s (List.mem_filter.mpr ⟨hs, by simp⟩)
          unfold searchOne
          rw [hW, hV]
          exact ⟨_, rfl, rfl⟩
        · obtain ⟨st', hh⟩ := history_prefix h s.version r2
          have hmap' := (history_inv hcs hsm hh).1
          have hget := versions_get bs (s.version - 1) (by omega)
          have hv : s.version - 1 + 1 = s.version := by omega
          rw [hv] at hget
          obtain ⟨n, r, g1, g2, g3, _⟩ := search_version hinv hget hmap'
            (V := s.vrfs) (W := (searches.filter (fun t => t.version == s.version)).flatMap Search.vrfs) hW
            (fun x hx => List.mem_flatMap.mpr ⟨s, List.mem_filter.mpr ⟨hs, by simp⟩, hx⟩)
            (by
              intro x hx
              obtain ⟨t, ht, hxt⟩ := List.mem_flatMap.mp hx
              exact (hreq t (List.mem_filter.mp ht).1).2.2 x hxt)
          rw [hv] at g1
          refine ⟨r, ?_, by rw [g3.answer, List.length_map]⟩
          unfold searchOne
          simp only [g1 st (fun _ _ => rfl), G.ok_bind]
          exact g2
      obtain ⟨r, o1, o2⟩ := one
      refine ⟨r :: out, ?_, .cons o2 h2⟩
      rw [List.mapM_cons, o1, h1]
      rfl
  exact key searches (fun _ h => h)

theorem takeCommitments_calm : ∀ {vers : List Nat} {coms : List (Option Bytes)} {vs : Versions}, coms.length ≤ vers.length →
    Calm (Produced.takeCommitments vers coms vs)
  | _, [], vs, _ => by unfold Produced.takeCommitments; exact .pure
  | [], c :: coms, vs, h => by simp at h
  | v :: vers, none :: coms, vs, h => by
    unfold Produced.takeCommitments
    exact takeCommitments_calm (by simpa using h)
  | v :: vers, some c :: coms, vs, h => by
    have h' : coms.length ≤ vers.length := by simpa using h
    unfold Produced.takeCommitments
    split
    · exact takeCommitments_calm h'
    · split
      · exact takeCommitments_calm h'
      · exact .ite (fun _ => .err) (fun _ => takeCommitments_calm h')

theorem takeAll_calm : ∀ {ps : List (Nat × List Nat)} {rs : List (Proof × List (Option Bytes))} {vs : Versions},
    List.Forall₂ (fun p (r : Proof × List (Option Bytes)) => r.2.length = p.2.length) ps rs → Calm (Produced.takeAll ps rs vs)
  | [], [], _, _ => by unfold Produced.takeAll; exact .pure
  | p :: ps, r :: rs, vs, .cons h hs => by
    unfold Produced.takeAll
    exact .bind (takeCommitments_calm h.le) (fun _ _ => takeAll_calm hs)

theorem inspected_ok {cs : Log.Suite} {db : ServerDB} {index : List Nat} {n : Nat} {E : Nat → LogEntry} (hcs : cs.Good)
    (hE : ∀ x < n, db.entry x = .ok (E x)) (hne : ∀ x < n, (E x).prefixTree ≠ []) (h0 : 0 < n) (hn : n < 2 ^ 63)
    (hlog : Log.StoreOK cs (leavesOf cs E n) db.logStore) {p : Provider Produced} (hp : Steady n E p)
    {nP m : Option Nat} (hnP : ∀ k, nP = some k → 0 < k ∧ k ≤ n) (hm : ∀ k, m = some k → 0 < k ∧ k ≤ n) :
    ∃ leaves q roots incl, p.inspectedLeaves (Produced.handle db index) = (.ok leaves, q) ∧
      q.state = { p.state with roots := roots } ∧ Log.getBatch cs db.logStore (leaves.map (·.1)) n nP m = .ok incl := by
  have hlt : ∀ x ∈ p.newLeaves.map Prod.fst, x < n := by
    intro x hx
    obtain ⟨e, he, rfl⟩ := List.mem_map.1 hx
    exact (hp.agrees.ts _ (newLeaves_mem.1 he).1).1
  have hnd := CommittedSpec.newLeaves_nodup hp.ts
  have hel : ∀ x ∈ Provider.emptyLeaves p.newLeaves, x < n := by
    intro x hx
    unfold Provider.emptyLeaves at hx
    obtain ⟨e, he, rfl⟩ := List.mem_map.1 hx
    exact hlt _ (List.mem_map.2 ⟨e, (List.mem_filter.1 he).1, rfl⟩)
  obtain ⟨r1, r2, r3⟩ := fillRoots_honest (E := E) p.newLeaves p.prefixTrees hnd
    (fun e he => hne _ (hlt _ (List.mem_map.2 ⟨e, he, rfl⟩)))
    (fun e he => ⟨(hp.agrees.ts _ (newLeaves_mem.1 he).1).2, (newLeaves_mem.1 he).2.2⟩) hp.agrees.roots
  have hLl : (leavesOf cs E n).length = n := by simp [leavesOf]
  have hsz : ∀ v ∈ leavesOf cs E n, v.length = cs.hashSize := by
    intro v hv
    obtain ⟨x, -, rfl⟩ := List.mem_map.1 hv
    exact hcs.len _
  obtain ⟨incl, v, res, b1, -⟩ := C04_stored_log hcs (leavesOf cs E n) [] (by simpa using hsz)
    (by simp [hLl]; omega) (by omega) (st := db.logStore) (by simpa using hlog) (p.newLeaves.map Prod.fst) hnd
    (by rw [hLl]; exact hlt) nP m (by rw [hLl]; exact hnP) (by rw [hLl]; exact hm)
  rw [hLl] at b1
  refine ⟨p.newLeaves.map (fun e => (e.1, E e.1)), { p with
      state := { p.state with roots := (Provider.emptyLeaves p.newLeaves).map (fun x => (E x).prefixTree) }
      prefixTrees := (Provider.fillRoots p.newLeaves ((Provider.emptyLeaves p.newLeaves).map (fun x => (E x).prefixTree)) p.prefixTrees).2 },
    (Provider.emptyLeaves p.newLeaves).map (fun x => (E x).prefixTree), incl, ?_, rfl, ?_⟩
  · unfold Provider.inspectedLeaves
    simp only [Produced.handle, Produced.prefixTrees, readRoots_ok hE hel, List.length_map, ne_eq, not_true_eq_false, if_false]
    rw [r1]
  · rw [List.map_map]
    exact b1

theorem forall₂_exists_left {γ δ : Type} {R : γ → δ → Prop} : ∀ {l : List γ} {r : List δ}, List.Forall₂ R l r →
    ∀ b ∈ r, ∃ a ∈ l, R a b
  | _, _, .nil, _, h => by cases h
  | _, _, .cons h hs, b, hb => by
    rcases List.mem_cons.1 hb with rfl | hb
    · exact ⟨_, List.mem_cons_self, h⟩
    · obtain ⟨a, h1, h2⟩ := forall₂_exists_left hs b hb
      exact ⟨a, List.mem_cons_of_mem _ h1, h2⟩

theorem forall₂_trans' {ps : List (Nat × List Nat)} {ss : List Search} {N : Nat} {rs : List (Proof × List (Option Bytes))}
    (h1 : List.Forall₂ (fun p (s : Search) => s.version = p.1 + 1 ∧ s.vrfs.length = p.2.length ∧ ∀ v ∈ s.vrfs, v.length = N) ps ss)
    (h2 : List.Forall₂ (fun (s : Search) (r : Proof × List (Option Bytes)) => r.2.length = s.vrfs.length) ss rs) :
    List.Forall₂ (fun p (r : Proof × List (Option Bytes)) => r.2.length = p.2.length) ps rs := by
  induction h1 generalizing rs with
  | nil => cases h2; exact .nil
  | cons h _ ih =>
    cases h2 with
    | cons k ks => exact .cons (by rw [k, h.2.1]) (ih ks)

/-- The output of the provider does not crash. -/
theorem output_calm {cs : Log.Suite} {db : ServerDB} {bs : List Batch} {index : List Nat} {n : Nat} {E : Nat → LogEntry}
    (hh : Honest cs db bs n E) {p : Provider Produced} (hp : Steady n E p)
    (hvs : ∀ v k, p.state.versions.lookup v = some k → k.vrf.length = cs.hashSize)
    {nP m : Option Nat} (hnP : ∀ k, nP = some k → 0 < k ∧ k ≤ n) (hm : ∀ k, m = some k → 0 < k ∧ k ≤ n) :
    Calm (p.output cs db index n nP m).1 := by
  obtain ⟨leaves, q, roots, incl, h1, h2, h3⟩ := inspected_ok (index := index) hh.good hh.entry hh.nonempty hh.pos hh.size hh.log hp hnP hm
  unfold Provider.output
  rw [h1]
  simp only
  have : Calm (Produced.output cs db (leaves.map (·.1)) n nP m q.state) := by
    rw [h2]
    unfold Produced.output
    refine .bind searches_calm (fun ss hss => ?_)
    have hshape := searches_shape hvs hss
    obtain ⟨out, o1, o2⟩ := search_total hh.good hh.small hh.hist (searches := ss) (by
      intro s hs
      obtain ⟨need, hneed, h5, -, h6⟩ := forall₂_exists_left hshape s hs
      have := hp.proofs need hneed
      rw [hh.len]
      exact ⟨by omega, by omega, h6⟩)
    rw [o1, G.ok_bind]
    refine .bind (takeAll_calm (forall₂_trans' hshape o2)) (fun vs _ => ?_)
    rw [h3]
    exact .pure
  cases ho : Produced.output cs db (leaves.map (·.1)) n nP m q.state with
  | error e => exact calm_error this ho
  | ok r => exact .ok

end
end Katie.Alg
