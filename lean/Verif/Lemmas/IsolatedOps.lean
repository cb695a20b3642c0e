import Verif.Lemmas.IsolatedStore
import Verif.Lemmas.ServeCalm

/-
The handlers of the server on two databases that agree on the tree of size `n`.
-/

namespace Katie.Server
open Katie Katie.Wire Katie.Alg Katie.Ladder Katie.ServerSpec Katie.PrefixSpec

theorem addVersion_proofs {cs : Log.Suite} {s s' : Produced} {v : Nat} {o : Bytes} (h : s.addVersion cs v o = .ok s') :
    s'.proofs = s.proofs := by
  unfold Produced.addVersion at h
  obtain ⟨vs, -, h⟩ := G.bind_eq_ok.1 h
  cases h
  rfl

theorem addLadder_proofs {env : Env} {l : Bytes} : ∀ {vs : List Nat} {s : Produced} {r : List BinaryLadderStep × Produced},
    addLadder env l vs s = .ok r → r.2.proofs = s.proofs
  | [], s, r, h => by cases h; rfl
  | v :: vs, s, r, h => by
    unfold addLadder at h
    obtain ⟨out, -, h⟩ := G.bind_eq_ok.1 h
    obtain ⟨s1, h1, h⟩ := G.bind_eq_ok.1 h
    obtain ⟨⟨steps, s2⟩, h2, h⟩ := G.bind_eq_ok.1 h
    cases h
    rw [addLadder_proofs h2, addVersion_proofs h1]

theorem addRequired_proofs {env : Env} {l : Bytes} : ∀ {vs : List Nat} {s s' : Produced},
    addRequired env l vs s = .ok s' → s'.proofs = s.proofs
  | [], s, s', h => by cases h; rfl
  | v :: vs, s, s', h => by
    unfold addRequired at h
    obtain ⟨out, -, h⟩ := G.bind_eq_ok.1 h
    obtain ⟨s1, h1, h⟩ := G.bind_eq_ok.1 h
    rw [addRequired_proofs h, addVersion_proofs h1]

theorem small_new {n : Nat} {s : Produced} (h : s.proofs = []) : Small n (newProvider s) :=
  ⟨by simp [newProvider], by simp [newProvider, h]⟩

section
variable {env : Env} {n : Nat} {t : Tree} {st' : Store} {index index' : List Nat}

theorem Same.runSearch (h : Same env n t st' index index') {version : Option Nat}
    (ht : searchTarget version index' = searchTarget version index) {p : Provider Produced} (hp : Small n p) :
    runSearch env (handleFor env (reading t st') index') version index' n p = runSearch env (handleFor env t index) version index n p ∧
      ∀ q, runSearch env (handleFor env t index) version index n p = .ok q → Small n q := by
  have key : ∀ prog : Prog Nat, Stays n (fun _ => True) prog →
      p.run (Produced.handle (serverDB env (reading t st').tx) index') prog = p.run (Produced.handle (serverDB env t.tx) index) prog ∧
      Small n (p.run (Produced.handle (serverDB env t.tx) index) prog).2 := fun prog hst => ⟨h.below.run hst p, (hp.run hst).1⟩
  unfold Server.runSearch handleFor
  rw [ht]
  cases version with
  | none =>
    obtain ⟨e, hq⟩ := key _ (greatestVersionSearch_stays (cfg := env.cfg) (v := searchTarget none index))
    simp only
    rw [e]
    refine ⟨rfl, fun q ha => ?_⟩
    split at ha
    · next hb => cases ha; rw [hb] at hq; exact hq
    · next hb =>
      rw [hb] at hq
      split at ha
      · cases ha; exact hq
      · cases ha
  | some v =>
    obtain ⟨e, hq⟩ := key _ (fixedVersionSearch_stays (cfg := env.cfg) (v := v))
    simp only
    rw [e]
    refine ⟨rfl, fun q ha => ?_⟩
    split at ha
    · next hb => cases ha; rw [hb] at hq; exact hq
    · next hb =>
      rw [hb] at hq
      split at ha
      · cases ha; exact hq
      · cases ha

/-- the answer to a search -/
theorem Same.search (h : Same env n t st' index index') (h0 : 0 < n) (hn : ∀ th, t.head = some th → th.treeSize = n)
    {req : SearchRequest} (hi : getIndex t.tx req.label = .ok index) (hi' : getIndex st' req.label = .ok index')
    (ht : searchTarget req.version index' = searchTarget req.version index)
    (hl : searchLadder req.version index' = searchLadder req.version index)
    (hpop : ∀ s vs steps, populate req.version index' s vs steps = populate req.version index s vs steps)
    (hv : getVersion env st' req.label (searchTarget req.version index) = getVersion env t.tx req.label (searchTarget req.version index))
    (now : Nat) : search env now (reading t st') req = search env now t req := by
  unfold Server.search
  rw [fullTreeHead_reading]
  cases hfth : fullTreeHead t req.last with
  | error e => rfl
  | ok hd =>
    obtain ⟨th, hth, hdn, hlast⟩ := fullTreeHead_facts hfth
    have hsz := hn th hth
    rw [hsz] at hdn hlast
    change (getIndex st' req.label >>= fun index => _) = (getIndex t.tx req.label >>= fun index => _)
    rw [hi, hi', Katie.G.ok_bind, Katie.G.ok_bind, hl]
    cases searchLadder req.version index with
    | error e => rfl
    | ok ladder =>
      simp only [Katie.G.ok_bind, ht]
      change (getVersion env st' req.label _ >>= fun _ => _) = _
      rw [hv]
      cases getVersion env t.tx req.label (searchTarget req.version index) with
      | error e => rfl
      | ok ov =>
        simp only [Katie.G.ok_bind]
        cases hal : addLadder env req.label ladder {} with
        | error e => rfl
        | ok r =>
          simp only [Katie.G.ok_bind]
          obtain ⟨e1, e2⟩ := h.updateView h0 hth hsz hlast now (small_new (n := n) (s := r.2) (addLadder_proofs hal))
          rw [e1]
          cases hu : Server.updateView env now t index req.last (newProvider r.2) with
          | error e => rfl
          | ok p =>
            simp only [Katie.G.ok_bind]
            obtain ⟨e3, e4⟩ := h.runSearch ht (e2 p hu)
            rw [hdn, e3]
            cases hr : Server.runSearch env (handleFor env t index) req.version index n p with
            | error e => rfl
            | ok q =>
              simp only [Katie.G.ok_bind]
              rw [h.outputOf hdn (e4 q hr)]
              simp only [hpop]

/-! ### monitoring -/

/-- the common beginning of the handlers for monitoring -/
theorem Same.startMonitor (h : Same env n t st' index index') (h0 : 0 < n) (hn : ∀ th, t.head = some th → th.treeSize = n)
    {label : Bytes} (hi : getIndex t.tx label = .ok index) (hi' : getIndex st' label = .ok index') (last : Option Nat) (now : Nat) :
    (∃ e, startMonitor env now (reading t st') last label = .error e ∧ startMonitor env now t last label = .error e) ∨
    ∃ hd m p, startMonitor env now (reading t st') last label = .ok ⟨hd, index', m, p⟩ ∧
      startMonitor env now t last label = .ok ⟨hd, index, m, p⟩ ∧ hd.n = n ∧ m.treeSize = n ∧ m.owner = none ∧ Small n p := by
  unfold Server.startMonitor
  rw [fullTreeHead_reading]
  cases hfth : fullTreeHead t last with
  | error e => exact .inl ⟨e, rfl, rfl⟩
  | ok hd =>
    obtain ⟨th, hth, hdn, hlast⟩ := fullTreeHead_facts hfth
    have hsz := hn th hth
    rw [hsz] at hdn hlast
    rw [Katie.G.ok_bind, Katie.G.ok_bind, hi, show getIndex (reading t st').tx label = .ok index' from hi', Katie.G.ok_bind,
      Katie.G.ok_bind]
    obtain ⟨e1, e2⟩ := h.updateView h0 hth hsz hlast now (small_new (n := n) (s := {}) rfl)
    rw [e1]
    cases hu : Server.updateView env now t index last (newProvider {}) with
    | error e => exact .inl ⟨e, rfl, rfl⟩
    | ok p =>
      rw [Katie.G.ok_bind, Katie.G.ok_bind, hdn]
      obtain ⟨e3, e4⟩ := h.runOn (newMonitor_stays (cfg := env.cfg)) (e2 p hu)
      rw [e3]
      cases hr : Server.runOn (handleFor env t index) (newMonitor env.cfg n) p with
      | error e => exact .inl ⟨e, rfl, rfl⟩
      | ok r =>
        obtain ⟨⟨-, k1, k2⟩, k3⟩ := e4 r.1 r.2 hr
        exact .inr ⟨hd, r.1, r.2, rfl, rfl, hdn, k1, k2, k3⟩

theorem Same.finish (h : Same env n t st' index index') {hd : Heads} (hdn : hd.n = n) {m : Monitor} {p : Provider Produced}
    (hp : Small n p) (label : Bytes) :
    finishMonitor env (reading t st') label ⟨hd, index', m, p⟩ = finishMonitor env t label ⟨hd, index, m, p⟩ := by
  unfold finishMonitor
  simp only
  cases ha : addRequired env label p.state.required.eraseDups p.state with
  | error e => rfl
  | ok s =>
    simp only [Katie.G.ok_bind]
    rw [h.outputOf hdn (p := { p with state := s }) ⟨hp.ts, by rw [show ({ p with state := s } : Provider Produced).state.proofs = s.proofs from rfl, addRequired_proofs ha]; exact hp.proofs⟩]

theorem entriesPlaced_same {n : Nat} {index ext : List Nat} : ∀ {es : List MonitorMapEntry} {ptrs : PMap},
    (∀ e ∈ es, e.version < index.length) → entriesPlaced (index ++ ext) n es ptrs = entriesPlaced index n es ptrs
  | [], _, _ => rfl
  | e :: es, ptrs, h => by
    unfold entriesPlaced
    rw [List.getElem?_append_left (h e (by simp))]
    cases index[e.version]? with
    | none => rfl
    | some f =>
      simp only
      congr 1
      funext path
      rw [entriesPlaced_same (fun a ha => h a (by simp [ha]))]

theorem verifyEntries_same {n : Nat} {index ext : List Nat} {es : List MonitorMapEntry} (h : ∀ e ∈ es, e.version < index.length) :
    verifyEntries es (index ++ ext) n = verifyEntries es index n := by
  unfold verifyEntries
  rw [entriesPlaced_same h]

theorem verifyEntries_lt {n : Nat} {index : List Nat} (hi : ∀ x ∈ index, x < n) {es : List MonitorMapEntry} {m : PMap}
    (h : verifyEntries es index n = .ok m) : ∀ e ∈ m, e.1 < n := by
  unfold verifyEntries at h
  obtain ⟨-, -, h⟩ := G.bind_eq_ok.1 h
  exact fun e he => (((entriesPlaced_calm hi).2 (by simp) .nil m h).1 e he).1

theorem Same.contactMonitor (h : Same env n t st' index index') (h0 : 0 < n) (hn : ∀ th, t.head = some th → th.treeSize = n)
    {req : ContactMonitorRequest} (hi : getIndex t.tx req.label = .ok index) (hi' : getIndex st' req.label = .ok index')
    (hlt : ∀ x ∈ index, x < n) (hve : verifyEntries req.entries index' n = verifyEntries req.entries index n) (now : Nat) :
    contactMonitor env now (reading t st') req = contactMonitor env now t req := by
  unfold Server.contactMonitor
  rcases h.startMonitor h0 hn hi hi' req.last now with ⟨e, h1, h2⟩ | ⟨hd, m, p, h1, h2, hdn, hm, -, hp⟩
  · rw [h1, h2]; rfl
  · rw [h1, h2, Katie.G.ok_bind, Katie.G.ok_bind]
    simp only [hdn, hve]
    cases hv : verifyEntries req.entries index n with
    | error e => rfl
    | ok ptrs =>
      simp only [Katie.G.ok_bind]
      have hst := contactMonitor_stays (m := { m with contact := some ptrs }) rfl (fun e he => by
        have := verifyEntries_lt hlt hv e he
        simpa [hm] using this)
      simp only [hm] at hst
      obtain ⟨e1, e2⟩ := h.runOn hst hp
      rw [show ({ m with contact := some ptrs } : Monitor) = { cfg := m.cfg, rightmost := m.rightmost, treeSize := n, contact := some ptrs, owner := m.owner } by rw [← hm]]
      rw [e1]
      cases hr : Server.runOn (handleFor env t index) (Alg.contactMonitor { cfg := m.cfg, rightmost := m.rightmost, treeSize := n, contact := some ptrs, owner := m.owner }) p with
      | error e => rfl
      | ok r =>
        simp only [Katie.G.ok_bind]
        rw [h.finish hdn (e2 r.1 r.2 hr).2]

theorem bsearch_same {index ext : List Nat} {x : Nat} (hs : (index ++ ext).Pairwise (· ≤ ·)) (he : ∀ y ∈ ext, n ≤ y) (hx : x < n) :
    bsearch (index ++ ext) (x + 1) = bsearch index (x + 1) := by
  rw [bsearch_count hs, bsearch_count (List.pairwise_append.1 hs).1, List.countP_append]
  have : ext.countP (· ≤ x) = 0 := by
    rw [List.countP_eq_zero]
    intro y hy
    have := he y hy
    simp; omega
  omega

theorem ownerGreatest_same {index ext : List Nat} {x : Nat} (hs : (index ++ ext).Pairwise (· ≤ ·)) (he : ∀ y ∈ ext, n ≤ y) (hx : x < n) :
    (⟨0, -1, index ++ ext⟩ : Owner).greatestAt x = (⟨0, -1, index⟩ : Owner).greatestAt x := by
  unfold Owner.greatestAt
  simp only
  rw [bsearch_same hs he hx]

theorem initVersions_same {index ext : List Nat} (hs : (index ++ ext).Pairwise (· ≤ ·)) (he : ∀ y ∈ ext, n ≤ y) :
    ∀ {xs : List Nat}, (∀ x ∈ xs, x < n) → initVersions (index ++ ext) xs = initVersions index xs
  | [], _ => rfl
  | x :: xs, hx => by
    unfold initVersions
    rw [ownerGreatest_same hs he (hx x (by simp)), initVersions_same hs he (fun y hy => hx y (by simp [hy]))]

theorem Same.getBinaryLadder (h : Same env n t st' index index') (label : Bytes) (versions : List Nat) (greatest : Int) :
    getBinaryLadder env (reading t st') label versions greatest n = getBinaryLadder env t label versions greatest n := by
  unfold Server.getBinaryLadder
  cases ladderVrfs env label greatest versions with
  | error e => rfl
  | ok r =>
    simp only [Katie.G.ok_bind]
    have := h.sees.tiles [⟨n, r.2⟩] (by simp)
    change Prefix.search env.cs (reading t st').tx.tiles _ = Prefix.search env.cs t.tx.tiles _ at this
    rw [this]

theorem Same.ownerInit {ext : List Nat} (h : Same env n t st' index (index ++ ext)) (h0 : 0 < n)
    (hn : ∀ th, t.head = some th → th.treeSize = n) {req : OwnerInitRequest} (hi : getIndex t.tx req.label = .ok index)
    (hi' : getIndex st' req.label = .ok (index ++ ext)) (hs : (index ++ ext).Pairwise (· ≤ ·)) (he : ∀ y ∈ ext, n ≤ y) (now : Nat) :
    ownerInit env now (reading t st') req = ownerInit env now t req := by
  unfold Server.ownerInit
  rcases h.startMonitor h0 hn hi hi' req.last now with ⟨e, h1, h2⟩ | ⟨hd, m, p, h1, h2, hdn, hm, -, hp⟩
  · rw [h1, h2]; rfl
  · rw [h1, h2, Katie.G.ok_bind, Katie.G.ok_bind]
    simp only
    have hm0 : 0 < m.treeSize := by omega
    have hst := initEntries_stays (m := m) hm0 (start := req.start)
    rw [hm] at hst
    obtain ⟨e1, e2⟩ := h.runOn hst hp
    rw [e1]
    cases hr : Server.runOn (handleFor env t index) (initEntries m req.start) p with
    | error e => rfl
    | ok r =>
      obtain ⟨⟨k1, k2⟩, k3⟩ := e2 r.1 r.2 hr
      simp only [Katie.G.ok_bind]
      rw [initVersions_same hs he k2, ownerGreatest_same hs he k1]
      cases allLadderVersions (initVersions index r.1) with
      | error e => rfl
      | ok all =>
        simp only [Katie.G.ok_bind]
        rw [hdn, h.getBinaryLadder]
        cases Server.getBinaryLadder env t req.label all ((⟨0, -1, index⟩ : Owner).greatestAt req.start) n with
        | error e => rfl
        | ok ladder =>
          simp only [Katie.G.ok_bind]
          have hst2 := ownerInit_stays (m := m) hm0 (start := req.start) (vers := initVersions index r.1)
          rw [hm] at hst2
          obtain ⟨e3, e4⟩ := h.runOn hst2 k3
          rw [e3]
          cases hr2 : Server.runOn (handleFor env t index) (Alg.ownerInit m req.start (initVersions index r.1)) r.2 with
          | error e => rfl
          | ok r2 =>
            simp only [Katie.G.ok_bind]
            rw [h.finish hdn (e4 r2.1 r2.2 hr2).2]

theorem ownerState_same {index ext : List Nat} (hs : (index ++ ext).Pairwise (· ≤ ·)) (he : ∀ y ∈ ext, n ≤ y)
    {req : OwnerMonitorRequest} (hv : ∀ v, req.greatestVersion = some v → v < index.length) :
    ownerState (index ++ ext) n req = ownerState index n req := by
  unfold ownerState
  by_cases hst : req.start ≥ n
  · rw [if_pos hst, if_pos hst]
  rw [if_neg hst, if_neg hst]
  have hb := bsearch_same (x := req.start) hs he (by omega)
  have hk := (bsearch_spec (t := req.start + 1) (List.pairwise_append.1 hs).1).1
  cases hg : req.greatestVersion with
  | none =>
    simp only [Option.any_none, Owner.setStarting, hb]
    rw [List.drop_append_of_le_length hk]
    congr 2
  | some v =>
    have hlt := hv v hg
    simp only [Option.any_some, Owner.setStarting, hb]
    rw [List.drop_append_of_le_length hk]
    have n1 : ¬ (decide (v ≥ (index ++ ext).length) = true) := by simp; omega
    have n2 : ¬ (decide (v ≥ index.length) = true) := by simp; omega
    rw [if_neg n1, if_neg n2]
    congr 1
    by_cases hneg : (v : Int) - ((bsearch index (req.start + 1) : Int) + -1) < 0
    · exact (if_pos (.inl hneg)).trans (if_pos (.inl hneg)).symm
    · have hle : ¬ ((v : Int) - ((bsearch index (req.start + 1) : Int) + -1) < 0 ∨
          (v : Int) - ((bsearch index (req.start + 1) : Int) + -1) > ((index.drop (bsearch index (req.start + 1))).length : Int)) := by
        rw [List.length_drop]; omega
      have hle' : ¬ ((v : Int) - ((bsearch index (req.start + 1) : Int) + -1) < 0 ∨
          (v : Int) - ((bsearch index (req.start + 1) : Int) + -1) > ((index.drop (bsearch index (req.start + 1)) ++ ext).length : Int)) := by
        rw [List.length_append]; push_cast; omega
      refine (if_neg hle').trans (Eq.trans ?_ (if_neg hle).symm)
      rw [List.take_append_of_le_length (by omega)]

theorem Same.ownerMonitor (h : Same env n t st' index index') (h0 : 0 < n) (hn : ∀ th, t.head = some th → th.treeSize = n)
    {req : OwnerMonitorRequest} (hi : getIndex t.tx req.label = .ok index) (hi' : getIndex st' req.label = .ok index')
    (hlt : ∀ x ∈ index, x < n) (hve : verifyEntries req.entries index' n = verifyEntries req.entries index n)
    (hos : ownerState index' n req = ownerState index n req) (now : Nat) :
    ownerMonitor env now (reading t st') req = ownerMonitor env now t req := by
  unfold Server.ownerMonitor
  rcases h.startMonitor h0 hn hi hi' req.last now with ⟨e, h1, h2⟩ | ⟨hd, m, p, h1, h2, hdn, hm, -, hp⟩
  · rw [h1, h2]; rfl
  · rw [h1, h2, Katie.G.ok_bind, Katie.G.ok_bind]
    simp only [hdn, hve]
    cases hv : verifyEntries req.entries index n with
    | error e => rfl
    | ok ptrs =>
      simp only [Katie.G.ok_bind, hos]
      cases ownerState index n req with
      | error e => rfl
      | ok o =>
        simp only [Katie.G.ok_bind]
        have hst := contactMonitor_stays (m := { m with contact := some ptrs, owner := some o }) rfl (fun e he => by
          have := verifyEntries_lt hlt hv e he
          simpa [hm] using this)
        simp only [hm] at hst
        obtain ⟨e1, e2⟩ := h.runOn hst hp
        rw [show ({ m with contact := some ptrs, owner := some o } : Monitor) = { cfg := m.cfg, rightmost := m.rightmost, treeSize := n, contact := some ptrs, owner := some o } by rw [← hm]]
        rw [e1]
        cases hr : Server.runOn (handleFor env t index) (Alg.contactMonitor { cfg := m.cfg, rightmost := m.rightmost, treeSize := n, contact := some ptrs, owner := some o }) p with
        | error e => rfl
        | ok r =>
          simp only [Katie.G.ok_bind]
          obtain ⟨⟨k1, k2⟩, k3⟩ := e2 r.1 r.2 hr
          have hst2 := ownerMonitor_stays (m := r.1) (by rw [k2]; exact h0)
          rw [show r.1.treeSize = n from k2] at hst2
          obtain ⟨e3, e4⟩ := h.runOn hst2 k3
          rw [e3]
          cases hr2 : Server.runOn (handleFor env t index) (Alg.ownerMonitor r.1) r.2 with
          | error e => rfl
          | ok r2 =>
            simp only [Katie.G.ok_bind]
            rw [h.finish hdn (e4 r2.1 r2.2 hr2).2]

end

end Katie.Server
