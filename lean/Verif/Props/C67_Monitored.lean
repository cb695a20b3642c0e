import Verif.Lemmas.ServeMonitor
import Verif.Props.C62_Served

/-
C67: monitoring against an honest server.

The vocabulary is in `Verif/Spec/Monitored.lean`, `Verif/Spec/Served.lean` and `Verif/Spec/ContactMap.lean`.  As for searches
(C62) everything up to the check of the tree head succeeds, with the right result, and then no answer about a new tree head is
accepted (`C67_never_accepted`).  For answers that pass this check there is a second error: a client that has nothing left to
monitor, and every label owner who does not also monitor a version found by a search, panics (`C67_finished_panics`,
`C67_owner_never_succeeds`).
-/

namespace Katie.Props
open Katie Katie.Wire Katie.Alg Katie.Ladder Katie.Server Katie.Client Katie.ServerSpec Katie.ServedSpec Katie.SearchSpec
  Katie.SearchTree Katie.ContactSpec

section
variable {env : Env} {cenv : CEnv} {cs : List Change} {us : List AuditorUpdate} {t : Tree} {l : Bytes}
  {state : Option ClientState} {aud : Option AuditorTreeHead} {nowS nowC : Nat}
  {versions : List RetainedVersion} {contact : List MonitorMapEntry}

/-- the time at which entry `x` was added -/
abbrev times (env : Env) (us : List AuditorUpdate) (x : Nat) : Nat := (entryAt env.cs us x).timestamp

/-- A label that the client monitors: what it has retained of the versions is right and suffices, the monitoring map has
versions that exist, where they are, and the VRF distinguishes the versions. -/
structure Monitoring (env : Env) (cs : List Change) (us : List AuditorUpdate) (l : Bytes) (versions : List RetainedVersion)
    (contact : List MonitorMapEntry) (owner : Option LabelOwnerState) : Prop where
  retains : Retains env cs l versions
  prepared : Prepared versions contact owner
  contact : Acceptable ((versionsOf l cs).map Version.pos) us.length contact
  owner : ∀ o, owner = some o → OwnerKnows ((versionsOf l cs).map Version.pos) us.length o.starting o.verAtStarting o.upcomingVers
  distinct : VrfDistinct env cs l (versions.map (·.version))

/-- What the client has found out when it comes to checking the tree head `th`: the root hash is that of the log and is the one
that was signed, what it would retain of the log is right, and so is the new monitoring map.  An entry that is no longer
in the map is below (or at) a distinguished entry, or has moved to the topmost entry to its right. -/
structure MonitorConvinced (env : Env) (cenv : CEnv) (cs : List Change) (us : List AuditorUpdate) (l : Bytes) (state : Option ClientState)
    (aud : Option AuditorTreeHead) (th : TreeHead) (contact : List MonitorMapEntry) (m : Monitor)
    (checked : G (Monitor × Verifier × Provider.Result × Bytes × Bytes)) : Prop where
  checked : ∃ v result root rootP tbs, checked = .ok (m, v, result, root, rootP) ∧
    v.state = state ∧ v.fth = ⟨some th, aud⟩ ∧ v.n = us.length ∧
    root = LogSpec.rootHash env.cs.H (logLeaves env.cs us) ∧
    treeHeadTBS cenv.cfg us.length root = .ok tbs ∧ cenv.sigVerify tbs th.signature = true ∧
    (∀ a, aud = some a → rootP = LogSpec.rootHash env.cs.H ((logLeaves env.cs us).take a.treeSize)) ∧
    Keeps env us us.length result.fullSubtrees result.logEntries
  map : Acceptable ((versionsOf l cs).map Version.pos) us.length (contactStruct (m.contact.getD []))
  kept : ∀ e ∈ contact, (∃ d, RightUp us.length e.position d ∧ Distinguished (Wide env.cfg.rmw) (times env us) us.length d) ∨
    ∃ top v, Top us.length e.position top ∧ monitored m top = some v ∧ (e.position ≠ top → e.version ≤ v)

theorem convinced_of_core {owner : Option LabelOwnerState} (S : Serving env cenv cs us t l)
    (M : Monitoring env cs us l versions contact owner) (hst : Behind env us state)
    (hview : ∀ k, getLast state = some k → ∀ f, frontier us.length = .ok f → k - 1 ∉ f)
    (haud : ∀ a, aud = some a → 0 < a.treeSize ∧ a.treeSize ≤ us.length)
    (hS : InWindow env.cfg nowS (times env us (us.length - 1))) (hC : InWindow env.cfg nowC (times env us (us.length - 1))) :
    ∃ th proof m, t.head = some th ∧
      monitorAnswer env nowS { t with auditor := aud } (getLast state) l contact owner = .ok ⟨⟨some th, aud⟩, proof⟩ ∧
      MonitorConvinced env cenv cs us l state aud th contact m
        (checkedMonitor cenv nowC state (getLast state) versions contact owner ⟨⟨some th, aud⟩, proof⟩) ∧
      m.owner.isSome = owner.isSome ∧
      ∀ o, owner = some o → ∀ o', m.owner = some o' →
          OwnerKnows ((versionsOf l cs).map Version.pos) us.length o'.starting o'.verAtStarting o'.upcoming ∧
            o.starting ≤ o'.starting ∧ o'.verAtStarting + o'.upcoming.length = o.verAtStarting + o.upcomingVers.length := by
  obtain ⟨htx, hinv⟩ := runs_inv S.good S.small S.runs
  have hlen := hinv.len
  have hne := S.nonempty
  obtain ⟨th, proof, h1, h2, h3, m, v, result, rootP, c1, c2, c3, c4, c5, c6, ⟨m0, m1, tr, d1, d2, d3, d4, d5⟩, c8, c9⟩ :=
    monitor_core S.good S.small S.runs hne S.client S.label S.kept S.count M.retains M.prepared M.contact M.owner M.distinct hst haud
      hS hC hview
  obtain ⟨th', tbs, t1, -, t3, t4⟩ := head_of_inv hinv hne
  rw [h1] at t1
  cases t1
  refine ⟨th, proof, m, h1, h3, ⟨⟨v, result, _, rootP, tbs, c1, c2, c3, c4, rfl, ?_, S.client.sig _ _ t4, c6, c5⟩, ?_, ?_⟩, c8, c9⟩
  · rw [S.client.cfg, hlen]; exact t3
  · have := C65_monitoring_keeps (m := m0) (by rw [d3]; exact M.contact) d1
    rw [d3, d5] at this
    exact this
  · intro e he
    have hmem : (e.position, e.version) ∈ contactMap contact :=
      ((contactMap_spec (M.contact.sorted.imp (fun h => Nat.ne_of_lt h.1))).2 (e.position, e.version)).2 he
    by_cases hno : NoDist env.cfg.rmw (times env us) us.length e.position
    · refine .inr ?_
      obtain ⟨top, htop⟩ := exists_top (d3 ▸ d1.inTree _ hmem)
      obtain ⟨v', k1, k2⟩ := C29_moved_to_top_partial d1 hmem (by rw [d2, d3]; exact hno) (by rw [d3]; exact htop)
      refine ⟨top, v', htop, ?_, k2⟩
      unfold monitored at k1 ⊢
      rw [d5] at k1
      exact k1
    · refine .inl ?_
      by_contra hcon
      exact hno (fun d h1 h2 => hcon ⟨d, h1, h2⟩)

/-- **C67, contact monitoring.**  The server answers the request.  The client's checks of the timestamps, of the ladders and of
the proof succeed; the root hash is the one of the log, which the server has signed; the new monitoring map is right and
the server will accept it.  Missing for the full claim: the client does not accept the answer (`C67_never_accepted`). -/
theorem C67_contact_partial (S : Serving env cenv cs us t l) (M : Monitoring env cs us l versions contact none)
    (hst : Behind env us state) (hview : ∀ k, getLast state = some k → ∀ f, frontier us.length = .ok f → k - 1 ∉ f)
    (haud : ∀ a, aud = some a → 0 < a.treeSize ∧ a.treeSize ≤ us.length)
    (hS : InWindow env.cfg nowS (times env us (us.length - 1))) (hC : InWindow env.cfg nowC (times env us (us.length - 1))) :
    ∃ th res m, t.head = some th ∧
      Server.contactMonitor env nowS { t with auditor := aud } ⟨getLast state, l, contact⟩ = .ok res ∧
      MonitorConvinced env cenv cs us l state aud th contact m
        (checkedMonitor cenv nowC state (getLast state) versions contact none res) := by
  obtain ⟨th, proof, m, h1, h2, h3, -⟩ := convinced_of_core S M hst hview haud hS hC
  exact ⟨th, _, m, h1, h2, h3⟩

/-- **C67, owner monitoring.**  As for contact monitoring; and the owner's new state is right: the version at the new starting
position, which is not before the old one, and the positions of the same later versions.  Missing for the full claim: the client
does not accept the answer (`C67_never_accepted`, `C67_owner_never_succeeds`). -/
theorem C67_owner_partial {o : LabelOwnerState} (S : Serving env cenv cs us t l)
    (M : Monitoring env cs us l versions contact (some o))
    (hst : Behind env us state) (hview : ∀ k, getLast state = some k → ∀ f, frontier us.length = .ok f → k - 1 ∉ f)
    (haud : ∀ a, aud = some a → 0 < a.treeSize ∧ a.treeSize ≤ us.length)
    (hS : InWindow env.cfg nowS (times env us (us.length - 1))) (hC : InWindow env.cfg nowC (times env us (us.length - 1))) :
    ∃ th res m o', t.head = some th ∧
      Server.ownerMonitor env nowS { t with auditor := aud } ⟨getLast state, l, contact, o.starting, greatestVersion o⟩ = .ok res ∧
      MonitorConvinced env cenv cs us l state aud th contact m
        (checkedMonitor cenv nowC state (getLast state) versions contact (some o) res) ∧
      m.owner = some o' ∧ OwnerKnows ((versionsOf l cs).map Version.pos) us.length o'.starting o'.verAtStarting o'.upcoming ∧
      o.starting ≤ o'.starting ∧ o'.verAtStarting + o'.upcoming.length = o.verAtStarting + o.upcomingVers.length := by
  obtain ⟨th, proof, m, h1, h2, h3, h4, h5⟩ := convinced_of_core S M hst hview haud hS hC
  obtain ⟨o', ho'⟩ := Option.isSome_iff_exists.1 h4
  exact ⟨th, _, m, o', h1, h2, h3, ho', h5 o rfl o' ho'⟩

/-- What becomes of an answer that convinces the client: a client without state panics (if there is no auditor), a client with
an older state reports that the tree has not grown. -/
theorem C67_outcome {th : TreeHead} {m : Monitor} {owner : Option LabelOwnerState} {last : Option Nat} {res : MonitorResponse}
    {st : CStore} (hst : Behind env us state)
    (h : MonitorConvinced env cenv cs us l state aud th contact m (checkedMonitor cenv nowC state last versions contact owner res)) :
    (state = none → aud = none →
      (owner = none → Client.contactMonitor cenv nowC state ⟨contact, none, versions⟩ ⟨last, l, contact⟩ res st =
        goPanic "nil pointer dereference") ∧
      ∀ o, owner = some o → Client.ownerMonitor cenv nowC state ⟨contact, some o, versions⟩ o
        ⟨last, l, contact, o.starting, greatestVersion o⟩ res st = goPanic "nil pointer dereference") ∧
    (state ≠ none →
      (owner = none → Client.contactMonitor cenv nowC state ⟨contact, none, versions⟩ ⟨last, l, contact⟩ res st =
        goErr "provided tree size is not greater than advertised") ∧
      ∀ o, owner = some o → Client.ownerMonitor cenv nowC state ⟨contact, some o, versions⟩ o
        ⟨last, l, contact, o.starting, greatestVersion o⟩ res st = goErr "provided tree size is not greater than advertised") := by
  obtain ⟨v, result, root, rootP, tbs, h1, h2, h3, h4, -, h6, h7, -⟩ := h.checked
  constructor
  · rintro rfl rfl
    have key : verifyTreeHead cenv v root rootP = .ok v := by
      simp only [verifyTreeHead, h3, h2, Option.any_none, h4, h6, G.ok_bind, h7]
      rw [if_neg (by simp), if_neg (by simp)]
      rfl
    constructor
    · rintro rfl
      rw [contactMonitor_eq, h1]
      simp only [G.ok_bind, key, newState, h2]
      rfl
    · rintro o rfl
      rw [ownerMonitor_eq, h1]
      simp only [G.ok_bind, key, newState, h2]
      rfl
  · intro hne
    have key : verifyTreeHead cenv v root rootP = goErr "provided tree size is not greater than advertised" := by
      cases state with
      | none => exact absurd rfl hne
      | some s =>
        have := hst.2.1
        simp only [verifyTreeHead, h3, h2, Option.any_some, h4]
        rw [if_pos (by simpa using this.le)]
    constructor
    · rintro rfl
      rw [contactMonitor_eq, h1]
      simp only [G.ok_bind, key]
      rfl
    · rintro o rfl
      rw [ownerMonitor_eq, h1]
      simp only [G.ok_bind, key]
      rfl

/-- **The full claim of C67 is false for every execution**: no answer to a monitoring request of a client that does not yet have
the server's tree head is accepted. -/
theorem C67_never_accepted (hst : Behind env us state) {owner : Option LabelOwnerState} (S : Serving env cenv cs us t l)
    (M : Monitoring env cs us l versions contact owner)
    (hview : ∀ k, getLast state = some k → ∀ f, frontier us.length = .ok f → k - 1 ∉ f)
    (haud : ∀ a, aud = some a → 0 < a.treeSize ∧ a.treeSize ≤ us.length)
    (hS : InWindow env.cfg nowS (times env us (us.length - 1))) (hC : InWindow env.cfg nowC (times env us (us.length - 1)))
    (st : CStore) :
    (owner = none → ∀ res, Server.contactMonitor env nowS { t with auditor := aud } ⟨getLast state, l, contact⟩ = .ok res →
      ∀ out, Client.contactMonitor cenv nowC state ⟨contact, none, versions⟩ ⟨getLast state, l, contact⟩ res st ≠ .ok out) ∧
    (∀ o, owner = some o → ∀ res, Server.ownerMonitor env nowS { t with auditor := aud }
        ⟨getLast state, l, contact, o.starting, greatestVersion o⟩ = .ok res →
      ∀ out, Client.ownerMonitor cenv nowC state ⟨contact, some o, versions⟩ o
        ⟨getLast state, l, contact, o.starting, greatestVersion o⟩ res st ≠ .ok out) := by
  obtain ⟨th, proof, m, h1, h2, h3, -⟩ := convinced_of_core S M hst hview haud hS hC
  obtain ⟨v, result, root, rootP, tbs, k1, k2, k3, k4, -⟩ := h3.checked
  have key : ∀ w s, verifyTreeHead cenv v root rootP = .ok w → newState w result ≠ .ok s := by
    intro w s hw hs
    cases state with
    | none =>
      have : w.state = none := by
        rw [← k2]
        exact (verifyTreeHead_frame hw).state
      simp only [newState, this] at hs
      cases hs
    | some s =>
      have := hst.2.1
      simp only [verifyTreeHead, k3, k2, Option.any_some, k4] at hw
      rw [if_pos (by simpa using this.le)] at hw
      cases hw
  constructor
  · rintro rfl res hres out hout
    cases Except.ok.inj (hres.symm.trans h2)
    rw [contactMonitor_eq, k1, G.ok_bind] at hout
    obtain ⟨w, e1, hout⟩ := G.bind_eq_ok.1 hout
    obtain ⟨s, e2, hout⟩ := G.bind_eq_ok.1 hout
    exact key w s e1 e2
  · rintro o rfl res hres out hout
    cases Except.ok.inj (hres.symm.trans h2)
    rw [ownerMonitor_eq, k1, G.ok_bind] at hout
    obtain ⟨w, e1, hout⟩ := G.bind_eq_ok.1 hout
    obtain ⟨s, e2, hout⟩ := G.bind_eq_ok.1 hout
    exact key w s e1 e2


/-! ### Nothing left to monitor -/

theorem run_ok {α : Type} {env : CEnv} {prog : Prog α} {v w : Verifier} {a : α} (h : v.run env prog = .ok (a, w)) :
    ∃ p, v.p.run (Received.handle env.cs) prog = (.ok a, p) := by
  unfold Verifier.run at h
  split at h
  · cases h
  · next b p e =>
    have := (Prod.mk.inj (Except.ok.inj h)).1
    exact ⟨p, this ▸ e⟩

theorem contactMonitor_nil {m : Monitor} (h : m.contact = some []) : Alg.contactMonitor m = .ret (.ok { m with contact := none }) := by
  unfold Alg.contactMonitor
  rw [h]
  rfl

theorem ownerMonitor_contact {σ : Type} {H : Handle σ} {m m' : Monitor} {p q : Provider σ}
    (h : p.run H (Alg.ownerMonitor m) = (.ok m', q)) : m'.contact = m.contact := by
  unfold Alg.ownerMonitor at h
  split at h
  · cases h
  · obtain ⟨o, p', -, h2⟩ := run_bind_ok h
    have := (Prod.mk.inj h2).1
    rw [← Except.ok.inj this]

/-- without monitored versions the new map is nil -/
theorem checkedMonitor_nil {last : Option Nat} {owner : Option LabelOwnerState} {res : MonitorResponse} {m : Monitor} {v : Verifier}
    {result : Provider.Result} {root rootP : Bytes}
    (h : checkedMonitor cenv nowC state last versions [] owner res = .ok (m, v, result, root, rootP)) : m.contact = none := by
  unfold checkedMonitor at h
  obtain ⟨v1, -, h⟩ := G.bind_eq_ok.1 h
  obtain ⟨v2, -, h⟩ := G.bind_eq_ok.1 h
  obtain ⟨v3, -, h⟩ := G.bind_eq_ok.1 h
  obtain ⟨⟨m0, v4⟩, -, h⟩ := G.bind_eq_ok.1 h
  obtain ⟨⟨m1, v5⟩, h1, h⟩ := G.bind_eq_ok.1 h
  have e1 : m1.contact = none := by
    obtain ⟨p, hp⟩ := run_ok h1
    rw [contactMonitor_nil (by unfold monitorOf; split <;> rfl)] at hp
    have := (Prod.mk.inj hp).1
    rw [← Except.ok.inj this]
  have fin : ∀ (m2 : Monitor) (v6 : Verifier), m2.contact = none →
      (match v6.p.finish cenv.cs (Received.handle cenv.cs) v6.n v6.nP v6.m with
        | (.error e, _) => (.error e : G (Monitor × Verifier × Provider.Result × Bytes × Bytes))
        | (.ok result, p) => do
          let root ← Log.root cenv.cs v6.n result.fullSubtrees
          let rootP ← auditorRoot cenv v6.nP result.additional
          pure (m2, { v6 with p := p }, result, root, rootP)) = .ok (m, v, result, root, rootP) → m.contact = none := by
    intro m2 v6 e2 h
    split at h
    · cases h
    · obtain ⟨_, -, h⟩ := G.bind_eq_ok.1 h
      obtain ⟨_, -, h⟩ := G.bind_eq_ok.1 h
      rw [← (Prod.mk.inj (Except.ok.inj h)).1]
      exact e2
  by_cases ho : owner = none
  · simp only [ho, if_true] at h
    exact fin m1 v5 e1 h
  · simp only [ho, if_false] at h
    obtain ⟨⟨m2, v6⟩, h2, h⟩ := G.bind_eq_ok.1 h
    obtain ⟨p, hp⟩ := run_ok h2
    exact fin m2 v6 (by rw [ownerMonitor_contact hp]; exact e1) h

/-- **A client whose monitoring is finished panics.**  If all checks of an answer succeed, that of the tree head included, and
nothing is left to monitor, then the client panics instead of storing this. -/
theorem C67_finished_panics {ls : ClientLabelState} {st : CStore} {res : MonitorResponse} {m : Monitor} {v w : Verifier}
    {result : Provider.Result} {root rootP : Bytes} {s : ClientState} (hm : m.contact = none)
    (hw : verifyTreeHead cenv v root rootP = .ok w) (hs : newState w result = .ok s) :
    (∀ req : ContactMonitorRequest,
      checkedMonitor cenv nowC state req.last ls.versions ls.contact none res = .ok (m, v, result, root, rootP) →
      Client.contactMonitor cenv nowC state ls req res st = goPanic "nil pointer dereference") ∧
    (∀ (req : OwnerMonitorRequest) (o : LabelOwnerState),
      checkedMonitor cenv nowC state req.last ls.versions ls.contact (some o) res = .ok (m, v, result, root, rootP) →
      Client.ownerMonitor cenv nowC state ls o req res st = goPanic "nil pointer dereference") := by
  constructor
  · intro req h
    rw [contactMonitor_eq, h]
    simp only [G.ok_bind, hw, hs, hm]
    rfl
  · intro req o h
    rw [ownerMonitor_eq, h]
    simp only [G.ok_bind, hw, hs, hm]
    rfl

/-- **The owner of a label can not monitor it**, unless they also monitor a version that they found by a search: whatever the
answer, the state of the label is never updated. -/
theorem C67_owner_never_succeeds {ls : ClientLabelState} (hls : ls.contact = []) (o : LabelOwnerState) (req : OwnerMonitorRequest)
    (res : MonitorResponse) (st : CStore) : ∀ out, Client.ownerMonitor cenv nowC state ls o req res st ≠ .ok out := by
  intro out h
  rw [ownerMonitor_eq] at h
  obtain ⟨⟨m, v, result, root, rootP⟩, h1, h⟩ := G.bind_eq_ok.1 h
  obtain ⟨w, -, h⟩ := G.bind_eq_ok.1 h
  obtain ⟨s, -, h⟩ := G.bind_eq_ok.1 h
  rw [hls] at h1
  rw [checkedMonitor_nil h1] at h
  cases h

end

/-! ### The hypotheses for the execution of `ServerExample` -/

/-- what the client retains of label 10 -/
def toyRetained : List RetainedVersion :=
  [⟨0, [29], some [167]⟩, ⟨1, [30], some [156]⟩, ⟨2, [31], some [144]⟩, ⟨3, [32], none⟩, ⟨4, [33], none⟩, ⟨5, [34], none⟩]

theorem toyRetains : Retains toyEnv toyHistory [10] toyRetained where
  once := by decide
  vrf := by
    intro r hr
    simp only [toyRetained, List.mem_cons, List.not_mem_nil, or_false] at hr
    rcases hr with rfl | rfl | rfl | rfl | rfl | rfl <;> exact ⟨[], by decide +kernel⟩
  commitment := by
    intro r hr c hc
    simp only [toyRetained, List.mem_cons, List.not_mem_nil, or_false] at hr
    rcases hr with rfl | rfl | rfl | rfl | rfl | rfl
    · cases hc; exact ⟨_, rfl, by decide +kernel⟩
    · cases hc; exact ⟨_, rfl, by decide +kernel⟩
    · cases hc; exact ⟨_, rfl, by decide +kernel⟩
    · cases hc
    · cases hc
    · cases hc

theorem toyOwner : Monitoring toyEnv toyHistory toyUs [10] toyRetained [⟨0, 1⟩] (some ⟨0, 1, [1]⟩) where
  retains := toyRetains
  prepared := {
    contact := by
      intro e he b hb v hv
      cases List.mem_singleton.1 he
      rw [← Except.ok.inj ((by decide : monitoringBinaryLadder 1 = .ok [0, 1]).symm.trans hb)] at hv
      revert v; decide
    zero := fun _ _ => ⟨_, List.mem_cons_self, rfl⟩
    owner := by
      intro o ho k h1 h2 b hb v hv
      cases ho
      have h1' : (1 : Int) ≤ k := h1
      have h2' : (k : Int) ≤ 2 := h2
      have hk : k = 1 ∨ k = 2 := by omega
      rcases hk with rfl | rfl
      · rw [← Except.ok.inj ((by decide : searchBinaryLadder 1 1 [] [] = .ok [0, 1, 3, 2]).symm.trans hb)] at hv
        revert v; decide
      · rw [← Except.ok.inj ((by decide : searchBinaryLadder 2 2 [] [] = .ok [0, 1, 3, 2]).symm.trans hb)] at hv
        revert v; decide }
  contact := ⟨by decide, fun e he => by
    cases List.mem_singleton.1 he
    exact ⟨0, by decide, .inl rfl⟩⟩
  owner := by
    rintro o ⟨⟩
    exact ⟨by decide, by decide, by decide⟩
  distinct := vrfDistinct_of_check (by decide +kernel)

theorem toyContact : Monitoring toyEnv toyHistory toyUs [10] toyRetained [⟨0, 1⟩] none where
  retains := toyRetains
  prepared := ⟨toyOwner.prepared.contact, (fun _ h => by cases h), (fun _ h => by cases h)⟩
  contact := toyOwner.contact
  owner := fun _ h => by cases h
  distinct := toyOwner.distinct

/-- A client that knows the log of size 2 monitors version 1 in the log of size 5. -/
example := C67_contact_partial (aud := some ⟨300, 5, [0]⟩) (nowS := 300) (nowC := 300) (state := some toyState2) toyServing toyContact
  toyBehind (fun k hk f hf => by cases hk; cases hf; decide) (by rintro a ⟨⟩; exact ⟨by decide, by decide⟩)
  ⟨by decide +kernel, by decide +kernel⟩ ⟨by decide +kernel, by decide +kernel⟩

/-- They own the label. -/
example := C67_owner_partial (aud := none) (nowS := 300) (nowC := 300) (state := some toyState2) toyServing toyOwner
  toyBehind (fun k hk f hf => by cases hk; cases hf; decide) (by rintro a ⟨⟩)
  ⟨by decide +kernel, by decide +kernel⟩ ⟨by decide +kernel, by decide +kernel⟩

example := C67_never_accepted (aud := none) (nowS := 300) (nowC := 300) (state := some toyState2) toyBehind toyServing toyOwner
  (fun k hk f hf => by cases hk; cases hf; decide) (by rintro a ⟨⟩)
  ⟨by decide +kernel, by decide +kernel⟩ ⟨by decide +kernel, by decide +kernel⟩

/-- the state of a client that knows the log of size 4, with the auditor's tree head -/
def toyState4' : ClientState := ⟨⟨4, [190]⟩, some ⟨200, 4, [0]⟩, [[238]], [(3, ⟨200, [180]⟩)]⟩

/-- a monitoring request and its answer: the client has the server's tree head, so that its check does not fail -/
def toyMonitor (contact : List MonitorMapEntry) (owner : Option LabelOwnerState) : G CStore := do
  let t := { toyT4 with auditor := some ⟨200, 4, [0]⟩ }
  match owner with
  | none => do
    let req := ⟨some 4, [10], contact⟩
    let res ← Server.contactMonitor toyEnv 200 t req
    Client.contactMonitor toyClient 200 (some toyState4') ⟨contact, none, toyRetained⟩ req res {}
  | some o => do
    let req := ⟨some 4, [10], contact, o.starting, greatestVersion o⟩
    let res ← Server.ownerMonitor toyEnv 200 t req
    Client.ownerMonitor toyClient 200 (some toyState4') ⟨contact, some o, toyRetained⟩ o req res {}

/-- **Witnesses.**  Both the contact, whose monitoring is finished, and the owner panic on the answer of the honest server. -/
theorem C67_panics_witness : toyMonitor [⟨0, 1⟩] none = goPanic "nil pointer dereference" ∧
    toyMonitor [] (some ⟨0, 1, [1]⟩) = goPanic "nil pointer dereference" :=
  ⟨by decide +kernel, by decide +kernel⟩

end Katie.Props
