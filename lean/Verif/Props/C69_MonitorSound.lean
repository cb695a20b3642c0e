import Verif.Lemmas.MonitorSound
import Verif.Props.C60_SearchSound

/-
C69, C70: what a client has found out when it accepts the answer to a monitoring request, whoever sent it: C69 for contact
monitoring, C70 for the owner of a label.

As for searches (C60) the log is `W`, `out v` is the VRF output of version `v` of the label, and `g x` the greatest version in
entry `x`.  The server is not modelled here: the response is any value of the right type.
-/

namespace Katie.Props
open Katie Katie.Wire Katie.Alg Katie.Ladder Katie.Server Katie.Client Katie.CommittedSpec Katie.SearchTree Katie.SearchSpec
  Katie.ServedSpec

/-- The setting: a log, a label in it, and a client that has the right VRF outputs of the label's versions, monitors
versions in different entries of the log, and, if they own the label, knows the later versions from left to right. -/
structure MonitorSetting (env : CEnv) (W : List Content) (out : Nat → Bytes) (g : Nat → Int) (versions : List RetainedVersion)
    (contact : List MonitorMapEntry) (owner : Option LabelOwnerState) : Prop where
  suite : env.cs.Good
  log : IsLog env.cs W
  lab : LabelIn W out g
  outputs : ∀ r ∈ versions, r.version < 2 ^ 32 ∧ r.vrfOutput = out r.version
  keys : contact.Pairwise (fun a b => a.position ≠ b.position)
  inTree : ∀ e ∈ contact, e.position < W.length ∧ e.version < 2 ^ 32
  owner : ∀ o, owner = some o → (ownerOf o).WF ∧ o.verAtStarting + o.upcomingVers.length < 2 ^ 32

/-- entry `y` has version `v` of the label, with the commitment that the client has retained -/
def Kept (W : List Content) (out : Nat → Bytes) (versions : List RetainedVersion) (y v : Nat) : Prop :=
  ∃ r ∈ versions, r.version = v ∧ ∃ com, r.commitment = some com ∧ Committed W out v com y

/-- In entry `y` the label is as its owner expects: the greatest version is the one that the owner expects there, it has the commitment
that the owner has retained, and so do the earlier versions of its ladder. -/
def AsExpected (W : List Content) (out : Nat → Bytes) (g : Nat → Int) (versions : List RetainedVersion) (o : Owner) (y : Nat) : Prop :=
  (o.versionAt y < 0 ∧ g y < 0) ∨
  ∃ v : Nat, o.versionAt y = v ∧ g y = v ∧ Kept W out versions y v ∧
    ∀ l, searchBinaryLadder v v [] [] = .ok l → ∀ u ∈ l, u ≤ v → Kept W out versions y u

/-- What the client has found out.  Every monitored version, or a later one that is monitored too, is in all entries above it and to its
right up to the first distinguished one, with the commitment that the client has retained, and so are the versions of its
monitoring ladder.  A version is no longer monitored only if there is such a distinguished entry; otherwise the topmost of these entries is
monitored, for it or a later version.  Nothing else is monitored.  The starting position of the owner has not moved to the left, is the old one or a distinguished entry, the
expectations from there on are the old ones, and in the distinguished entries that it passed or reached the label is as expected. -/
structure FoundOut (cfg : Config) (W : List Content) (out : Nat → Bytes) (g : Nat → Int) (versions : List RetainedVersion)
    (contact : List MonitorMapEntry) (owner : Option LabelOwnerState) (m : Monitor) : Prop where
  inspected : ∀ e ∈ contact, ∀ y, ToInspect cfg.rmw (timeAt W) W.length (owner.map (·.starting)) e.position y →
    ∃ f ∈ contact, e.version ≤ f.version ∧ (f.version : Int) ≤ g y ∧ Kept W out versions y f.version ∧
      ∀ l, monitoringBinaryLadder f.version = .ok l → ∀ v ∈ l, Kept W out versions y v
  left : ∀ e ∈ contact, (∃ d, RightUp W.length e.position d ∧ Distinguished (Wide cfg.rmw) (timeAt W) W.length d) ∨
    ∃ top v, Top W.length e.position top ∧ monitored m top = some v ∧ (e.position ≠ top → e.version ≤ v)
  sorted : (contactStruct (m.contact.getD [])).Pairwise (fun a b => a.position < b.position)
  origin : ∀ f ∈ contactStruct (m.contact.getD []), ∃ e ∈ contact, e.version = f.version ∧ Top W.length e.position f.position
  owner : ∀ o, owner = some o → ∃ o', m.owner = some o' ∧ o'.WF ∧
    o'.verAtStarting + o'.upcoming.length = o.verAtStarting + o.upcomingVers.length ∧ o.starting ≤ o'.starting ∧
    (o'.starting = o.starting ∨ Distinguished (Wide cfg.rmw) (timeAt W) W.length o'.starting) ∧
    (∀ y, o'.starting ≤ y → o'.versionAt y = (ownerOf o).versionAt y) ∧
    ∀ y, o.starting < y → y ≤ o'.starting → Distinguished (Wide cfg.rmw) (timeAt W) W.length y →
      AsExpected W out g versions (ownerOf o) y

/-- the steps of the client up to the end of the monitoring: the program, and the verifier before and after it -/
def monitorSteps (env : CEnv) (now : Nat) (state : Option ClientState) (last : Option Nat) (versions : List RetainedVersion)
    (contact : List MonitorMapEntry) (owner : Option LabelOwnerState) (res : MonitorResponse) :
    G (Prog Monitor × Verifier × Verifier) := do
  let v ← newVerifier state last res.fullTreeHead res.monitor
  let v ← addRetainedVersions env versions v
  let v2 ← v.updateView env now
  let prog := monitorProg env.cfg v2.n (contactMap contact) (owner.map ownerOf)
  let (_, v3) ← v2.run env prog
  pure (prog, v2, v3)

/-- the prefix proofs that the client evaluates, each with the entries it evaluates it for -/
def monitorEvals (env : CEnv) (now : Nat) (state : Option ClientState) (last : Option Nat) (versions : List RetainedVersion)
    (contact : List MonitorMapEntry) (owner : Option LabelOwnerState) (res : MonitorResponse) :
    List (List Prefix.Entry × Prefix.Proof) :=
  match monitorSteps env now state last versions contact owner res with
  | .ok (prog, v2, _) => Provider.evals env.cs prog v2.p
  | .error _ => []

/-- the strings hashed by the client when it verifies the answer (those for the log and the prefix trees) -/
def monitorStrings (env : CEnv) (now : Nat) (state : Option ClientState) (last : Option Nat) (versions : List RetainedVersion)
    (contact : List MonitorMapEntry) (owner : Option LabelOwnerState) (res : MonitorResponse) : List Bytes :=
  match monitorSteps env now state last versions contact owner res with
  | .ok (_, _, v3) => finishStrings env.cs v3.n v3.nP v3.m v3.p ++
      proofStrings env.cs (monitorEvals env now state last versions contact owner res)
  | .error _ => []

section
variable {env : CEnv} {W : List Content} {out : Nat → Bytes} {g : Nat → Int} {versions : List RetainedVersion}
  {contact : List MonitorMapEntry} {owner : Option LabelOwnerState} {now : Nat} {state : Option ClientState} {last : Option Nat}
  {res : MonitorResponse}

/-- the steps of `checkedMonitor` -/
theorem checkedMonitor_steps {m : Monitor} {v : Verifier} {result : Provider.Result} {root rootP : Bytes}
    (h : checkedMonitor env now state last versions contact owner res = .ok (m, v, result, root, rootP)) :
    ∃ v0 v1 v2 v3 p, newVerifier state last res.fullTreeHead res.monitor = .ok v0 ∧ addRetainedVersions env versions v0 = .ok v1 ∧
      v1.updateView env now = .ok v2 ∧
      v2.run env (monitorProg env.cfg v2.n (contactMap contact) (owner.map ownerOf)) = .ok (m, v3) ∧
      v3.p.finish env.cs (Received.handle env.cs) v3.n v3.nP v3.m = (.ok result, p) ∧ v = { v3 with p := p } ∧
      Log.root env.cs v3.n result.fullSubtrees = .ok root := by
  unfold checkedMonitor at h
  obtain ⟨v0, h0, h⟩ := G.bind_eq_ok.1 h
  obtain ⟨v1, h1, h⟩ := G.bind_eq_ok.1 h
  obtain ⟨v2, h2, h⟩ := G.bind_eq_ok.1 h
  obtain ⟨⟨ma, va⟩, ha, h⟩ := G.bind_eq_ok.1 h
  obtain ⟨⟨mb, vb⟩, hb, h⟩ := G.bind_eq_ok.1 h
  obtain ⟨mc, vc, hc, h⟩ : ∃ mc vc, (if owner = none then pure (mb, vb) else vb.run env (Alg.ownerMonitor mb)) = .ok (mc, vc) ∧
      (match vc.p.finish env.cs (Received.handle env.cs) vc.n vc.nP vc.m with
        | (.error e, _) => (.error e : G (Monitor × Verifier × Provider.Result × Bytes × Bytes))
        | (.ok result, p) => do
          let root ← Log.root env.cs vc.n result.fullSubtrees
          let rootP ← auditorRoot env vc.nP result.additional
          pure (mc, { vc with p := p }, result, root, rootP)) = .ok (m, v, result, root, rootP) := by
    by_cases ho : owner = none
    · simp only [ho, if_true] at h ⊢
      exact ⟨mb, vb, rfl, h⟩
    · simp only [ho, if_false] at h ⊢
      obtain ⟨⟨mc, vc⟩, hc, h⟩ := G.bind_eq_ok.1 h
      exact ⟨mc, vc, hc, h⟩
  have hrun : v2.run env (monitorProg env.cfg v2.n (contactMap contact) (owner.map ownerOf)) = .ok (mc, vc) := by
    obtain ⟨fa, ra⟩ := run_frame ha
    obtain ⟨fb, rb⟩ := run_frame hb
    have hp : v2.p.run (Received.handle env.cs) (monitorProg env.cfg v2.n (contactMap contact) (owner.map ownerOf)) =
        (.ok mc, vc.p) ∧ Frame vb vc := by
      unfold monitorProg
      rw [run_bind, ra]
      simp only
      rw [run_bind, rb]
      simp only
      cases owner with
      | none =>
        simp only [if_true] at hc
        obtain ⟨rfl, rfl⟩ := Prod.mk.inj (Except.ok.inj hc)
        exact ⟨rfl, Frame.refl _⟩
      | some o =>
        rw [if_neg (by simp)] at hc
        obtain ⟨fc, rc⟩ := run_frame hc
        exact ⟨rc, fc⟩
    obtain ⟨hp, fc⟩ := hp
    have f := (fa.trans fb).trans fc
    unfold Verifier.run
    rw [hp]
    simp only
    have : ({ v2 with p := vc.p } : Verifier) = vc := by
      obtain ⟨f1, f2, f3, f4, f5⟩ := f
      cases vc
      simp only at f1 f2 f3 f4 f5
      simp only [f1, f2, f3, f4, f5]
    rw [this]
  split at h
  · cases h
  next r p hf =>
  obtain ⟨rt, hrt, h⟩ := G.bind_eq_ok.1 h
  obtain ⟨rtP, -, h⟩ := G.bind_eq_ok.1 h
  obtain ⟨rfl, rfl, rfl, rfl, -⟩ : mc = m ∧ { vc with p := p } = v ∧ r = result ∧ rt = root ∧ rtP = rootP := by
    have := Except.ok.inj h; simpa using this
  exact ⟨v0, v1, v2, vc, p, h0, h1, h2, hrun, hf, rfl, hrt⟩

/-- **The client's checks**, for both.  The client adds the retained versions to its table, updates its view, runs the
monitoring algorithms on the received proof, and checks the inclusion proof against the root of `W`, which is what the
tree head signs.  If all of that succeeds, the monitored versions are in the entries to be inspected, with the commitments that the
client has retained; in the distinguished entries that the owner's starting position passed, the greatest version is
the one that the owner expects; and what the client retains of the log is `W`'s; or two of the strings hashed are a
collision.  (What is missing: the proviso `Consistent`.  Without it the claim about owners is false, see `C70_hidden_accepted`.) -/
theorem C70_checked_partial (hS : MonitorSetting env W out g versions contact owner) (hst : EntriesOk env.cs W state)
    (hwire : FromWire env.cs res.monitor)
    (hclean : ∀ e ∈ monitorEvals env now state last versions contact owner res, Consistent e.1 e.2)
    {m : Monitor} {v : Verifier} {result : Provider.Result} {root rootP : Bytes}
    (h : checkedMonitor env now state last versions contact owner res = .ok (m, v, result, root, rootP))
    (hn : v.n = W.length) (hroot : root = logRoot env.cs W) :
    (FoundOut env.cfg W out g versions contact owner m ∧ Retains env.cs W result.fullSubtrees result.logEntries) ∨
    HashBroken env.cs (logStrings env.cs W) (monitorStrings env now state last versions contact owner res) := by
  obtain ⟨v0, v1, v2, v3, p, h0, h1, h2, h3, hf, rfl, hrt⟩ := checkedMonitor_steps h
  subst hroot
  have hsteps : monitorSteps env now state last versions contact owner res =
      .ok (monitorProg env.cfg v2.n (contactMap contact) (owner.map ownerOf), v2, v3) := by
    unfold monitorSteps
    simp only [h0, h1, h2, h3, G.ok_bind, G.pure_eq]
  have hev : monitorEvals env now state last versions contact owner res =
      Provider.evals env.cs (monitorProg env.cfg v2.n (contactMap contact) (owner.map ownerOf)) v2.p := by
    unfold monitorEvals; rw [hsteps]
  have hstr : monitorStrings env now state last versions contact owner res = finishStrings env.cs v3.n v3.nP v3.m v3.p ++
      proofStrings env.cs (Provider.evals env.cs (monitorProg env.cfg v2.n (contactMap contact) (owner.map ownerOf)) v2.p) := by
    unfold monitorStrings; rw [hsteps, hev]
  rw [hev] at hclean
  rw [hstr]
  obtain ⟨⟨Vs, e1⟩, e2⟩ := addRetainedVersions_versions versions v0 v1 h1
  obtain ⟨k0, hR, k1, -⟩ := setup_begun hS.log.toWellFormed hst h0 e1 h2
  have hV : ∀ v k, v2.p.state.versions.lookup v = some k → ∃ r ∈ versions, r.version = v ∧ k.vrf = r.vrfOutput ∧ k.com = r.commitment := by
    intro v k hk
    rw [k1] at hk
    rcases e2 v k hk with hk | hk
    · rw [k0] at hk; cases hk
    · exact hk
  have hF23 := (run_frame h3).1
  have hr := (run_frame h3).2
  have hn : v3.n = W.length := hn
  have hn2 : v2.n = W.length := by rw [← hF23.n]; exact hn
  have hmn : ∀ k ∈ v3.m, k ≤ v3.n := by
    have := updateView_size h2
    rw [hF23.m, hF23.n, (updateView_frame h2).1.m, (updateView_frame h2).1.n]
    exact this
  rw [hn2] at hr h3 hclean ⊢
  obtain ⟨g3, m3, hruns, -⟩ := run_spec (Received.handle env.cs)
    (monitorProg env.cfg W.length (contactMap contact) (owner.map ownerOf)) v2.p hR.ts
  rw [hr] at g3 m3 hruns
  rcases after_begun hS.suite hS.log hS.lab hwire hR (fun v k hk => by
      obtain ⟨r, hr1, rfl, hr2, -⟩ := hV v k hk
      rw [hr2]
      exact hS.outputs r hr1) hclean h3 hn hmn hf hrt with ⟨hL, hT, hC⟩ | hB
  swap
  · exact Or.inr hB
  left
  refine ⟨?_, hL.heads, hL.entries⟩
  have hok := (monitorProg_noCatch (cfg := env.cfg) (n := W.length) (c := contactMap contact) (o := owner.map ownerOf)).runs hruns
  have hreads := (monitorProg_reads (cfg := env.cfg) (n := W.length) (c := contactMap contact) (o := owner.map ownerOf)).runs hruns
  have hfacts := client_facts (cs := env.cs) (monitorProg env.cfg W.length (contactMap contact) (owner.map ownerOf)) v2.p [] hR.ts
    hR.inv hR.times (by rw [hR.tracker]; exact TrackedBy.nil) (fun e he => ⟨hreads e he, hok e he⟩) v3.p
    (by rw [hr]; exact Grows.refl _)
    (E := Provider.evals env.cs (monitorProg env.cfg W.length (contactMap contact) (owner.map ownerOf)) v2.p) (fun e he => he)
  have hsticks := trace_stopSticks (cs := env.cs) (monitorProg env.cfg W.length (contactMap contact) (owner.map ownerOf)) v2.p
  obtain ⟨hpos, m1, tr1, s1, s2, s3, s4, s5⟩ := monitorProg_parts (hfacts.tsTrace hT) hsticks hruns
  obtain ⟨ck, cm⟩ := contactMap_spec hS.keys
  -- a version that was shown is one that the client has retained
  have kept : ∀ {y u}, y ∈ v3.p.timestamps.map Prod.fst → Shown env.cs v2.p.state.versions res.monitor.prefixProofs
      (Provider.evals env.cs (monitorProg env.cfg W.length (contactMap contact) (owner.map ownerOf)) v2.p)
      (fun x => v3.p.prefixTrees.lookup x) y u true → Kept W out versions y u := by
    intro y u hy hsh
    obtain ⟨c, k, com, w1, w2, w3, w4⟩ := hC y u hy hsh
    obtain ⟨r, r1, r2, -, r4⟩ := hV u k w2
    exact ⟨r, r1, r2, com, by rw [← r4]; exact w3, c, w1, w4⟩
  have hcon : (monitorOf (contactMap contact) (owner.map ownerOf) ⟨env.cfg, timeAt W (W.length - 1), W.length, none, none⟩).contact =
      some (contactMap contact) := by
    unfold monitorOf; split <;> rfl
  have hcfg : (monitorOf (contactMap contact) (owner.map ownerOf) ⟨env.cfg, timeAt W (W.length - 1), W.length, none, none⟩).cfg =
      env.cfg := by
    unfold monitorOf; split <;> rfl
  have hsz : (monitorOf (contactMap contact) (owner.map ownerOf) ⟨env.cfg, timeAt W (W.length - 1), W.length, none, none⟩).treeSize =
      W.length := by
    unfold monitorOf; split <;> rfl
  have hrm : (monitorOf (contactMap contact) (owner.map ownerOf) ⟨env.cfg, timeAt W (W.length - 1), W.length, none, none⟩).rightmost =
      timeAt W (W.length - 1) := by
    unfold monitorOf; split <;> rfl
  have how : (monitorOf (contactMap contact) (owner.map ownerOf) ⟨env.cfg, timeAt W (W.length - 1), W.length, none, none⟩).owner =
      owner.map ownerOf := by
    unfold monitorOf
    cases owner <;> rfl
  have hmon := (contactMonitor_monitors hcon).runs s3
  generalize monitorOf (contactMap contact) (owner.map ownerOf) ⟨env.cfg, timeAt W (W.length - 1), W.length, none, none⟩ = m0
    at s3 hcon hcfg hsz hrm how hmon
  have hcr : ContactRun m0 (contactMap contact) (timeAt W) tr1 m1 :=
    ⟨hcon, ck, fun e he => by rw [hsz]; exact (hS.inTree _ ((cm e).1 he)).1, by rw [hsz]; exact timeAt_good hS.log,
      by rw [hrm, hsz], s2, s3⟩
  have hmc : m.contact = m1.contact := by
    cases owner with
    | none => rw [s4 rfl]
    | some o =>
      obtain ⟨tr2, -, -, -, q4⟩ := s5 (ownerOf o) rfl
      exact ownerMonitor_keeps q4
  have hkeys := contactMonitor_keys hcon s3
  have hmm : ∀ y, monitored m y = monitored m1 y := by
    intro y
    unfold monitored
    rw [hmc]
  refine ⟨?_, ?_, ?_, ?_, ?_⟩
  · intro e he y hy
    have hmem : (e.position, e.version) ∈ contactMap contact := (cm (e.position, e.version)).2 he
    obtain ⟨u, hu, hue⟩ := C29_every_ancestor_inspected hcr hmem (y := y) (by
      rw [hcfg, hsz, how]
      cases owner <;> exact hy)
    obtain ⟨a, ha1, ha2⟩ := List.mem_map.1 (hmon _ hue y u rfl)
    have hf1 := (cm a).1 ha1
    obtain ⟨hy1, l, hl1, hl2⟩ := hfacts.mem_monitor (s1 _ hue)
    have h32 : a.2 < 2 ^ 32 := (hS.inTree _ hf1).2
    subst ha2
    have hsmall : a.2 < 2 ^ 31 - 1 := by
      by_contra hc
      unfold monitoringBinaryLadder baseBinaryLadder at hl1
      rw [base_diverges (by omega) h32] at hl1
      cases hl1
    obtain ⟨l', hl3, -, hl4, -⟩ := C19_monitoring_ladder hsmall
    rw [hl1] at hl3
    cases hl3
    have hal : a.2 ∈ l := List.mem_of_getLast? hl4
    refine ⟨⟨a.1, a.2⟩, hf1, hu, ?_, kept hy1 (hl2 _ hal), ?_⟩
    · have := hT.shown y a.2 true hy1 (hl2 _ hal)
      simpa using this.symm
    · intro l' hl' v hv
      rw [hl1] at hl'
      cases hl'
      exact kept hy1 (hl2 v hv)
  · intro e he
    have hmem : (e.position, e.version) ∈ contactMap contact := (cm (e.position, e.version)).2 he
    by_cases hno : NoDist env.cfg.rmw (timeAt W) W.length e.position
    · refine .inr ?_
      obtain ⟨top, htop⟩ := exists_top (hS.inTree e he).1
      obtain ⟨v', k1, k2⟩ := C29_moved_to_top_partial hcr hmem (by rw [hcfg, hsz]; exact hno) (by rw [hsz]; exact htop)
      exact ⟨top, v', htop, by rw [hmm]; exact k1, k2⟩
    · refine .inl ?_
      by_contra hcon
      exact hno (fun d h1 h2 => hcon ⟨d, h1, h2⟩)
  · rw [hmc]
    exact (contactStruct_spec hkeys).1
  · intro f hf
    rw [hmc] at hf
    have hy : monitored m1 f.position = some f.version := by
      unfold monitored
      exact hkeys.lookup.2 (((contactStruct_spec hkeys).2 f).1 hf)
    obtain ⟨x, x1, -, x3⟩ := C29_positions_come_from_before hcr hy
    rw [hsz] at x3
    exact ⟨_, (cm (x, f.version)).1 x1, rfl, x3⟩
  · rintro o rfl
    obtain ⟨hwf, hbound⟩ := hS.owner o rfl
    obtain ⟨tr2, q1, q2, q3, q4⟩ := s5 (ownerOf o) rfl
    obtain ⟨z1, z2, z3, z4⟩ := contactMonitor_keeps (m := m0) s3
    have hor : OwnerRun m1 (ownerOf o) (timeAt W) tr2 m :=
      ⟨by rw [z1, how]; rfl, hwf, by rw [z2, hsz]; exact hpos, by rw [z2, hsz]; exact timeAt_good hS.log,
        by rw [z4, z2, hrm, hsz], q2, q3, q4⟩
    obtain ⟨o', rfl, o1, o2, o3, o4, o5, o6⟩ := C30_monitor_sound hor
    rw [z3, z2, hcfg, hsz] at o3 o6
    refine ⟨o', rfl, o1, o4, o2, o3, ?_, ?_⟩
    · intro y hy
      have := o5 y hy
      rwa [greatestAt_eq o1, greatestAt_eq hwf] at this
    · intro y y1 y2 y3
      have hle : (ownerOf o).versionAt y < 2 ^ 32 := by
        have : (ownerOf o).upcoming.countP (· ≤ y) ≤ o.upcomingVers.length := List.countP_le_length
        have hv : (ownerOf o).versionAt y = o.verAtStarting + ((ownerOf o).upcoming.countP (· ≤ y) : Nat) := rfl
        omega
      rcases o6 y y1 y2 y3 with ⟨n1, n2⟩ | ⟨n1, n2⟩
      · left
        refine ⟨n1, ?_⟩
        obtain ⟨hy1, vt, vt', w, flags, w1, w2⟩ := hfacts.mem_search (q1 _ n2)
        obtain ⟨w3, -⟩ := ladder_full (g := g) (by omega) w1 (fun u b hub => hT.shown y u b hy1 (w2 u b hub))
        unfold cmp3 at w3
        by_contra hc
        rw [if_neg (by omega)] at w3
        split at w3 <;> cases w3
      · right
        obtain ⟨k, hk⟩ : ∃ k : Nat, (ownerOf o).versionAt y = k := ⟨((ownerOf o).versionAt y).toNat, by omega⟩
        rw [hk] at n1 n2 hle
        have hk32 : k < 2 ^ 32 := by omega
        rw [Int.toNat_natCast, Nat.mod_eq_of_lt hk32] at n2
        obtain ⟨hy1, vt, vt', w, flags, w1, w2⟩ := hfacts.mem_search (q1 _ n2)
        obtain ⟨w3, w4⟩ := ladder_full (g := g) hk32 w1 (fun u b hub => hT.shown y u b hy1 (w2 u b hub))
        obtain ⟨l, l1, l2⟩ := w4 rfl
        have hkl : k ∈ l := searchLadder_self_mem hk32 l1
        have hshown : ∀ u ∈ l, u ≤ k → Kept W out versions y u := by
          intro u hu huk
          have := w2 _ _ (l2 u hu)
          rw [decide_eq_true huk] at this
          exact kept hy1 this
        refine ⟨k, hk, ?_, hshown k hkl (le_refl _), ?_⟩
        · unfold cmp3 at w3
          split at w3
          · cases w3
          split at w3
          · cases w3
          omega
        · intro l' hl' u hu huk
          rw [l1] at hl'
          cases hl'
          exact hshown u hu huk

/-- **Contact monitoring**: the proviso of `C70_checked_partial` is not needed, as all proofs are of inclusion. -/
theorem C69_checked (hS : MonitorSetting env W out g versions contact none) (hst : EntriesOk env.cs W state)
    (hwire : FromWire env.cs res.monitor) {m : Monitor} {v : Verifier} {result : Provider.Result} {root rootP : Bytes}
    (h : checkedMonitor env now state last versions contact none res = .ok (m, v, result, root, rootP))
    (hn : v.n = W.length) (hroot : root = logRoot env.cs W) :
    (FoundOut env.cfg W out g versions contact none m ∧ Retains env.cs W result.fullSubtrees result.logEntries) ∨
    HashBroken env.cs (logStrings env.cs W) (monitorStrings env now state last versions contact none res) := by
  refine C70_checked_partial hS hst hwire ?_ h hn hroot
  obtain ⟨v0, v1, v2, v3, p, h0, h1, h2, h3, -⟩ := checkedMonitor_steps h
  obtain ⟨⟨Vs, e1⟩, -⟩ := addRetainedVersions_versions versions v0 v1 h1
  obtain ⟨-, hR, -⟩ := setup_begun hS.log.toWellFormed hst h0 e1 h2
  have hev : monitorEvals env now state last versions contact none res =
      Provider.evals env.cs (monitorProg env.cfg v2.n (contactMap contact) none) v2.p := by
    unfold monitorEvals monitorSteps
    simp only [h0, h1, h2, h3, G.ok_bind, G.pure_eq]
    rfl
  rw [hev]
  obtain ⟨-, -, hruns, -⟩ := run_spec (Received.handle env.cs) (monitorProg env.cfg v2.n (contactMap contact) none) v2.p hR.ts
  have hr := (run_frame h3).2
  simp only [Option.map_none] at hr
  rw [hr] at hruns
  exact contact_consistent _ _ hR.ts monitorProg_onlyContact (monitorProg_noCatch.runs hruns)

/-- the table of versions at the end -/
theorem checked_versions (hlog : IsLog env.cs W) (hst : EntriesOk env.cs W state) {m : Monitor} {v : Verifier} {result : Provider.Result} {root rootP : Bytes}
    (h : checkedMonitor env now state last versions contact owner res = .ok (m, v, result, root, rootP)) {u : Nat} {k : Known}
    (hk : v.p.state.versions.lookup u = some k) : ∃ r ∈ versions, r.version = u ∧ k.vrf = r.vrfOutput ∧ k.com = r.commitment := by
  obtain ⟨v0, v1, v2, v3, p, h0, h1, h2, h3, hf, rfl, -⟩ := checkedMonitor_steps h
  obtain ⟨⟨Vs, e1⟩, e2⟩ := addRetainedVersions_versions versions v0 v1 h1
  obtain ⟨k0, hR, k1, -⟩ := setup_begun hlog.toWellFormed hst h0 e1 h2
  have h4 : p.state.versions = v1.p.state.versions := by
    have h5 := (client_run (cs := env.cs) (monitorProg env.cfg v2.n (contactMap contact) (owner.map ownerOf)) v2.p hR.inv hR.times).1.versions
    rw [(run_frame h3).2] at h5
    rw [finish_versions hf, ← k1]
    exact h5
  rw [h4] at hk
  rcases e2 u k hk with hk | hk
  · rw [k0] at hk; cases hk
  · exact hk

/-- A client with a state that is right for the log, whose checks of an answer all succeed: the answer has no new tree head
(see C43), and the root hash is that of the log. -/
theorem accepted_head (hcs : env.cs.Good) (hlog : IsLog env.cs W) {s updated : ClientState} (hsize : s.treeHead.treeSize = W.length)
    (hret : Retains env.cs W s.fullSubtrees s.logEntries) {m : Monitor} {v w : Verifier} {result : Provider.Result} {root rootP : Bytes}
    (h : checkedMonitor env now (some s) (some s.treeHead.treeSize) versions contact owner res = .ok (m, v, result, root, rootP))
    (hw : verifyTreeHead env v root rootP = .ok w) (hs : newState w result = .ok updated) :
    res.fullTreeHead.treeHead = none ∧ v.n = W.length ∧ root = logRoot env.cs W ∧ updated.treeHead = s.treeHead ∧
      updated.fullSubtrees = result.fullSubtrees ∧ updated.logEntries = result.logEntries := by
  obtain ⟨v0, v1, v2, v3, p, h0, h1, h2, h3, hf, rfl, hroot⟩ := checkedMonitor_steps h
  obtain ⟨e1, e2, e3, -, e5, -⟩ := newVerifier_ok h0
  have hst : EntriesOk env.cs W (some s) := by
    intro s' hs' e he
    cases hs'
    exact hret.entries e he
  obtain ⟨⟨Vs, b1⟩, -⟩ := addRetainedVersions_versions versions v0 v1 h1
  obtain ⟨-, hR, -, hfull⟩ := setup_begun hlog.toWellFormed hst h0 b1 h2
  have hF01 := addRetainedVersions_frame h1
  have hF03 := (hF01.trans (updateView_frame h2).1).trans (run_frame h3).1
  have hmsz := updateView_size h2
  have hnone : res.fullTreeHead.treeHead = none := by
    cases hh : res.fullTreeHead.treeHead with
    | none => rfl
    | some th =>
      exfalso
      unfold verifyTreeHead at hw
      dsimp only at hw
      rw [hF03.fth, e2, hh, hF03.state, e1] at hw
      dsimp only at hw
      rw [if_pos] at hw
      · cases hw
      · simp only [Option.any_some, decide_eq_true_eq]
        have := hmsz s.treeHead.treeSize (by rw [hF01.m, e3]; rfl)
        rw [hF01.n] at this
        rw [hF03.n]
        exact this
  have hn : v3.n = W.length := by
    rw [hF03.n]
    unfold treeSizeOf at e5
    rw [hnone] at e5
    rw [← Except.ok.inj e5]
    exact hsize
  have hm : v3.m = some v3.n := by rw [hF03.m, e3, hsize, hn]
  obtain ⟨g3, m3, -⟩ := run_spec (Received.handle env.cs)
    (monitorProg env.cfg v2.n (contactMap contact) (owner.map ownerOf)) v2.p hR.ts
  rw [(run_frame h3).2] at g3 m3
  have hsub : result.fullSubtrees = LogSpec.heads env.cs.H (leaves env.cs W) := by
    have hf' := hf
    rw [hm] at hf'
    rw [finish_same m3 hf', g3.full, hfull]
    exact hret.heads
  obtain ⟨hpos, hmax⟩ := logRoot_size hroot
  have hroot' : Log.root env.cs v3.n result.fullSubtrees = .ok (logRoot env.cs W) := by
    have hlen : (leaves env.cs W).length = W.length := leaves_length
    have := Log.root_heads hcs (L := leaves env.cs W) (by
      intro v hv
      obtain ⟨c, -, rfl⟩ := List.mem_map.1 hv
      exact hcs.len _) (by rw [hlen, ← hn]; exact hpos) (by rw [hlen, ← hn]; exact hmax)
    rw [hn, hsub, ← hlen]
    exact this
  have hfw := verifyTreeHead_frame hw
  refine ⟨hnone, hn, ?_, ?_⟩
  · rw [hroot'] at hroot
    exact (Except.ok.inj hroot).symm
  · unfold newState at hs
    rw [hfw.state, hfw.fth] at hs
    dsimp only at hs
    rw [hF03.state, e1, hF03.fth, e2, hnone] at hs
    have := Except.ok.inj hs
    subst this
    exact ⟨rfl, rfl, rfl⟩

/-- the new state of the label is again one to monitor with -/
theorem FoundOut.next {m : Monitor} (hS : MonitorSetting env W out g versions contact owner) (hF : FoundOut env.cfg W out g versions contact owner m)
    {ls ls' : ClientLabelState} {s : Received} {next : List MonitorMapEntry} (hc : contactStruct? m.contact = .ok next)
    (hu : updateRetainedVersions { ls with contact := next } s = .ok ls')
    (hs : ∀ u k, s.versions.lookup u = some k → ∃ r ∈ versions, r.version = u ∧ k.vrf = r.vrfOutput ∧ k.com = r.commitment)
    (ho : ∀ o, ls.owner = some o → (ownerOf o).WF ∧ o.verAtStarting + o.upcomingVers.length < 2 ^ 32) :
    MonitorSetting env W out g ls'.versions ls'.contact ls'.owner ∧ ls'.owner = ls.owner ∧
      ls'.contact = contactStruct (m.contact.getD []) ∧ (∀ r ∈ ls'.versions, r ∈ versions) := by
  obtain ⟨u1, u2, u3⟩ := updateRetainedVersions_ok hu
  have hnext : next = contactStruct (m.contact.getD []) := by
    unfold contactStruct? at hc
    split at hc
    · cases hc
    · next e => rw [e]; exact (Except.ok.inj hc).symm
  have hmem : ∀ r ∈ ls'.versions, r ∈ versions := by
    intro r hr
    obtain ⟨r', k1, k2, k3, k4⟩ := hs _ _ (u3 r hr)
    have : r = r' := by
      cases r; cases r'; simp only at k2 k3 k4; subst k2 k3 k4; rfl
    rw [this]; exact k1
  subst hnext
  refine ⟨⟨hS.suite, hS.log, hS.lab, fun r hr => hS.outputs r (hmem r hr), ?_, ?_, ?_⟩, u2, u1, hmem⟩
  · rw [u1]
    exact hF.sorted.imp (fun h => Nat.ne_of_lt h)
  · rw [u1]
    intro f hf
    obtain ⟨e, e1, e2, e3⟩ := hF.origin f hf
    refine ⟨?_, by rw [← e2]; exact (hS.inTree e e1).2⟩
    rcases e3.1 with h | h
    · rw [h]; exact (hS.inTree e e1).1
    · exact h.lt_n
  · rw [u2]; exact ho

/-- **C69, contact monitoring.**  A client with a state that is right for the log `W` accepts the answer to a monitoring request.
Then every version that it monitors (or a later one that it monitors too) is in all entries above the monitored position and to
its right, up to and including the first distinguished one, with the commitment that the client has retained; the version is
dropped only if there is such a distinguished entry, and otherwise the topmost of these entries is monitored.  The client's
new state is right for `W`, and the label's new state is again one to monitor with.  Or two of the strings hashed are a collision. -/
theorem C69_contact {ls : ClientLabelState} {req : ContactMonitorRequest} {s : ClientState} {st st' : CStore}
    (hS : MonitorSetting env W out g ls.versions ls.contact none) (hsize : s.treeHead.treeSize = W.length)
    (hret : Retains env.cs W s.fullSubtrees s.logEntries) (hlast : req.last = some s.treeHead.treeSize) (hls : ls.owner = none)
    (hwire : FromWire env.cs res.monitor) (h : Client.contactMonitor env now (some s) ls req res st = .ok st') :
    (∃ m updated ls' x, FoundOut env.cfg W out g ls.versions ls.contact none m ∧
      putLabelState st updated req.label ls' x = .ok st' ∧ res.fullTreeHead.treeHead = none ∧ updated.treeHead = s.treeHead ∧
      Retains env.cs W updated.fullSubtrees updated.logEntries ∧ MonitorSetting env W out g ls'.versions ls'.contact ls'.owner ∧
      ls'.contact = contactStruct (m.contact.getD []) ∧ ls'.owner = none ∧ (∀ r ∈ ls'.versions, r ∈ ls.versions)) ∨
    HashBroken env.cs (logStrings env.cs W) (monitorStrings env now (some s) req.last ls.versions ls.contact none res) := by
  rw [contactMonitor_eq] at h
  obtain ⟨⟨m, v, result, root, rootP⟩, h1, h⟩ := G.bind_eq_ok.1 h
  obtain ⟨w, hw, h⟩ := G.bind_eq_ok.1 h
  obtain ⟨updated, hs, h⟩ := G.bind_eq_ok.1 h
  obtain ⟨next, hc, h⟩ := G.bind_eq_ok.1 h
  obtain ⟨ls', hu, h⟩ := G.bind_eq_ok.1 h
  obtain ⟨⟨dle, v6⟩, -, h⟩ := G.bind_eq_ok.1 h
  rw [hlast] at h1 ⊢
  have hst : EntriesOk env.cs W (some s) := by
    intro s' hs' e he
    cases hs'
    exact hret.entries e he
  obtain ⟨k1, k2, k3, k4, k5, k6⟩ := accepted_head hS.suite hS.log hsize hret h1 hw hs
  rcases C69_checked hS hst hwire h1 k2 k3 with ⟨hF, hR⟩ | hB
  swap
  · exact Or.inr hB
  left
  cases dle with
  | none => cases h
  | some x =>
    have hp := verifyTreeHead_versions hw
    obtain ⟨n1, n2, n3, n4⟩ := hF.next hS hc hu (fun u k hk => checked_versions hS.log hst h1 (by rw [← hp]; exact hk))
      (by rw [hls]; rintro o ⟨⟩)
    exact ⟨m, updated, ls', x, hF, h, k1, k4, by rw [k5, k6]; exact hR, n1, n3, n2.trans hls, n4⟩

/-- **C70 (partial), owner monitoring.**  The owner of a label, with a state that is right for the log `W`, accepts the answer to a
monitoring request.  Then in every distinguished entry between the old and the new starting position the greatest version is the
one that the owner expects there, with the commitment that the owner has retained; and so on, as for contact monitoring.  Or two of
the strings hashed are a collision.  (What is missing: the proviso `Consistent`, see `C70_hidden_accepted`.) -/
theorem C70_owner_partial {ls : ClientLabelState} {o : LabelOwnerState} {req : OwnerMonitorRequest} {s : ClientState} {st st' : CStore}
    (hS : MonitorSetting env W out g ls.versions ls.contact (some o)) (hsize : s.treeHead.treeSize = W.length)
    (hret : Retains env.cs W s.fullSubtrees s.logEntries) (hlast : req.last = some s.treeHead.treeSize)
    (hwire : FromWire env.cs res.monitor)
    (hclean : ∀ e ∈ monitorEvals env now (some s) req.last ls.versions ls.contact (some o) res, Consistent e.1 e.2)
    (h : Client.ownerMonitor env now (some s) ls o req res st = .ok st') :
    (∃ m o' updated ls', FoundOut env.cfg W out g ls.versions ls.contact (some o) m ∧ m.owner = some (ownerOf o') ∧
      putLabelState st updated req.label ls' o'.starting = .ok st' ∧ res.fullTreeHead.treeHead = none ∧ updated.treeHead = s.treeHead ∧
      Retains env.cs W updated.fullSubtrees updated.logEntries ∧ MonitorSetting env W out g ls'.versions ls'.contact ls'.owner ∧
      ls'.contact = contactStruct (m.contact.getD []) ∧ ls'.owner = some o' ∧ (∀ r ∈ ls'.versions, r ∈ ls.versions)) ∨
    HashBroken env.cs (logStrings env.cs W) (monitorStrings env now (some s) req.last ls.versions ls.contact (some o) res) := by
  rw [ownerMonitor_eq] at h
  obtain ⟨⟨m, v, result, root, rootP⟩, h1, h⟩ := G.bind_eq_ok.1 h
  obtain ⟨w, hw, h⟩ := G.bind_eq_ok.1 h
  obtain ⟨updated, hs, h⟩ := G.bind_eq_ok.1 h
  obtain ⟨next, hc, h⟩ := G.bind_eq_ok.1 h
  rw [hlast] at h1 hclean ⊢
  have hst : EntriesOk env.cs W (some s) := by
    intro s' hs' e he
    cases hs'
    exact hret.entries e he
  obtain ⟨k1, k2, k3, k4, k5, k6⟩ := accepted_head hS.suite hS.log hsize hret h1 hw hs
  rcases C70_checked_partial hS hst hwire hclean h1 k2 k3 with ⟨hF, hR⟩ | hB
  swap
  · exact Or.inr hB
  left
  obtain ⟨o1, ho1, hwf1, htot, -⟩ := hF.owner o rfl
  rw [ho1] at h
  obtain ⟨ls', hu, h⟩ := G.bind_eq_ok.1 h
  have hp := verifyTreeHead_versions hw
  obtain ⟨n1, n2, n3, n4⟩ := FoundOut.next (ls := { ls with owner := some ⟨o1.starting, o1.verAtStarting, o1.upcoming⟩ }) hS hF hc hu
    (fun u k hk => checked_versions hS.log hst h1 (by rw [← hp]; exact hk))
    (by
      rintro o2 ⟨⟩
      refine ⟨hwf1, ?_⟩
      have := (hS.owner o rfl).2
      simp only
      omega)
  exact ⟨m, ⟨o1.starting, o1.verAtStarting, o1.upcoming⟩, updated, ls', hF, ho1, h, k1, k4, by rw [k5, k6]; exact hR, n1, n3, n2, n4⟩

end

/-! ### Examples -/

/-- versions 0 and 1 of the label, and a key of another label -/
def watchMap : List (Bytes × Bytes) := [([0x80], [167]), ([0x40], [156]), ([0xC0], [5])]

/-- six log entries; versions 0 and 1 of the label were added in entry 3.  With a reasonable monitoring window of 10 (that of
`soundClient`) only entry 3, the root, is distinguished. -/
def watchLog : List Content :=
  [⟨1, [([0xC0], [5])]⟩, ⟨4, [([0xC0], [5])]⟩, ⟨7, [([0xC0], [5])]⟩, ⟨8, watchMap⟩, ⟨11, watchMap⟩, ⟨12, watchMap⟩]

/-- the greatest version of the label in each entry -/
def watchGreatest (x : Nat) : Int := if x < 3 then -1 else 1

/-- the state of a client that knows the log -/
def watchState : ClientState := ⟨⟨6, [0]⟩, none, [[158], [64]], [(3, ⟨8, [156]⟩), (5, ⟨12, [156]⟩)]⟩

/-- what the client has retained of the label -/
def watchVersions : List RetainedVersion :=
  [⟨0, [0x80], some [167]⟩, ⟨1, [0x40], some [156]⟩, ⟨2, [0x20], none⟩, ⟨3, [0x10], none⟩]

/-- The answer to a client that monitors version 1 in entry 4: entry 5 has versions 0 and 1. -/
def watchRes : MonitorResponse := ⟨⟨none, none⟩, ⟨[], [⟨[.inclusion 2, .inclusion 1], [[33]]⟩], [], []⟩⟩

/-- An owner who created versions 0 and 1 in entry 3, and has monitored the label up to entry 2. -/
def watchOwner : LabelOwnerState := ⟨2, -1, [3, 3]⟩

/-- The answer to them: in addition, 1 is the greatest version in entry 3. -/
def watchOwnerRes : MonitorResponse :=
  ⟨⟨none, none⟩, ⟨[], [⟨[.inclusion 2, .inclusion 1], [[33]]⟩, ⟨[.inclusion 2, .inclusion 1,
    .nonInclusionLeaf [0x40] [156] 1, .nonInclusionLeaf [0x40] [156] 1], [[33]]⟩], [], []⟩⟩

/-- An owner who created version 0 only, and does not know that there is a version 1. -/
def hiddenOwner : LabelOwnerState := ⟨2, -1, [3]⟩

/-- what they have retained -/
def hiddenVersions : List RetainedVersion := [⟨0, [0x80], some [167]⟩, ⟨1, [0x40], none⟩]

/-- The answer that hides version 1 from them: it is "shown" to be absent from entry 3 by naming its own leaf. -/
def hiddenRes : MonitorResponse :=
  ⟨⟨none, none⟩, ⟨[], [⟨[.inclusion 2], [[56], [33]]⟩, ⟨[.inclusion 2, .nonInclusionLeaf [0x40] [156] 1], [[33]]⟩], [], []⟩⟩

theorem watch_log : IsLog toySuite watchLog := by
  refine ⟨⟨?_, by decide⟩, ?_⟩
  · intro c hc
    simp only [watchLog, List.mem_cons, List.not_mem_nil, or_false] at hc
    rcases hc with rfl | rfl | rfl | rfl | rfl | rfl <;> exact ⟨by decide, by decide⟩
  · intro i j a b hij ha hb
    have hj : j < 6 := (List.getElem?_eq_some_iff.1 hb).1
    have hi : i < 6 := (List.getElem?_eq_some_iff.1 ha).1
    obtain rfl | rfl | rfl | rfl | rfl | rfl : i = 0 ∨ i = 1 ∨ i = 2 ∨ i = 3 ∨ i = 4 ∨ i = 5 := by omega
    all_goals obtain rfl | rfl | rfl | rfl | rfl | rfl : j = 0 ∨ j = 1 ∨ j = 2 ∨ j = 3 ∨ j = 4 ∨ j = 5 := by omega
    all_goals first | omega | (cases ha; cases hb; decide)

theorem watch_label : LabelIn watchLog soundOut watchGreatest := by
  refine ⟨?_, ?_⟩
  · intro x c hc v _
    have hx : x < 6 := (List.getElem?_eq_some_iff.1 hc).1
    have hv : v = 0 ∨ v = 1 ∨ v = 2 ∨ (2 < v ∧ soundOut v = [0x10]) := by
      unfold soundOut
      split
      · exact Or.inl ‹_›
      split
      · exact Or.inr (Or.inl ‹_›)
      split
      · exact Or.inr (Or.inr (Or.inl ‹_›))
      · exact Or.inr (Or.inr (Or.inr ⟨by omega, rfl⟩))
    have key : c.map = (if x < 3 then [([0xC0], [5])] else watchMap) := by
      obtain rfl | rfl | rfl | rfl | rfl | rfl : x = 0 ∨ x = 1 ∨ x = 2 ∨ x = 3 ∨ x = 4 ∨ x = 5 := by omega
      all_goals cases hc; rfl
    rw [key]
    unfold watchGreatest
    by_cases h3 : x < 3
    · simp only [h3, if_true]
      rcases hv with rfl | rfl | rfl | ⟨h, e⟩
      · decide
      · decide
      · decide
      · rw [e]; constructor
        · intro h'; exact absurd h' (by decide)
        · intro h'; omega
    · simp only [h3, if_false]
      rcases hv with rfl | rfl | rfl | ⟨h, e⟩
      · decide
      · decide
      · decide
      · rw [e]; constructor
        · intro h'; exact absurd h' (by decide)
        · intro h'; omega
  · intro i j hij _
    unfold watchGreatest
    split <;> split <;> omega

theorem watch_retains : Retains toySuite watchLog watchState.fullSubtrees watchState.logEntries := by
  refine ⟨by decide +kernel, ?_⟩
  intro e he
  simp only [watchState, List.mem_cons, List.not_mem_nil, or_false] at he
  rcases he with rfl | rfl
  · exact ⟨_, rfl, by decide +kernel⟩
  · exact ⟨_, rfl, by decide +kernel⟩

theorem watchLog_strings : logStrings toySuite watchLog =
    [[1, 158, 1, 64], [1, 76, 1, 117], [0, 202, 0, 211], [0, 220, 0, 90], [0, 99, 0, 102], [0, 0, 0, 0, 0, 0, 0, 1, 33],
     [0, 0, 0, 0, 0, 0, 0, 4, 33], [0, 0, 0, 0, 0, 0, 0, 7, 33], [0, 0, 0, 0, 0, 0, 0, 8, 156],
     [0, 0, 0, 0, 0, 0, 0, 11, 156], [0, 0, 0, 0, 0, 0, 0, 12, 156], [2, 192, 5], [2, 192, 5], [2, 192, 5], [3, 56, 15],
     [2, 64, 156], [3, 3, 33], [2, 128, 167], [2, 192, 5], [3, 56, 15], [2, 64, 156], [3, 3, 33], [2, 128, 167],
     [2, 192, 5], [3, 56, 15], [2, 64, 156], [3, 3, 33], [2, 128, 167], [2, 192, 5]] := by decide +kernel

/-- The hypotheses of `C69_contact` are met, and no strings collide: the client has found that version 1 is in entry 5, which it
now monitors. -/
example : MonitorSetting soundClient watchLog soundOut watchGreatest watchVersions [⟨4, 1⟩] none ∧
    watchState.treeHead.treeSize = watchLog.length ∧ FromWire toySuite watchRes.monitor ∧
    (Client.contactMonitor soundClient 12 (some watchState) ⟨[⟨4, 1⟩], none, watchVersions⟩ ⟨some 6, [10], [⟨4, 1⟩]⟩
      watchRes {}).toOption.isSome = true ∧
    (checkedMonitor soundClient 12 (some watchState) (some 6) watchVersions [⟨4, 1⟩] none watchRes).toOption.map (·.1.contact) =
      some (some [(5, 1)]) ∧
    ¬ HashBroken toySuite (logStrings toySuite watchLog)
      (monitorStrings soundClient 12 (some watchState) (some 6) watchVersions [⟨4, 1⟩] none watchRes) := by
  refine ⟨⟨toySuite_good, watch_log, watch_label, by decide, by decide, by decide, by rintro o ⟨⟩⟩, rfl, ⟨by decide, ?_⟩,
    by decide +kernel, by decide +kernel, ?_⟩
  · intro pf hpf
    obtain rfl := List.mem_singleton.1 hpf
    refine ⟨by decide, ?_⟩
    intro v c d h
    simp at h
  · have h : monitorStrings soundClient 12 (some watchState) (some 6) watchVersions [⟨4, 1⟩] none watchRes =
        [[1, 158, 1, 64], [3, 56, 15], [2, 64, 156], [3, 3, 33], [2, 128, 167]] := by decide +kernel
    rw [h, watchLog_strings]
    unfold HashBroken LogSpec.Collides PrefixSpec.ZeroDigest
    decide +kernel

/-- The hypotheses of `C70_owner_partial` are met, and no strings collide: the owner has found that 1 is the greatest version in entry 3. -/
example : MonitorSetting soundClient watchLog soundOut watchGreatest watchVersions [⟨4, 1⟩] (some watchOwner) ∧
    FromWire toySuite watchOwnerRes.monitor ∧
    (∀ e ∈ monitorEvals soundClient 12 (some watchState) (some 6) watchVersions [⟨4, 1⟩] (some watchOwner) watchOwnerRes,
      Consistent e.1 e.2) ∧
    (Client.ownerMonitor soundClient 12 (some watchState) ⟨[⟨4, 1⟩], some watchOwner, watchVersions⟩ watchOwner
      ⟨some 6, [10], [⟨4, 1⟩], 2, some 1⟩ watchOwnerRes {}).toOption.isSome = true ∧
    (checkedMonitor soundClient 12 (some watchState) (some 6) watchVersions [⟨4, 1⟩] (some watchOwner) watchOwnerRes).toOption.map
      (·.1.owner) = some (some ⟨3, 1, []⟩) ∧
    ¬ HashBroken toySuite (logStrings toySuite watchLog)
      (monitorStrings soundClient 12 (some watchState) (some 6) watchVersions [⟨4, 1⟩] (some watchOwner) watchOwnerRes) := by
  refine ⟨⟨toySuite_good, watch_log, watch_label, by decide, by decide, by decide, ?_⟩, ⟨by decide, ?_⟩, ?_,
    by decide +kernel, by decide +kernel, ?_⟩
  · rintro o ⟨⟩
    exact ⟨by unfold Owner.WF; decide, by decide⟩
  · intro pf hpf
    simp only [watchOwnerRes, List.mem_cons, List.not_mem_nil, or_false] at hpf
    rcases hpf with rfl | rfl
    · refine ⟨by decide, ?_⟩
      intro v c d h
      simp at h
    · refine ⟨by decide, ?_⟩
      intro v c d h
      simp at h
      obtain ⟨rfl, rfl, rfl⟩ := h
      decide
  · have h : monitorEvals soundClient 12 (some watchState) (some 6) watchVersions [⟨4, 1⟩] (some watchOwner) watchOwnerRes =
        [([⟨[0x80], [167]⟩, ⟨[0x40], [156]⟩], ⟨[.inclusion 2, .inclusion 1], [[33]]⟩),
         ([⟨[0x80], [167]⟩, ⟨[0x40], [156]⟩, ⟨[0x10], []⟩, ⟨[0x20], []⟩], ⟨[.inclusion 2, .inclusion 1,
          .nonInclusionLeaf [0x40] [156] 1, .nonInclusionLeaf [0x40] [156] 1], [[33]]⟩)] := by decide +kernel
    rw [h]
    intro e he
    simp only [List.mem_cons, List.not_mem_nil, or_false] at he
    rcases he with rfl | rfl
    · intro e r her
      simp only [List.zip_cons_cons, List.zip_nil_left, List.mem_cons, List.not_mem_nil, or_false, Prod.mk.injEq] at her
      rcases her with ⟨rfl, rfl⟩ | ⟨rfl, rfl⟩ <;> simp [Prefix.Res.isInclusion]
    · intro e r her
      simp only [List.zip_cons_cons, List.zip_nil_left, List.mem_cons, List.not_mem_nil, or_false, Prod.mk.injEq] at her
      rcases her with ⟨rfl, rfl⟩ | ⟨rfl, rfl⟩ | ⟨rfl, rfl⟩ | ⟨rfl, rfl⟩ <;> simp [Prefix.Res.isInclusion]
  · have h : monitorStrings soundClient 12 (some watchState) (some 6) watchVersions [⟨4, 1⟩] (some watchOwner) watchOwnerRes =
        [[1, 158, 1, 64], [3, 56, 15], [2, 64, 156], [3, 3, 33], [2, 128, 167], [3, 56, 15], [2, 64, 156], [3, 3, 33], [2, 128, 167]] := by
      decide +kernel
    rw [h, watchLog_strings]
    unfold HashBroken LogSpec.Collides PrefixSpec.ZeroDigest
    decide +kernel

/-- **C70 is false without the proviso.**  The owner created version 0 in entry 3 and nothing else; entry 3 of the log, which is
distinguished, has a version 1 too, and no strings collide.  The owner accepts the answer that hides version 1, and goes on from
entry 3. -/
theorem C70_hidden_accepted :
    MonitorSetting soundClient watchLog soundOut watchGreatest hiddenVersions [⟨4, 0⟩] (some hiddenOwner) ∧
    watchState.treeHead.treeSize = watchLog.length ∧ Retains toySuite watchLog watchState.fullSubtrees watchState.logEntries ∧
    FromWire toySuite hiddenRes.monitor ∧
    (Client.ownerMonitor soundClient 12 (some watchState) ⟨[⟨4, 0⟩], some hiddenOwner, hiddenVersions⟩ hiddenOwner
      ⟨some 6, [10], [⟨4, 0⟩], 2, some 0⟩ hiddenRes {}).toOption.isSome = true ∧
    (checkedMonitor soundClient 12 (some watchState) (some 6) hiddenVersions [⟨4, 0⟩] (some hiddenOwner) hiddenRes).toOption.map
      (·.1.owner) = some (some ⟨3, 0, []⟩) ∧
    (ownerOf hiddenOwner).versionAt 3 = 0 ∧ watchGreatest 3 = 1 ∧
    ¬ HashBroken toySuite (logStrings toySuite watchLog)
      (monitorStrings soundClient 12 (some watchState) (some 6) hiddenVersions [⟨4, 0⟩] (some hiddenOwner) hiddenRes) := by
  refine ⟨⟨toySuite_good, watch_log, watch_label, by decide, by decide, by decide, ?_⟩, rfl, watch_retains, ⟨by decide, ?_⟩,
    by decide +kernel, by decide +kernel, by decide, by decide, ?_⟩
  · rintro o ⟨⟩
    exact ⟨by unfold Owner.WF; decide, by decide⟩
  · intro pf hpf
    simp only [hiddenRes, List.mem_cons, List.not_mem_nil, or_false] at hpf
    rcases hpf with rfl | rfl
    · refine ⟨by decide, ?_⟩
      intro v c d h
      simp at h
    · refine ⟨by decide, ?_⟩
      intro v c d h
      simp at h
      obtain ⟨rfl, rfl, rfl⟩ := h
      decide
  · have h : monitorStrings soundClient 12 (some watchState) (some 6) hiddenVersions [⟨4, 0⟩] (some hiddenOwner) hiddenRes =
        [[1, 158, 1, 64], [3, 56, 15], [3, 3, 33], [2, 128, 167], [3, 56, 15], [2, 64, 156], [3, 3, 33], [2, 128, 167]] := by
      decide +kernel
    rw [h, watchLog_strings]
    unfold HashBroken LogSpec.Collides PrefixSpec.ZeroDigest
    decide +kernel

end Katie.Props
