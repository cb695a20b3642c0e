import Verif.Lemmas.UpdateSound
import Verif.Props.C72_InitSound

/-!
# C73, C74: what the owner of a label has found out when they accept the answer to an update

The setting is that of C60 and C69-C72: the log is `W`, `out v` is the VRF output of version `v` of the label, and `g x` the
greatest version in entry `x`.  The response is any value of the right type.
-/

namespace Katie.Props
open Katie Katie.Wire Katie.Alg Katie.Ladder Katie.Server Katie.Client Katie.CommittedSpec Katie.SearchTree Katie.SearchSpec Katie.ServedSpec

/-- `v` is in the ladder for the greatest version that the owner knows of, or it is 0 if they know of none: these are the versions
that the binary ladder of an update response leaves out -/
def InOldLadder (o : LabelOwnerState) (v : Nat) : Prop :=
  if (ownerOf o).greatest < 0 then v = 0
  else ∃ l, searchBinaryLadder (ownerOf o).greatest.toNat (ownerOf o).greatest.toNat [] [] = .ok l ∧ v ∈ l

/-- `v` is in the ladder for the last of `k` new versions -/
def InNewLadder (o : LabelOwnerState) (k v : Nat) : Prop :=
  ∃ l, searchBinaryLadder ((ownerOf o).greatest + k).toNat ((ownerOf o).greatest + k).toNat [] [] = .ok l ∧ v ∈ l

/-- the steps of `StreamVerifier.Verify` up to the end of the algorithm: the program, and the verifier before and after it -/
def updateSteps (env : CEnv) (now : Nat) (sv : Stream) (res : UpdateResponse) : G (Prog Monitor × Verifier × Verifier) := do
  let (startVer, coms) ← verifyValues env sv (if res.values.length = 0 then sv.req.values else res.values) res
  let ladder ← updateLadderVersions startVer ((startVer + (res.info.length - 1)) % 2 ^ 32)
  let v ← newVerifier sv.state (getLast sv.state) res.fullTreeHead res.update
  let v ← addRetainedVersions env sv.ls.versions v
  let v ← processLadder env sv.req.label res.binaryLadder ladder coms v
  let v2 ← v.updateView env now
  let prog := updateProg env.cfg v2.n (contactMap sv.ls.contact) (sv.ls.owner.map ownerOf) res.position res.info.length
  let (_, v3) ← v2.run env prog
  pure (prog, v2, v3)

/-- the prefix proofs that the client evaluates, each with the entries it evaluates it for -/
def updateEvals (env : CEnv) (now : Nat) (sv : Stream) (res : UpdateResponse) : List (List Prefix.Entry × Prefix.Proof) :=
  match updateSteps env now sv res with
  | .ok (prog, v2, _) => Provider.evals env.cs prog v2.p
  | .error _ => []

/-- the strings hashed by the client when it verifies the answer (those for the log and the prefix trees) -/
def updateStrings (env : CEnv) (now : Nat) (sv : Stream) (res : UpdateResponse) : List Bytes :=
  match updateSteps env now sv res with
  | .ok (_, _, v3) => finishStrings env.cs v3.n v3.nP v3.m v3.p ++ proofStrings env.cs (updateEvals env now sv res)
  | .error _ => []

/-- What the owner has found out.  `values` are those of the answer or else of the request, and `k` is their number. -/
structure UpdateFound (env : CEnv) (W : List Content) (out : Nat → Bytes) (g : Nat → Int) (sv : Stream) (o : LabelOwnerState)
    (res : UpdateResponse) : Prop where
  /-- there is a value and an opening for each new version, and version numbers fit in 32 bits -/
  count : 0 < res.info.length ∧ res.info.length = (sv.valuesOf res).length ∧ (ownerOf o).greatest + res.info.length < 2 ^ 32 - 1
  /-- the position is an entry of the log right of all versions known before -/
  position : (ownerOf o).lastUpdate < res.position ∧ res.position < W.length
  /-- the entries of the right edge of the log before it, unless distinguished or checked before, have no later version than those known before -/
  before : ∀ y, OnFrontier res.position y → ¬ Distinguished (Wide env.cfg.rmw) (timeAt W) W.length y → (ownerOf o).lastUpdate < y →
    g y ≤ (ownerOf o).greatest
  /-- unless the entry is distinguished, the last of the new versions is the greatest one in it -/
  greatest : ¬ Distinguished (Wide env.cfg.rmw) (timeAt W) W.length res.position → g res.position = (ownerOf o).greatest + res.info.length
  /-- Each new value is in the entry as the version it becomes, except for the versions that are in the ladder for the greatest
  version known before, and, if the entry is distinguished, in the ladder for the last new one. -/
  values : ∀ (i : Nat) (val : Bytes) (info : UpdateInfo), (sv.valuesOf res)[i]? = some val → res.info[i]? = some info →
    ¬ InOldLadder o (nextVersion o + i) →
    ¬ (Distinguished (Wide env.cfg.rmw) (timeAt W) W.length res.position ∧ InNewLadder o res.info.length (nextVersion o + i)) →
    ∃ com, computeCommitment env info.opening sv.req.label (nextVersion o + i) ⟨val, info.signature⟩ = .ok com ∧
      Committed W out (nextVersion o + i) com res.position
  /-- For those in the old ladder the commitment is the one that the client had retained before. -/
  retained : ∀ i, i < res.info.length → InOldLadder o (nextVersion o + i) →
    ¬ (Distinguished (Wide env.cfg.rmw) (timeAt W) W.length res.position ∧ InNewLadder o res.info.length (nextVersion o + i)) →
    Kept W out sv.ls.versions res.position (nextVersion o + i)

section
variable {env : CEnv} {W : List Content} {out : Nat → Bytes} {g : Nat → Int} {res : UpdateResponse} {now : Nat} {sv sv' : Stream}
  {s : ClientState} {o : LabelOwnerState} {st st' : CStore}

theorem greatestAt_le {o : Owner} (h : o.WF) (y : Nat) : o.greatestAt y ≤ o.greatest := by
  rw [greatestAt_eq h]
  unfold Owner.versionAt Owner.greatest
  have := List.countP_le_length (p := fun u => decide (u ≤ y)) (l := o.upcoming)
  omega

theorem nextVersion_cast (hge : -1 ≤ (ownerOf o).greatest) (hlt : (ownerOf o).greatest + 1 < 2 ^ 32) :
    (nextVersion o : Int) = (ownerOf o).greatest + 1 := by
  unfold nextVersion Owner.greatest ownerOf at *
  simp only at *
  split
  · omega
  · rw [Nat.mod_eq_of_lt (by omega)]; omega

/-- The versions in the binary ladder of an update response. -/
theorem ladder_versions {k : Nat} {ladder : List Nat} (hge : -1 ≤ (ownerOf o).greatest) (hk : 1 ≤ k) (hlt : (ownerOf o).greatest + k < 2 ^ 32 - 1)
    (hl : updateLadderVersions (nextVersion o) ((nextVersion o + (k - 1)) % 2 ^ 32) = .ok ladder) :
    ∀ i, i < k → (nextVersion o + i ∈ ladder ↔ ¬ InOldLadder o (nextVersion o + i)) := by
  have hc := nextVersion_cast hge (by omega)
  have hend : (nextVersion o + (k - 1)) % 2 ^ 32 = ((ownerOf o).greatest + k).toNat := by
    rw [Nat.mod_eq_of_lt (by omega)]; omega
  obtain ⟨le, drop, h1, h2, h3⟩ := updateLadderVersions_mem hl
  intro i hi
  rw [h3]
  have hin : nextVersion o + i ∈ le ∨ (nextVersion o ≤ nextVersion o + i ∧ nextVersion o + i < (nextVersion o + (k - 1)) % 2 ^ 32) := by
    by_cases hlast : i = k - 1
    · left
      subst hlast
      rw [hend] at h1
      have : nextVersion o + (k - 1) = ((ownerOf o).greatest + k).toNat := by omega
      rw [this]
      have hsmall : ((ownerOf o).greatest + k).toNat < 2 ^ 31 - 1 := by
        by_contra hcon
        unfold searchBinaryLadder baseBinaryLadder at h1
        rw [base_diverges (by omega) (by omega)] at h1
        cases h1
      obtain ⟨b, hb, -, -, -, hb2, -⟩ := Server.ladder_self hsmall
      rw [h1] at hb
      cases hb
      exact hb2
    · right; omega
  unfold InOldLadder
  by_cases h0 : nextVersion o = 0
  · rw [if_pos h0] at h2
    rw [if_pos (by omega), h2]
    simp only [List.mem_singleton]
    tauto
  · rw [if_neg h0] at h2
    rw [if_neg (by omega)]
    have : nextVersion o - 1 = (ownerOf o).greatest.toNat := by omega
    rw [this] at h2
    constructor
    · rintro ⟨-, hn⟩ ⟨l, hl1, hl2⟩
      rw [h2] at hl1; cases hl1
      exact hn hl2
    · intro hn
      exact ⟨hin, fun hd => hn ⟨drop, h2, hd⟩⟩

/-- The first new version is always one of those that the ladder leaves out. -/
theorem first_in_old_ladder (hge : -1 ≤ (ownerOf o).greatest) (hlt : (ownerOf o).greatest < 2 ^ 31 - 1) : InOldLadder o (nextVersion o) := by
  have hc := nextVersion_cast hge (by omega)
  unfold InOldLadder
  split
  · omega
  · obtain ⟨l, hl, -⟩ := Server.ladder_self (t := (ownerOf o).greatest.toNat) (by omega)
    have := next_in_ladder (by omega) hl
    refine ⟨l, hl, ?_⟩
    rwa [show (ownerOf o).greatest.toNat + 1 = nextVersion o by omega] at this

/-- **C73, in general.**  The owner has retained no commitment for the next version of the label (as after an initialization that
was answered correctly).  Whatever the answer to an update: if they accept it, then the new versions are not monitored in the entry, and the
next version still has no commitment. -/
theorem C73_not_monitored (hlog : IsLog env.cs W) (hst : EntriesOk env.cs W (some s)) (hstate : sv.state = some s) (ho : sv.ls.owner = some o)
    (hwf : (ownerOf o).WF) (hge : -1 ≤ o.verAtStarting)
    (hnone : ∀ r ∈ sv.ls.versions, r.version = nextVersion o → r.commitment = none)
    (h : sv.verify env now res st = .ok (sv', st')) :
    sv'.ls.contact = contactStruct (contactMap sv.ls.contact) ∧ InNewLadder o res.info.length (nextVersion o) ∧
      ∀ r ∈ sv'.ls.versions, r.version = nextVersion o → r.commitment = none := by
  obtain ⟨coms, ladder, v0, v1, v2, v3, v4, m, m', contact, updated, ls', c0, c1, hcoms, hl, h0, hF01, ⟨Vs, b1⟩, hV, hK, hvv, ⟨va, hva, hvb⟩, h2, h3, h4, hc, hm, h6, h7, rfl, hV4⟩ :=
    verify_parts hstate ho h
  obtain ⟨k0, hR, k1, -⟩ := setup_begun hlog.toWellFormed hst h0 b1 h2
  have hg : -1 ≤ (ownerOf o).greatest := by
    unfold Owner.greatest ownerOf
    simp only
    omega
  have hr := (run_frame h3).2
  obtain ⟨-, -, hruns, -⟩ := run_spec (Received.handle env.cs)
    (updateProg env.cfg v2.n (contactMap sv.ls.contact) (some (ownerOf o)) res.position res.info.length) v2.p hR.ts
  rw [hr] at hruns
  have hok := updateProg_noCatch.runs hruns
  obtain ⟨z, hf⟩ := client_tfacts (cs := env.cs) (updateProg env.cfg v2.n (contactMap sv.ls.contact) (some (ownerOf o)) res.position res.info.length)
    v2.p hR.ts hR.inv hR.times hok v3.p (by rw [hr]; exact Grows.refl _) (fun e he => he)
  rw [hR.tracker] at hf
  obtain ⟨-, -, p3, p4, p5, hU⟩ := update_shown (greatestAt_le hwf) hruns hf
  have hcast := nextVersion_cast hg (by omega)
  have hnot := first_not_in_ladder (by omega) hl
  -- nothing is known about the commitment of the first new version
  have hcom : ∀ k, v1.p.state.versions.lookup (nextVersion o) = some k → k.com = none := by
    intro k hk
    rcases hV _ _ hk with hk | ⟨r, r1, r2, -, r3⟩ | hk
    · rw [k0] at hk; cases hk
    · rw [r3]; exact hnone r r1 r2
    · exact absurd hk.1 hnot
  have hshown : ∀ x, ¬ Shown env.cs v2.p.state.versions res.update.prefixProofs
      (Provider.evals env.cs (updateProg env.cfg v2.n (contactMap sv.ls.contact) (some (ownerOf o)) res.position res.info.length) v2.p)
      (fun x => v3.p.prefixTrees.lookup x) x (nextVersion o) true := by
    rintro x ⟨es, pf, root, k, r, -, -, -, -, -, q1, -, -, q2⟩
    rw [k1] at q1
    exact q2 rfl (hcom k q1)
  obtain ⟨lad, l1, l2, l3⟩ := hU.ladder
  have hin : nextVersion o ∈ lad := by
    by_contra hni
    exact hshown _ (l2 _ (by omega) (by omega) hni).2
  obtain ⟨w1, w2, w3⟩ := updateRetainedVersions_ok h6
  refine ⟨?_, ⟨lad, l1, hin⟩, ?_⟩
  · rcases l3 with ⟨l3, -⟩ | ⟨-, -, -, -, l3⟩
    · rw [l3] at hc
      simp only
      rw [w1]
      exact (Except.ok.inj hc).symm
    · have := l3 _ hin (by omega)
      rw [decide_eq_true (by omega)] at this
      exact absurd this (hshown _)
  · intro r hr1 hr2
    have := w3 r hr1
    rw [hr2, hV4] at this
    exact hcom _ this

/-- **C74 (partial).**  A client whose state is right for the log `W` accepts the answer to an update.  Then `UpdateFound` holds: the
position is a new one, the label was as the owner knew it in the entries before, and the new values are in the entry, each with a
commitment that the owner computed.  The new client state is right for `W`, and the new label state is one to monitor with (C70), with the new
versions expected from the position on.  Or two of the strings hashed are a collision.  (What is missing: the values of the versions
that the binary ladder leaves out, which always includes the first new one, see `C74_wrong_value_accepted`; and the proviso
`Consistent`, as in C60 and C70.) -/
theorem C74_update_partial (hS : Setting env sv.req.label W out g) (hM : MonitorSetting env W out g sv.ls.versions sv.ls.contact (some o))
    (hstate : sv.state = some s) (hsize : s.treeHead.treeSize = W.length) (hret : Retains env.cs W s.fullSubtrees s.logEntries)
    (ho : sv.ls.owner = some o) (hge : -1 ≤ o.verAtStarting) (hwire : FromWire env.cs res.update)
    (hclean : ∀ e ∈ updateEvals env now sv res, Consistent e.1 e.2) (h : sv.verify env now res st = .ok (sv', st')) :
    (UpdateFound env W out g sv o res ∧
      ∃ updated, sv'.state = some updated ∧ putLabelState st updated sv.req.label sv'.ls o.starting = .ok st' ∧
      res.fullTreeHead.treeHead = none ∧ updated.treeHead = s.treeHead ∧ Retains env.cs W updated.fullSubtrees updated.logEntries ∧
      sv'.ls.owner = some { o with upcomingVers := o.upcomingVers ++ List.replicate res.info.length res.position } ∧
      (∀ e, e ∈ sv'.ls.contact ↔ (e ∈ sv.ls.contact ∧ (e.position ≠ res.position ∨ Distinguished (Wide env.cfg.rmw) (timeAt W) W.length res.position)) ∨
        (¬ Distinguished (Wide env.cfg.rmw) (timeAt W) W.length res.position ∧ e = ⟨res.position, ((ownerOf o).greatest + res.info.length).toNat⟩)) ∧
      MonitorSetting env W out g sv'.ls.versions sv'.ls.contact sv'.ls.owner) ∨
    HashBroken env.cs (logStrings env.cs W) (updateStrings env now sv res) := by
  obtain ⟨coms, ladder, v0, v1, v2, v3, v4, m, m', contact, updated, ls', c0, c1, hcoms, hl, h0, hF01, ⟨Vs, b1⟩, hV, hK, hvv, ⟨va, hva, hvb⟩, h2, h3, h4, hc, hm, h6, h7, rfl, hV4⟩ :=
    verify_parts hstate ho h
  have hsteps : updateSteps env now sv res =
      .ok (updateProg env.cfg v2.n (contactMap sv.ls.contact) (some (ownerOf o)) res.position res.info.length, v2, v3) := by
    unfold updateSteps
    have hgl : getLast (some s) = some s.treeHead.treeSize := rfl
    simp only [hvv, hl, hgl, hstate, h0, hva, hvb, h2, ho, Option.map_some, h3, G.ok_bind, G.pure_eq]
  have hev : updateEvals env now sv res =
      Provider.evals env.cs (updateProg env.cfg v2.n (contactMap sv.ls.contact) (some (ownerOf o)) res.position res.info.length) v2.p := by
    unfold updateEvals; rw [hsteps]
  have hstr : updateStrings env now sv res = finishStrings env.cs v3.n v3.nP v3.m v3.p ++
      proofStrings env.cs (Provider.evals env.cs
        (updateProg env.cfg v2.n (contactMap sv.ls.contact) (some (ownerOf o)) res.position res.info.length) v2.p) := by
    unfold updateStrings; rw [hsteps, hev]
  rw [hev] at hclean
  rw [hstr]
  have hst : EntriesOk env.cs W (some s) := by
    intro s' hs' e he
    cases hs'
    exact hret.entries e he
  obtain ⟨hwf, hlt⟩ := hM.owner o rfl
  have hg : -1 ≤ (ownerOf o).greatest := by
    unfold Owner.greatest ownerOf
    simp only
    omega
  obtain ⟨k0, hR, k1, -⟩ := setup_begun hS.log.toWellFormed hst h0 b1 h2
  obtain ⟨hnone, hn, hmn, result, p, hfin, hroot, u1, u2, u3⟩ := same_head hS.suite hS.log.toWellFormed hsize hret h0 hF01 b1 h2 h3 h4
  have hF23 := (run_frame h3).1
  have hr := (run_frame h3).2
  have hn2 : v2.n = W.length := by rw [← hF23.n]; exact hn
  rw [hn2] at hr h3 hclean ⊢
  obtain ⟨-, -, hruns, -⟩ := run_spec (Received.handle env.cs)
    (updateProg env.cfg W.length (contactMap sv.ls.contact) (some (ownerOf o)) res.position res.info.length) v2.p hR.ts
  rw [hr] at hruns
  have hok := updateProg_noCatch.runs hruns
  obtain ⟨z, hf⟩ := client_tfacts (cs := env.cs)
    (updateProg env.cfg W.length (contactMap sv.ls.contact) (some (ownerOf o)) res.position res.info.length)
    v2.p hR.ts hR.inv hR.times hok v3.p (by rw [hr]; exact Grows.refl _) (fun e he => he)
  rw [hR.tracker] at hf
  obtain ⟨p1, p2, p3, p4, p5, hU⟩ := update_shown (greatestAt_le hwf) hruns hf
  have hcast := nextVersion_cast hg (by omega)
  have hend : (nextVersion o + (res.info.length - 1)) % 2 ^ 32 < 2 ^ 32 := Nat.mod_lt _ (by norm_num)
  have hout : ∀ v k, v1.p.state.versions.lookup v = some k → v < 2 ^ 32 ∧ k.vrf = out v := by
    intro v k hk
    rcases hV _ _ hk with hk | ⟨r, r1, rfl, r2, -⟩ | ⟨n1, i, step, n2, n3, -⟩
    · rw [k0] at hk; cases hk
    · rw [r2]; exact hM.outputs r r1
    · have := updateLadderVersions_lt hend hl v n1
      exact ⟨this, hS.vrf v i _ _ this n2 n3⟩
  rcases after_begun hS.suite hS.log hS.lab hwire hR (fun v k hk => hout v k (by rw [← k1]; exact hk)) hclean h3 hn hmn hfin hroot with ⟨hL, hT, hC⟩ | hB
  swap
  · exact Or.inr hB
  left
  -- what the algorithm has checked
  obtain ⟨hpos, t, tr1, htr, hrun1⟩ := updateProg_parts hruns
  have hts := hf.tsTrace hT
  obtain ⟨o', hOk⟩ := C56_update_sound rfl hwf hg (timeAt_good hS.log) (by rw [htr] at hts; exact fun x a hx => hts x a (List.mem_cons_of_mem _ hx)) hrun1
  obtain ⟨lad, l1, l2, l3⟩ := hU.ladder
  have hsearch : ¬ Distinguished (Wide env.cfg.rmw) (timeAt W) W.length res.position →
      m.contact = some (PMap.set (contactMap sv.ls.contact) res.position ((ownerOf o).greatest + res.info.length).toNat) ∧
        res.position ∈ v3.p.timestamps.map Prod.fst ∧ ((ownerOf o).greatest + res.info.length).toNat ∈ lad ∧
        ((ownerOf o).greatest + res.info.length).toNat + 1 ∈ lad ∧
        ∀ v ∈ lad, (ownerOf o).greatest < v → Shown env.cs v2.p.state.versions res.update.prefixProofs
          (Provider.evals env.cs (updateProg env.cfg W.length (contactMap sv.ls.contact) (some (ownerOf o)) res.position res.info.length) v2.p)
          (fun x => v3.p.prefixTrees.lookup x) res.position v (decide (v ≤ ((ownerOf o).greatest + res.info.length).toNat)) := by
    intro hnd
    rcases l3 with ⟨-, l3⟩ | l3
    · have := l3 _ (by rw [htr]; exact List.mem_cons_of_mem _ (hOk.nondist hnd).1)
      omega
    · exact l3
  -- every version that is looked up has been shown to be there
  have hthere : ∀ i, i < res.info.length →
      ¬ (Distinguished (Wide env.cfg.rmw) (timeAt W) W.length res.position ∧ InNewLadder o res.info.length (nextVersion o + i)) →
      ∃ c k com, W[res.position]? = some c ∧ v1.p.state.versions.lookup (nextVersion o + i) = some k ∧ k.com = some com ∧ (out (nextVersion o + i), com) ∈ c.map := by
    intro i hi hnot
    rw [← k1]
    by_cases hin : nextVersion o + i ∈ lad
    · have hnd : ¬ Distinguished (Wide env.cfg.rmw) (timeAt W) W.length res.position := fun hd => hnot ⟨hd, lad, l1, hin⟩
      obtain ⟨-, s2, -, -, s5⟩ := hsearch hnd
      have := s5 _ hin (by push_cast; omega)
      rw [decide_eq_true (by omega)] at this
      exact hC _ _ s2 this
    · obtain ⟨s1, s2⟩ := l2 _ (by push_cast; omega) (by push_cast; omega) hin
      exact hC _ _ s1 s2
  have hlv := ladder_versions hg (by omega) p5 hl
  obtain ⟨w1, w2, w3⟩ := updateRetainedVersions_ok h6
  have hm' : m' = { ownerOf o with upcoming := (ownerOf o).upcoming ++ List.replicate (res.info.length : Int).toNat res.position } := by
    have := hU.owner
    rw [hm] at this
    exact Option.some.inj this
  have hown : ls'.owner = some { o with upcomingVers := o.upcomingVers ++ List.replicate res.info.length res.position } := by
    rw [w2, hm']
    simp [ownerOf]
  obtain ⟨ck, cm⟩ := contactMap_spec hM.keys
  have hcontact : ∀ e, e ∈ ls'.contact ↔ (e ∈ sv.ls.contact ∧ (e.position ≠ res.position ∨ Distinguished (Wide env.cfg.rmw) (timeAt W) W.length res.position)) ∨
        (¬ Distinguished (Wide env.cfg.rmw) (timeAt W) W.length res.position ∧ e = ⟨res.position, ((ownerOf o).greatest + res.info.length).toNat⟩) := by
    intro e
    rw [w1]
    simp only
    by_cases hd : Distinguished (Wide env.cfg.rmw) (timeAt W) W.length res.position
    · have hcc : m.contact = some (contactMap sv.ls.contact) := hOk.dist hd
      rw [hcc] at hc
      rw [← Except.ok.inj hc, (contactStruct_spec ck).2 e, cm]
      simp [hd]
    · rw [(hsearch hd).1] at hc
      rw [← Except.ok.inj hc, (contactStruct_spec (ck.set _ _)).2 e]
      unfold PMap.set
      rw [List.mem_cons, List.mem_filter, cm]
      simp only [hd, or_false, not_false_eq_true, true_and, ne_eq, decide_eq_true_eq]
      constructor
      · rintro (h1 | h1)
        · right
          cases e
          simp only [Prod.mk.injEq] at h1
          rw [h1.1, h1.2]
        · left
          simpa using h1
      · rintro (h1 | rfl)
        · right
          simpa using h1
        · left; rfl
  have hkeys : ls'.contact.Pairwise (fun a b => a.position ≠ b.position) := by
    have hk' : ∀ pm, Keys pm → contactStruct? (some pm) = .ok contact → ls'.contact.Pairwise (fun a b => a.position ≠ b.position) := by
      intro pm hpm hcp
      rw [w1]
      simp only
      rw [← Except.ok.inj hcp]
      exact (contactStruct_spec hpm).1.imp (fun h => Nat.ne_of_lt h)
    rcases l3 with ⟨l3, -⟩ | ⟨l3, -⟩
    · exact hk' _ ck (by rw [← l3]; exact hc)
    · exact hk' _ (ck.set _ _) (by rw [← l3]; exact hc)
  refine ⟨⟨⟨c0, c1, p5⟩, ⟨p1, p2⟩, ?_, ?_, ?_, ?_⟩, updated, rfl, ?_, hnone, u1, by rw [u2, u3]; exact ⟨hL.heads, hL.entries⟩, hown, hcontact, ?_⟩
  · intro y hy hnd hlast
    have hylt : y < res.position := by
      obtain ⟨lo, anc, h', e⟩ := hy
      have := h'.bounds
      omega
    have hsh := hOk.previous y hy hnd hlast
    obtain ⟨q1, v, q2, q3⟩ := hU.before y hylt (hsh.mono (fun e he => by rw [htr]; exact List.mem_cons_of_mem _ he)) hg
    have := hT.shown _ _ _ q1 q3
    have := of_decide_eq_false this.symm
    omega
  · intro hnd
    obtain ⟨-, s2, s3, s4, s5⟩ := hsearch hnd
    have a1 := hT.shown _ _ _ s2 (s5 _ s3 (by omega))
    have a2 := hT.shown _ _ _ s2 (s5 _ s4 (by push_cast; omega))
    rw [decide_eq_true (by omega)] at a1
    rw [decide_eq_false (by omega)] at a2
    have a1 := of_decide_eq_true a1.symm
    have a2 := of_decide_eq_false a2.symm
    push_cast at a2
    omega
  · intro i val info hv hi hold hnot
    have hik : i < res.info.length := (List.getElem?_eq_some_iff.1 hi).1
    obtain ⟨c, k, com, d1, d2, d3, d4⟩ := hthere i hik hnot
    obtain ⟨-, e2⟩ := updateCommitments_lookup _ 0 _ (by rw [List.length_zip]; omega) hcoms
    obtain ⟨com', e3, e4⟩ := e2 i val info (by rw [List.getElem?_zip_eq_some]; exact ⟨hv, hi⟩)
    rw [Nat.zero_add] at e3 e4
    refine ⟨com', e3, c, d1, ?_⟩
    obtain ⟨-, _, step, -, -, hlc⟩ := hK _ _ d2 ((hlv i hik).2 hold)
    unfold ladderCommitment at hlc
    rw [e4] at hlc
    simp only at hlc
    split at hlc
    · cases hlc
    · have := Except.ok.inj hlc
      rw [d3] at this
      rw [Option.some.inj this]
      exact d4
  · intro i hik hold hnot
    obtain ⟨c, k, com, d1, d2, d3, d4⟩ := hthere i hik hnot
    rcases hV _ _ d2 with hk | ⟨r, r1, r2, -, r3⟩ | hk
    · rw [k0] at hk; cases hk
    · exact ⟨r, r1, r2, com, by rw [← r3]; exact d3, c, d1, d4⟩
    · exact absurd hold ((hlv i hik).1 hk.1)
  · rw [hm'] at h7; exact h7
  · refine ⟨hS.suite, hS.log, hS.lab, ?_, ?_, ?_, ?_⟩
    · intro r hr
      exact hout _ _ (by rw [← hV4]; exact w3 r hr)
    · exact hkeys
    · intro e he
      rcases (hcontact e).1 he with ⟨h1, -⟩ | ⟨-, rfl⟩
      · exact hM.inTree e h1
      · exact ⟨p2, by simp only; omega⟩
    · rw [hown]
      rintro o2 ⟨⟩
      obtain ⟨q1, q2, q3⟩ := hOk.owner
      rw [hm, hm'] at q1
      have q1 := Option.some.inj q1
      rw [← q1] at q2 q3
      constructor
      · simpa [ownerOf] using q2
      · unfold Owner.greatest at q3
        simp only [ownerOf, Int.toNat_natCast] at q3
        simp only
        unfold Owner.greatest ownerOf at p5
        simp only at p5
        rw [q3]
        omega

/-- **C73.**  In the same setting, an update is only accepted if the entry is distinguished and the next version is in the ladder for the last
new one, if the owner has retained no commitment for the next version. -/
theorem C73_only_distinguished (hS : Setting env sv.req.label W out g) (hM : MonitorSetting env W out g sv.ls.versions sv.ls.contact (some o))
    (hstate : sv.state = some s) (hsize : s.treeHead.treeSize = W.length) (hret : Retains env.cs W s.fullSubtrees s.logEntries)
    (ho : sv.ls.owner = some o) (hge : -1 ≤ o.verAtStarting) (hwire : FromWire env.cs res.update)
    (hclean : ∀ e ∈ updateEvals env now sv res, Consistent e.1 e.2)
    (hnone : ∀ r ∈ sv.ls.versions, r.version = nextVersion o → r.commitment = none) (h : sv.verify env now res st = .ok (sv', st')) :
    (Distinguished (Wide env.cfg.rmw) (timeAt W) W.length res.position ∧ InNewLadder o res.info.length (nextVersion o)) ∨
    HashBroken env.cs (logStrings env.cs W) (updateStrings env now sv res) := by
  rcases C74_update_partial hS hM hstate hsize hret ho hge hwire hclean h with ⟨hF, -⟩ | hB
  swap
  · exact Or.inr hB
  left
  by_contra hcon
  have hst : EntriesOk env.cs W (some s) := by
    intro s' hs' e he
    cases hs'
    exact hret.entries e he
  obtain ⟨-, ⟨l, hl, -⟩, -⟩ := C73_not_monitored hS.log hst hstate ho (hM.owner o rfl).1 hge hnone h
  have hg : -1 ≤ (ownerOf o).greatest := by
    unfold Owner.greatest ownerOf
    simp only
    omega
  have hlt : (ownerOf o).greatest < 2 ^ 31 - 1 := by
    by_contra hbig
    have := hF.count.2.2
    unfold searchBinaryLadder baseBinaryLadder at hl
    rw [base_diverges (by omega) (by omega)] at hl
    cases hl
  obtain ⟨r, r1, r2, com, r3, -⟩ := hF.retained 0 hF.count.1 (first_in_old_ladder hg hlt) hcon
  rw [hnone r r1 r2] at r3
  cases r3

end

/-! ### a log, an honest answer, and a wrong value that is accepted -/

/-- the label in entry 5 of `lateLog` -/
def lateMap : List (Bytes × Bytes) := [([0x80], [167]), ([0x40], [156]), ([0x20], [77]), ([0xC0], [5])]

/-- `watchLog` (C69), but version 2 was added in entry 5, with commitment 77 -/
def lateLog : List Content :=
  [⟨1, [([0xC0], [5])]⟩, ⟨4, [([0xC0], [5])]⟩, ⟨7, [([0xC0], [5])]⟩, ⟨8, watchMap⟩, ⟨11, watchMap⟩, ⟨12, lateMap⟩]

/-- the greatest version of the label in each entry -/
def lateGreatest (x : Nat) : Int := if x < 3 then -1 else if x < 5 then 1 else 2

/-- the state of a client that knows the log -/
def lateState : ClientState := ⟨⟨6, [0]⟩, none, [[158], [192]], [(3, ⟨8, [156]⟩), (5, ⟨12, [28]⟩)]⟩

/-- An answer to a client that wants to own the label, starting at entry 3: it is right, but for a commitment for version 2, which is not
in entry 3. -/
def plantedStart : OwnerInitResponse :=
  ⟨⟨none, none⟩, [1], [⟨[], some [167]⟩, ⟨[], some [156]⟩, ⟨[], some [77]⟩, ⟨[], none⟩],
   ⟨[], [⟨[.inclusion 2, .inclusion 1, .nonInclusionLeaf [0x40] [156] 1, .nonInclusionLeaf [0x40] [156] 1], [[33]]⟩], [], []⟩⟩

/-- what they retain -/
def plantedVersions : List RetainedVersion :=
  [⟨0, [0x80], some [167]⟩, ⟨1, [0x40], some [156]⟩, ⟨2, [0x20], some [77]⟩, ⟨3, [0x10], none⟩]

/-- the owner, who wants to add the value 5 -/
def lateStream : Stream := ⟨some lateState, ⟨[], some ⟨3, 1, []⟩, plantedVersions⟩, ⟨some 6, [10], some 1, [[5]]⟩⟩

/-- the answer: it is version 2, in entry 5 -/
def lateRes : UpdateResponse :=
  ⟨⟨none, none⟩, 5, [], [⟨[9], none⟩], [],
   ⟨[11], [⟨[.nonInclusionLeaf [0x40] [156] 1, .nonInclusionLeaf [0x40] [156] 1], [[15]]⟩,
     ⟨[.nonInclusionLeaf [0x20] [77] 2, .inclusion 2], [[56], [15]]⟩], [], [[230]]⟩⟩

theorem late_log : IsLog toySuite lateLog := by
  refine ⟨⟨?_, by decide⟩, ?_⟩
  · intro c hc
    simp only [lateLog, List.mem_cons, List.not_mem_nil, or_false] at hc
    rcases hc with rfl | rfl | rfl | rfl | rfl | rfl <;> exact ⟨by decide, by decide⟩
  · intro i j a b hij ha hb
    have hj : j < 6 := (List.getElem?_eq_some_iff.1 hb).1
    have hi : i < 6 := (List.getElem?_eq_some_iff.1 ha).1
    obtain rfl | rfl | rfl | rfl | rfl | rfl : i = 0 ∨ i = 1 ∨ i = 2 ∨ i = 3 ∨ i = 4 ∨ i = 5 := by omega
    all_goals obtain rfl | rfl | rfl | rfl | rfl | rfl : j = 0 ∨ j = 1 ∨ j = 2 ∨ j = 3 ∨ j = 4 ∨ j = 5 := by omega
    all_goals first | omega | (cases ha; cases hb; decide)

theorem late_retains : Retains toySuite lateLog lateState.fullSubtrees lateState.logEntries := by
  refine ⟨by decide +kernel, ?_⟩
  intro e he
  simp only [lateState, List.mem_cons, List.not_mem_nil, or_false] at he
  rcases he with rfl | rfl
  · exact ⟨_, rfl, by decide +kernel⟩
  · exact ⟨_, rfl, by decide +kernel⟩

theorem late_label : LabelIn lateLog soundOut lateGreatest := by
  refine ⟨?_, ?_⟩
  · intro x c hc v _
    have hx : x < 6 := (List.getElem?_eq_some_iff.1 hc).1
    have hv : v = 0 ∨ v = 1 ∨ v = 2 ∨ (2 < v ∧ soundOut v = [0x10]) := by
      unfold soundOut
      split
      · exact Or.inl ‹_›
      split
      · exact Or.inr (Or.inl ‹_›)
      split
      · exact Or.inr (Or.inr (Or.inl ‹_›))
      · exact Or.inr (Or.inr (Or.inr ⟨by omega, rfl⟩))
    obtain rfl | rfl | rfl | rfl | rfl | rfl : x = 0 ∨ x = 1 ∨ x = 2 ∨ x = 3 ∨ x = 4 ∨ x = 5 := by omega
    all_goals
      cases hc
      rcases hv with rfl | rfl | rfl | ⟨h, e⟩
      · decide
      · decide
      · decide
      · rw [e]
        unfold lateGreatest
        constructor
        · intro h'; exact absurd h' (by decide)
        · intro h'; simp at h'; omega
  · intro i j hij _
    unfold lateGreatest
    split <;> split <;> try split
    all_goals omega

theorem lateLog_strings : logStrings toySuite lateLog =
    [[1, 158, 1, 192], [1, 76, 1, 117], [0, 202, 0, 211], [0, 220, 0, 90], [0, 99, 0, 230], [0, 0, 0, 0, 0, 0, 0, 1, 33],
     [0, 0, 0, 0, 0, 0, 0, 4, 33], [0, 0, 0, 0, 0, 0, 0, 7, 33], [0, 0, 0, 0, 0, 0, 0, 8, 156],
     [0, 0, 0, 0, 0, 0, 0, 11, 156], [0, 0, 0, 0, 0, 0, 0, 12, 28], [2, 192, 5], [2, 192, 5], [2, 192, 5], [3, 56, 15],
     [2, 64, 156], [3, 3, 33], [2, 128, 167], [2, 192, 5], [3, 56, 15], [2, 64, 156], [3, 3, 33], [2, 128, 167],
     [2, 192, 5], [3, 184, 15], [3, 137, 56], [2, 32, 77], [2, 64, 156], [3, 3, 33], [2, 128, 167], [2, 192, 5]] := by decide +kernel

/-- **C74 is false for the first new version.**  The state of the owner is right for the log, all prefix proofs are consistent, and no strings
collide.  What they have retained comes from an initialization whose answer they accepted.  They accept the answer to the update, but the
commitment in the log is not that of their value. -/
theorem C74_wrong_value_accepted :
    Setting soundClient [10] lateLog soundOut lateGreatest ∧
    MonitorSetting soundClient lateLog soundOut lateGreatest plantedVersions [] (some ⟨3, 1, []⟩) ∧
    lateState.treeHead.treeSize = lateLog.length ∧ Retains toySuite lateLog lateState.fullSubtrees lateState.logEntries ∧
    FromWire toySuite plantedStart.init ∧
    Client.ownerInit soundClient 12 (some lateState) ⟨[], none, []⟩ ⟨some 6, [10], 3⟩ plantedStart {} =
      putLabelState {} lateState [10] ⟨[], some ⟨3, 1, []⟩, plantedVersions⟩ 3 ∧
    FromWire toySuite lateRes.update ∧ (∀ e ∈ updateEvals soundClient 12 lateStream lateRes, Consistent e.1 e.2) ∧
    (lateStream.verify soundClient 12 lateRes {}).toOption.map (fun r => (r.1.ls.owner, r.1.ls.contact)) =
      some (some ⟨3, 1, [5]⟩, [⟨5, 2⟩]) ∧
    computeCommitment soundClient [9] [10] 2 ⟨[5], none⟩ = .ok [145] ∧
    Committed lateLog soundOut 2 [77] 5 ∧ ¬ Committed lateLog soundOut 2 [145] 5 ∧
    ¬ HashBroken toySuite (logStrings toySuite lateLog) (updateStrings soundClient 12 lateStream lateRes) := by
  refine ⟨⟨toySuite_good, late_log, late_label, sound_setting.vrf⟩, ⟨toySuite_good, late_log, late_label, by decide, by decide, by decide, ?_⟩,
    rfl, late_retains, ⟨by decide, ?_⟩, by decide +kernel, ⟨by decide, ?_⟩, ?_, by decide +kernel, by decide +kernel, ⟨_, rfl, by decide⟩, ?_, ?_⟩
  · rintro o ⟨⟩
    exact ⟨by unfold Owner.WF; decide, by decide⟩
  · intro pf hpf
    obtain rfl := List.mem_singleton.1 hpf
    refine ⟨by decide, ?_⟩
    intro v c d h
    simp at h
    obtain ⟨rfl, rfl, rfl⟩ := h
    decide
  · intro pf hpf
    simp only [lateRes, List.mem_cons, List.not_mem_nil, or_false] at hpf
    rcases hpf with rfl | rfl
    · refine ⟨by decide, ?_⟩
      intro v c d h
      simp at h
      obtain ⟨rfl, rfl, rfl⟩ := h
      decide
    · refine ⟨by decide, ?_⟩
      intro v c d h
      simp at h
      obtain ⟨rfl, rfl, rfl⟩ := h
      decide
  · have h : updateEvals soundClient 12 lateStream lateRes =
        [([⟨[0x10], []⟩, ⟨[0x20], [77]⟩], ⟨[.nonInclusionLeaf [0x40] [156] 1, .nonInclusionLeaf [0x40] [156] 1], [[15]]⟩),
         ([⟨[0x10], []⟩, ⟨[0x20], [77]⟩], ⟨[.nonInclusionLeaf [0x20] [77] 2, .inclusion 2], [[56], [15]]⟩)] := by decide +kernel
    rw [h]
    intro e he
    simp only [List.mem_cons, List.not_mem_nil, or_false] at he
    rcases he with rfl | rfl
    · intro e r her
      simp only [List.zip_cons_cons, List.zip_nil_left, List.mem_cons, List.not_mem_nil, or_false, Prod.mk.injEq] at her
      rcases her with ⟨rfl, rfl⟩ | ⟨rfl, rfl⟩ <;> simp [Prefix.Res.isInclusion]
    · intro e r her
      simp only [List.zip_cons_cons, List.zip_nil_left, List.mem_cons, List.not_mem_nil, or_false, Prod.mk.injEq] at her
      rcases her with ⟨rfl, rfl⟩ | ⟨rfl, rfl⟩ <;> simp [Prefix.Res.isInclusion]
  · rintro ⟨c, hc, hm⟩
    cases hc
    revert hm
    decide
  · have h : updateStrings soundClient 12 lateStream lateRes =
        [[0, 0, 0, 0, 0, 0, 0, 11, 156], [0, 99, 0, 230], [1, 158, 1, 192], [3, 56, 15], [2, 64, 156], [3, 184, 15], [3, 137, 56],
         [2, 32, 77]] := by decide +kernel
    rw [h, lateLog_strings]
    unfold HashBroken LogSpec.Collides PrefixSpec.ZeroDigest
    decide +kernel

/-- the owner of a label without versions, who retained that it has none -/
def earlyStream : Stream := ⟨some watchState, ⟨[], some ⟨2, -1, []⟩, [⟨0, [0x80], none⟩]⟩, ⟨some 6, [10], none, [[5], [6]]⟩⟩

/-- an answer to their first update, with two versions in entry 3, which is distinguished -/
def earlyRes : UpdateResponse :=
  ⟨⟨none, none⟩, 3, [], [⟨[9], none⟩, ⟨[8], none⟩], [⟨[], none⟩, ⟨[], none⟩, ⟨[], none⟩], ⟨[], [], [], []⟩⟩

/-- The hypotheses of `C73_not_monitored` and `C73_only_distinguished` are met, no strings collide, and the answer is accepted, as it can be in
this case only.  The owner has no commitment for version 0 then, and another one than the log for version 1. -/
example : Setting soundClient [10] watchLog soundOut watchGreatest ∧
    MonitorSetting soundClient watchLog soundOut watchGreatest earlyStream.ls.versions [] (some ⟨2, -1, []⟩) ∧
    watchState.treeHead.treeSize = watchLog.length ∧ Retains toySuite watchLog watchState.fullSubtrees watchState.logEntries ∧
    FromWire toySuite earlyRes.update ∧ (∀ e ∈ updateEvals soundClient 12 earlyStream earlyRes, Consistent e.1 e.2) ∧
    (∀ r ∈ earlyStream.ls.versions, r.version = nextVersion ⟨2, -1, []⟩ → r.commitment = none) ∧
    (earlyStream.verify soundClient 12 earlyRes {}).toOption.map (fun r => (r.1.ls.owner, r.1.ls.contact, r.1.ls.versions.take 2)) =
      some (some ⟨2, -1, [3, 3]⟩, [], [⟨0, [0x80], none⟩, ⟨1, [0x40], some [164]⟩]) ∧
    ¬ Committed watchLog soundOut 1 [164] 3 ∧
    ¬ HashBroken toySuite (logStrings toySuite watchLog) (updateStrings soundClient 12 earlyStream earlyRes) := by
  refine ⟨⟨toySuite_good, watch_log, watch_label, sound_setting.vrf⟩,
    ⟨toySuite_good, watch_log, watch_label, by decide, by decide, by decide, ?_⟩, rfl, watch_retains,
    ⟨by decide, by intro pf hpf; cases hpf⟩, ?_, by decide, by decide +kernel, ?_, ?_⟩
  · rintro o ⟨⟩
    exact ⟨by unfold Owner.WF; decide, by decide⟩
  · have h : updateEvals soundClient 12 earlyStream earlyRes = [] := by decide +kernel
    rw [h]
    intro e he
    cases he
  · rintro ⟨c, hc, hm⟩
    cases hc
    revert hm
    decide
  · have h : updateStrings soundClient 12 earlyStream earlyRes = [[1, 158, 1, 64]] := by decide +kernel
    rw [h, watchLog_strings]
    unfold HashBroken LogSpec.Collides PrefixSpec.ZeroDigest
    decide +kernel

end Katie.Props
