import Verif.Lemmas.MonitorCount
import Verif.Props.C67_Monitored
import Verif.Props.C84_Sendable
import Verif.Props.C85_Changes

/-
C84, monitoring: an answer that the server cannot send.

One label gets a new version in each of 512 log entries.  A contact that monitors every fourth version asks about 128 entries
of its map; the answer needs 256 prefix proofs, and their number is encoded in one byte.
-/

namespace Katie.Props
open Katie Katie.Wire Katie.Alg Katie.Ladder Katie.Server Katie.ServerSpec Katie.AuditSpec Katie.SearchSpec Katie.ServedSpec Katie.ContactSpec
  Katie.Client

/-- four bytes computed from the input -/
def bigSuite : Log.Suite :=
  ⟨fun b => [b.foldl (fun a x => 3 * a + x + 1) 7, b.foldl (fun a x => 5 * a + x + 1) 9, b.foldl (fun a x => 7 * a + x + 1) 11, 0], 4⟩

theorem bigSuite_good : bigSuite.Good := ⟨by decide, fun _ => rfl⟩

/-- the output of the VRF are the last four bytes of the input: for a label, the version -/
def bigEnv : Env where
  cs := bigSuite
  sz := ⟨4, 0, 1⟩
  cfg := { mode := contactMonitoring, rmw := 10, sigKey := [1], vrfKey := [1] }
  prove := fun input => ((input.reverse ++ [0, 0, 0, 0]).take 4, [])
  sign := fun tbs => .ok [tbs.foldl (fun a x => 5 * a + x) 0]

/-- one more version of label 10 -/
def bigChange : Change := ⟨[⟨[10], ⟨[1], none⟩⟩], [], 5, fun _ _ => [9], fun l => l⟩

theorem bigEnv_able : Able bigEnv where
  vrf m := by simp [bigEnv, bigSuite]
  config := ⟨_, show marshalConfig bigEnv.cfg = .ok _ from rfl⟩
  sign _ := ⟨_, rfl, by simp⟩

theorem bigChange_ok : ChangeOk bigEnv bigChange :=
  ⟨fun _ => .refl _, by decide, fun _ _ => rfl, by
    simp [UpdateValue.Typed, SuffixTyped, bigEnv, bigChange, contactMonitoring, thirdPartyManagement]⟩

theorem big_versions (l : Bytes) (k : Nat) : versionsOf l (List.replicate k bigChange) =
    if l = [10] then (List.range k).map (fun i => ⟨i, ⟨[1], none⟩, [9]⟩) else [] := by
  induction k with
  | zero => simp [versionsOf_nil]
  | succ k ih =>
    rw [List.replicate_succ', versionsOf_snoc, ih]
    unfold step kept fresh added
    rw [if_neg (by simp [bigChange])]
    by_cases h : l = [10]
    · subst h
      simp [bigChange, List.range_succ]
    · have : ¬ ([10] : Bytes) = l := fun e => h e.symm
      simp [bigChange, h, this]

theorem big_vrf {v : Nat} {o pr : Bytes} (h : computeVrf bigEnv [10] v = .ok (o, pr)) : o = (putBE 4 v).reverse := by
  have e : computeVrf bigEnv [10] v = .ok (bigEnv.prove (1 :: 10 :: putBE 4 v)) := rfl
  rw [e] at h
  have h1 := congrArg Prod.fst (Except.ok.inj h)
  refine h1.symm.trans ?_
  show (((1 : UInt8) :: 10 :: putBE 4 v).reverse ++ [0, 0, 0, 0]).take 4 = _
  rw [List.reverse_cons, List.reverse_cons, List.append_assoc, List.append_assoc, List.take_append_of_le_length (by simp [putBE_length])]
  exact List.take_of_length_le (by simp [putBE_length])

theorem big_inj {v v' : Nat} (hv : v < 2 ^ 32) (hv' : v' < 2 ^ 32) {o pr pr' : Bytes} (h : computeVrf bigEnv [10] v = .ok (o, pr))
    (h' : computeVrf bigEnv [10] v' = .ok (o, pr')) : v = v' := by
  have e := (big_vrf h).symm.trans (big_vrf h')
  have e := congrArg getBE (List.reverse_injective e)
  rw [getBE_putBE, getBE_putBE] at e
  rwa [Nat.mod_eq_of_lt (by omega), Nat.mod_eq_of_lt (by omega)] at e

theorem big_runs (k : Nat) (hk : k < 2 ^ 32) : ∃ us t, Runs bigEnv (List.replicate k bigChange) us t ∧ ∀ u ∈ us, u.timestamp = 5 := by
  induction k with
  | zero => exact ⟨[], _, .start rfl, by simp⟩
  | succ k ih =>
    obtain ⟨us, t, hr, hu⟩ := ih (by omega)
    have hsm : Prefix.Small bigEnv.cs := (by decide : bigSuite.hashSize ≤ 32)
    have hrange : InRange (List.replicate k bigChange ++ [bigChange]) := by
      rw [← List.replicate_succ']
      refine inRange_of_short (by rw [List.length_replicate]; omega) ?_
      have : ∀ j, ((List.replicate j bigChange).flatMap Change.add).length = j := by
        intro j
        induction j with
        | zero => rfl
        | succ j ih => rw [List.replicate_succ, List.flatMap_cons, List.length_append, ih]; simp [bigChange]; omega
      rw [this]
      omega
    obtain ⟨u, t', h1, -, h2, h3⟩ := C85_extends bigSuite_good hsm bigEnv_able hr bigChange_ok hrange (.inr (.inl (by simp [bigChange])))
      { time := fun u hu' => le_of_eq (hu u (List.mem_of_getLast? hu'))
        values := by simp [bigChange, Short]
        settled := by simp [bigChange]
        apart := by
          rw [← List.replicate_succ']
          intro l v l' v' o p p' hv hv' ho ho'
          rw [big_versions] at hv hv'
          by_cases hl : l = [10]
          · by_cases hl' : l' = [10]
            · subst hl hl'
              rw [if_pos rfl, List.length_map, List.length_range] at hv hv'
              exact ⟨rfl, big_inj (by omega) (by omega) ho ho'⟩
            · rw [if_neg hl'] at hv'; simp at hv'
          · rw [if_neg hl] at hv; simp at hv }
    refine ⟨us ++ [u], t', by rw [List.replicate_succ']; exact h3, ?_⟩
    intro w hw
    rcases List.mem_append.1 hw with hw | hw
    · exact hu w hw
    · rw [List.mem_singleton.1 hw]; exact h2

/-- the client of this server -/
def bigClient : CEnv where
  cs := bigEnv.cs
  sz := bigEnv.sz
  cfg := bigEnv.cfg
  vrfVerify := fun input _ => .ok (bigEnv.prove input).1
  sigVerify := fun _ _ => true
  auditorVerify := fun _ _ => true
  leafVerify := fun _ _ => true

/-- every fourth version, at the log entry where it appeared -/
def bigMap : List MonitorMapEntry := (List.range 128).map (fun i => ⟨4 * i, 4 * i⟩)

set_option maxRecDepth 100000 in
theorem bigMap_accepted : ∃ ptrs b, verifyEntries bigMap (List.range 512) 512 = .ok ptrs ∧
    (tally (fun _ => 5) (Alg.contactMonitor ⟨bigEnv.cfg, 5, 512, some ptrs, none⟩)) = (.ok b, 256) := by
  have h : (match verifyEntries bigMap (List.range 512) 512 with
    | .ok ptrs =>
      let r := tally (fun _ => 5) (Alg.contactMonitor ⟨bigEnv.cfg, 5, 512, some ptrs, none⟩)
      r.1.isOk && r.2 == 256
    | .error _ => false) = true := by decide +kernel
  cases hv : verifyEntries bigMap (List.range 512) 512 with
  | error e => rw [hv] at h; cases h
  | ok ptrs =>
    rw [hv] at h
    refine ⟨ptrs, ?_⟩
    simp only [Bool.and_eq_true, beq_iff_eq] at h
    cases hb : tally (fun _ => 5) (Alg.contactMonitor ⟨bigEnv.cfg, 5, 512, some ptrs, none⟩) with
    | mk r k =>
      rw [hb] at h
      cases r with
      | error e => cases h.1
      | ok b => exact ⟨b, rfl, by rw [← h.2]⟩

theorem contactMonitor_head {env : Env} {now : Nat} {t : Tree} {req : ContactMonitorRequest} {res : MonitorResponse}
    (h : Server.contactMonitor env now t req = .ok res) : ∃ hd, fullTreeHead t req.last = .ok hd ∧ res.fullTreeHead = hd.fth := by
  unfold Server.contactMonitor startMonitor at h
  obtain ⟨op, k1, h⟩ := G.bind_eq_ok.1 h
  obtain ⟨hd, j1, k1⟩ := G.bind_eq_ok.1 k1
  obtain ⟨index, -, k1⟩ := G.bind_eq_ok.1 k1
  obtain ⟨p1, -, k1⟩ := G.bind_eq_ok.1 k1
  obtain ⟨⟨m, p2⟩, -, k1⟩ := G.bind_eq_ok.1 k1
  cases k1
  obtain ⟨ptrs, -, h⟩ := G.bind_eq_ok.1 h
  obtain ⟨⟨m', p3⟩, -, h⟩ := G.bind_eq_ok.1 h
  obtain ⟨⟨fth, proof⟩, k2, h⟩ := G.bind_eq_ok.1 h
  cases h
  unfold finishMonitor at k2
  obtain ⟨s, -, k2⟩ := G.bind_eq_ok.1 k2
  obtain ⟨⟨pr, p4⟩, -, k2⟩ := G.bind_eq_ok.1 k2
  cases k2
  exact ⟨hd, j1, rfl⟩

/-- **The claim of C84 is false for monitoring.**  A server of this code, after 512 changes, answers the request of a contact
that monitors 128 versions of a label, all where they appeared; the answer has 256 prefix proofs and cannot be encoded. -/
theorem C84_monitor_answer_false : ∃ env t now req res, env.cs.Good ∧ Prefix.Small env.cs ∧ Serves env t ∧ t.auditor = none ∧
    Server.contactMonitor env now t req = .ok res ∧ req.entries.length = 128 ∧ res.monitor.prefixProofs.length = 256 ∧
    Errs res.marshal := by
  have hg : bigEnv.cs.Good := bigSuite_good
  have hsm : Prefix.Small bigEnv.cs := (by decide : bigSuite.hashSize ≤ 32)
  obtain ⟨us, t, hr, hu⟩ := big_runs 512 (by decide)
  obtain ⟨htx, hinv⟩ := runs_inv hg hsm hr
  have hlen : us.length = 512 := by rw [hinv.len, List.length_replicate]
  have hne : List.replicate 512 bigChange ≠ [] := List.ne_nil_of_length_pos (by rw [List.length_replicate]; omega)
  have hvs : versionsOf [10] (List.replicate 512 bigChange) = (List.range 512).map (fun i => ⟨i, ⟨[1], none⟩, [9]⟩) := by
    rw [big_versions, if_pos rfl]
  have hindex : (versionsOf [10] (List.replicate 512 bigChange)).map Version.pos = List.range 512 := by
    rw [hvs, List.map_map]; exact List.map_id _
  have hts : ∀ x < 512, (entryAt bigEnv.cs us x).timestamp = 5 := by
    intro x hx
    have : (entryAt bigEnv.cs us x).timestamp = us[x].timestamp := by simp [entryAt, logOf, hlen, hx]
    rw [this]
    exact hu _ (List.getElem_mem _)
  have hget : ∀ v < 512, (versionsOf [10] (List.replicate 512 bigChange))[v]? = some ⟨v, ⟨[1], none⟩, [9]⟩ := by
    intro v hv
    rw [hvs, List.getElem?_map, List.getElem?_range hv]; rfl
  have hpair : ∀ v, v < 512 → ∃ q, pairOf bigEnv [10] v ⟨v, ⟨[1], none⟩, [9]⟩ = .ok q := fun v hv => hinv.total _ _ _ (hget v hv)
  obtain ⟨ptrs, b, hptrs, hb⟩ := bigMap_accepted
  -- what the contact has retained
  let ret : Nat → RetainedVersion := fun v => match pairOf bigEnv [10] v ⟨v, ⟨[1], none⟩, [9]⟩ with
    | .ok q => ⟨v, q.1, some q.2⟩
    | .error _ => ⟨v, [], none⟩
  have hret : ∀ v < 512, ∃ q, pairOf bigEnv [10] v ⟨v, ⟨[1], none⟩, [9]⟩ = .ok q ∧ ret v = ⟨v, q.1, some q.2⟩ := by
    intro v hv
    obtain ⟨q, hq⟩ := hpair v hv
    exact ⟨q, hq, by simp only [ret, hq]⟩
  have hver : ((List.range 512).map ret).map (·.version) = List.range 512 := by
    rw [List.map_map]
    refine (List.map_congr_left ?_).trans (List.map_id _)
    intro v hv
    obtain ⟨q, -, h⟩ := hret v (List.mem_range.1 hv)
    simp [h]
  have hM : Monitoring bigEnv (List.replicate 512 bigChange) us [10] ((List.range 512).map ret) bigMap none := by
    refine ⟨⟨?_, ?_, ?_⟩, ⟨?_, nofun, nofun⟩, ?_, nofun, ?_⟩
    · rw [hver]; exact List.nodup_range
    · intro r hr
      obtain ⟨v, hv, rfl⟩ := List.mem_map.1 hr
      obtain ⟨q, h1, h2⟩ := hret v (List.mem_range.1 hv)
      obtain ⟨pr, h3⟩ := pairOf_vrf h1
      rw [h2]
      exact ⟨pr, h3⟩
    · intro r hr c hc
      obtain ⟨v, hv, rfl⟩ := List.mem_map.1 hr
      obtain ⟨q, h1, h2⟩ := hret v (List.mem_range.1 hv)
      rw [h2] at hc ⊢
      cases hc
      exact ⟨_, hget v (List.mem_range.1 hv), h1⟩
    · intro e he bl hbl v hv
      obtain ⟨i, hi, rfl⟩ := List.mem_map.1 he
      have hi := List.mem_range.1 hi
      have hle : v ≤ 4 * i := by
        obtain ⟨b', hb', -⟩ := baseBinaryLadder_ok (n := 4 * i) (by omega)
        unfold monitoringBinaryLadder at hbl
        rw [hb'] at hbl
        cases hbl
        exact of_decide_eq_true (List.mem_filter.1 hv).2
      obtain ⟨q, -, h2⟩ := hret v (by omega)
      exact ⟨ret v, List.mem_map.2 ⟨v, List.mem_range.2 (by omega), rfl⟩, by rw [h2], by rw [h2]; simp⟩
    · rw [hindex, hlen]
      exact (C65_server_accepts_iff (fun x hx => List.mem_range.1 hx) _).1 ⟨_, hptrs⟩
    · rw [hver]
      intro v hv l' v' o pr pr' hc ho ho'
      have hv := List.mem_range.1 hv
      rcases hc with ⟨rfl, hv'⟩ | ⟨k, hk⟩
      · have hv' := List.mem_range.1 hv'
        exact ⟨rfl, (big_inj (by omega) (by omega) ho ho').symm⟩
      · rw [List.take_replicate, big_versions] at hk
        by_cases hl : l' = [10]
        · subst hl
          rw [if_pos rfl, List.length_map, List.length_range] at hk
          exact ⟨rfl, (big_inj (by omega) (by omega) ho ho').symm⟩
        · rw [if_neg hl] at hk; simp at hk
  have hS : Serving bigEnv bigClient (List.replicate 512 bigChange) us t [10] :=
    ⟨hg, hsm, hr, hne, ⟨rfl, rfl, fun _ => rfl, bigEnv_able.vrf, fun _ _ _ => rfl⟩, by decide,
      fun c hc => by rw [List.eq_of_mem_replicate hc]; simp [bigChange], by rw [hvs]; simp⟩
  have hlast : times bigEnv us (us.length - 1) = 5 := by rw [hlen]; exact hts _ (by decide)
  obtain ⟨th, res, m, k1, k2, -⟩ := C67_contact_partial (state := none) (aud := none) (nowS := 5) (nowC := 5) hS hM trivial nofun nofun
    (by rw [hlast]; exact ⟨by decide, by decide⟩) (by rw [hlast]; exact ⟨by decide, by decide⟩)
  have hserves : Serves bigEnv { t with auditor := none } := ⟨_, us, t, t.tx.auditor, hr, hne, rfl, rfl, nofun⟩
  have hlive : Live bigEnv (us.map batchOf) 512 (entryAt bigEnv.cs us) { t with auditor := none } := by
    have := live_of_runs hg hsm hr hne (t := { t with auditor := none }) (aud := t.tx.auditor) rfl rfl nofun
    rwa [List.length_replicate] at this
  have hcount : res.monitor.prefixProofs.length = 256 := by
    have hget : getIndex t.tx [10] = .ok (List.range 512) := by rw [htx, hinv.getIndex [10], hindex]
    have := contactMonitor_count hlive (req := ⟨getLast none, [10], bigMap⟩) (ts := fun _ => 5) nofun (fun x hx => (hts x hx).symm)
      hget hptrs (b := b) (by rw [hb]) k2
    rw [this, hb]
  refine ⟨bigEnv, _, 5, _, res, hg, hsm, hserves, rfl, k2, by simp [bigMap], hcount, ?_⟩
  unfold MonitorResponse.marshal CombinedTreeProof.marshal
  obtain ⟨hd, j1, j2⟩ := contactMonitor_head k2
  obtain ⟨x, hx⟩ := fullTreeHead_encodes hg hsm hserves nofun j1
  have hp : Errs (wSlice 1 "prefix proof" marshalPrefixProof res.monitor.prefixProofs) := by
    unfold wSlice
    rw [if_pos (by rw [hcount]; decide)]
    exact ⟨_, rfl⟩
  rw [j2, hx]
  obtain ⟨msg, hp⟩ := hp
  rw [hp]
  unfold wSlice
  split
  · exact ⟨_, rfl⟩
  · obtain ⟨y, hy⟩ := wLoop_encodes (l := res.monitor.timestamps) (w := wNum 8) (fun _ _ => ⟨_, rfl⟩)
    rw [hy]
    exact ⟨_, rfl⟩

end Katie.Props
