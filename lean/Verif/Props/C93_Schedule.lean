import Verif.Spec.Schedule
import Verif.Lemmas.Schedule
import Verif.Lemmas.ClientReceives
import Verif.Props.C69_MonitorSound
import Verif.Props.C73_UpdateSound
import Verif.Props.C46_C47_Wire

/-
C93: which labels the client wants to monitor.

`Monitor` asks the database for any label whose terminal entry is at or before the rightmost distinguished entry, its
cutoff.  A label found by a search is stored with a terminal entry after the cutoff, so that it is left alone until there
is a new distinguished entry (`C93_search_rests_partial`).  But a label that has been monitored is stored with the cutoff
itself as terminal entry, so that it is due again at once (`C93_contact_again`, `C93_init_again`, `C93_owner_again`):
`Monitor` never finds that nothing needs to be monitored (`C93_never_nil`), and a database that returns the same label every
time keeps all other labels from being monitored (`C93_starves`).

A label that the client owns is stored in a way that the client cannot read, so that it is never monitored nor updated
(`C93_owner_never`).  It is due nevertheless, and `Monitor` fails whenever the database returns it (`C93_init_breaks`).
-/

namespace Katie.Props
open Katie Katie.Wire Katie.Alg Katie.Ladder Katie.Server Katie.Client Katie.ClientSpec Katie.SearchSpec Katie.SearchTree
  Katie.ScheduleSpec

variable {env : CEnv} {st st' : CStore}

/-! ### what is stored -/

theorem putLabelState_spec {s : ClientState} {label : Bytes} {ls : ClientLabelState} {x : Nat}
    (h : putLabelState st s label ls x = .ok st') : ∃ raw rawLabel, s.marshal = .ok raw ∧ rawLabelState ls = .ok rawLabel ∧
      st' = st.putLabel raw label rawLabel x := by
  unfold putLabelState at h
  obtain ⟨raw, h1, h⟩ := G.bind_eq_ok.1 h
  obtain ⟨rl, h2, h⟩ := G.bind_eq_ok.1 h
  cases h
  exact ⟨raw, rl, h1, h2, rfl⟩

/-- everything stored for the label has the terminal entry just given -/
theorem putLabelState_terminal {s : ClientState} {label : Bytes} {ls : ClientLabelState} {x : Nat}
    (h : putLabelState st s label ls x = .ok st') {raw : Bytes} {t : Nat} (hm : (label, raw, t) ∈ st'.labels) : t = x := by
  obtain ⟨r, rl, -, -, rfl⟩ := putLabelState_spec h
  unfold CStore.putLabel at hm
  cases rl with
  | none => simp at hm
  | some r' =>
    simp only [List.mem_cons, List.mem_filter] at hm
    rcases hm with hm | hm
    · cases hm; rfl
    · simp at hm

/-- what is stored for the other labels stays as it is -/
theorem putLabelState_other {s : ClientState} {label other : Bytes} {ls : ClientLabelState} {x : Nat}
    (h : putLabelState st s label ls x = .ok st') (hne : other ≠ label) {raw : Bytes} {t : Nat} :
    (other, raw, t) ∈ st'.labels ↔ (other, raw, t) ∈ st.labels := by
  obtain ⟨r, rl, -, -, rfl⟩ := putLabelState_spec h
  unfold CStore.putLabel
  cases rl with
  | none => simp [List.mem_filter, hne]
  | some r' => simp [List.mem_filter, hne]

/-- a label with something to monitor is stored -/
theorem putLabelState_stored {s : ClientState} {label : Bytes} {ls : ClientLabelState} {x : Nat}
    (h : putLabelState st s label ls x = .ok st') (hls : ls.contact.length > 0 ∨ ls.owner ≠ none) :
    ∃ raw, (label, raw, x) ∈ st'.labels := by
  obtain ⟨r, rl, -, hr, rfl⟩ := putLabelState_spec h
  unfold rawLabelState at hr
  rw [if_pos hls] at hr
  obtain ⟨r', -, hr⟩ := G.bind_eq_ok.1 hr
  cases hr
  exact ⟨r', List.mem_cons_self⟩

theorem updateRetainedVersions_keeps {ls ls' : ClientLabelState} {s : Received} (h : updateRetainedVersions ls s = .ok ls') :
    ls'.contact = ls.contact ∧ ls'.owner = ls.owner := by
  unfold updateRetainedVersions at h
  obtain ⟨a, -, h⟩ := G.bind_eq_ok.1 h
  obtain ⟨b, -, h⟩ := G.bind_eq_ok.1 h
  obtain ⟨vs, -, h⟩ := G.bind_eq_ok.1 h
  cases h
  exact ⟨rfl, rfl⟩

theorem cutoffOf_of_holds {s0 s : ClientState} (hmode : env.cfg.mode ≠ thirdPartyAuditing) (hw : Written env s0 s)
    (hh : Holds st s) : cutoffOf env st = getDistinguished env (some s) := by
  obtain ⟨raw, h1, h2⟩ := hh
  unfold cutoffOf
  rw [getState_of_typed (hw.typed hmode) h1 h2]
  rfl

theorem insertEntry_length (e : MonitorMapEntry) (l : List MonitorMapEntry) : (insertEntry e l).length = l.length + 1 := by
  induction l with
  | nil => rfl
  | cons f l ih =>
    unfold insertEntry
    split
    · rfl
    · rw [List.length_cons, ih, List.length_cons]

theorem contactStruct_length (m : PMap) : (contactStruct m).length = m.length := by
  unfold contactStruct
  induction m with
  | nil => rfl
  | cons a m ih => rw [List.map_cons, List.foldr_cons, insertEntry_length, ih, List.length_cons]

/-- what is left to monitor is not an empty map -/
theorem contactMonitor_left {m m' : Monitor} {tr : List Ev} (h : Runs (Alg.contactMonitor m) tr (.ok m')) :
    m'.contact ≠ some [] ∧ m'.cfg = m.cfg ∧ m'.treeSize = m.treeSize ∧ m'.rightmost = m.rightmost ∧
      m'.owner = m.owner := by
  unfold Alg.contactMonitor at h
  split at h
  · next hn =>
    obtain ⟨-, h⟩ := runs_pure.1 h
    cases h
    exact ⟨by rw [hn]; simp, rfl, rfl, rfl, rfl⟩
  · obtain ⟨ptrs, t1, t2, -, -, h⟩ := runs_bind_ok.1 h
    obtain ⟨-, h⟩ := runs_pure.1 h
    cases h
    refine ⟨?_, rfl, rfl, rfl, rfl⟩
    dsimp only
    split
    · simp
    · next hne => simpa using hne

theorem vrun_runs {α : Type} {prog : Prog α} {v w : Verifier} {a : α} (h : v.run env prog = .ok (a, w))
    (hm : TsMap v.p.timestamps) : ∃ tr, Runs prog tr (.ok a) ∧ ∀ x t, ⟨.ts x, .ok t⟩ ∈ tr → (x, t) ∈ w.p.timestamps := by
  obtain ⟨-, -, h3, h4, -⟩ := run_spec (Received.handle env.cs) prog v.p hm
  rw [(run_frame h).2] at h3 h4
  exact ⟨_, h3, h4⟩

theorem newMonitor_is {cfg : Config} {n : Nat} {tr : List Ev} {m : Monitor} (h : Runs (newMonitor cfg n) tr (.ok m)) :
    m.cfg = cfg ∧ m.treeSize = n ∧ m.contact = none ∧ m.owner = none ∧ ⟨.ts (n - 1), .ok m.rightmost⟩ ∈ tr := by
  unfold newMonitor at h
  rw [runs_ite] at h
  rcases h with ⟨-, h⟩ | ⟨-, h⟩
  · exact absurd h runs_fail_ok
  · obtain ⟨t, t1, t2, rfl, h1, h2⟩ := runs_bind_ok.1 h
    obtain ⟨rfl, h2⟩ := runs_pure.1 h2
    cases h2
    have e := runs_call.1 h1
    subst e
    exact ⟨rfl, rfl, rfl, rfl, List.mem_cons_self⟩

/-! ### the operations -/

/-- an accepted response to a request to monitor a label of somebody else -/
theorem contact_stored (hcs : env.cs.Good) (hsz : env.sz.hash = env.cs.hashSize) {now : Nat} {pick : Option Bytes}
    {state : Option ClientState} {ls : ClientLabelState} {req : ContactMonitorRequest} {res : MonitorResponse}
    (hr : monitorRequest env st pick = .ok (some (.contact req, state, ls))) (ht : res.Typed env.cfg env.sz)
    (h : Client.contactMonitor env now state ls req res st = .ok st') :
    pick = some req.label ∧ ∃ s0 s ls' x, getState env st = .ok (some s0) ∧ Written env s0 s ∧
      (∀ y, getDistinguished env (some s0) = .ok y → getDistinguished env (some s) = .ok y) ∧
      getDistinguished env (some s) = .ok x ∧ ls'.contact.length > 0 ∧ putLabelState st s req.label ls' x = .ok st' := by
  unfold monitorRequest at hr
  obtain ⟨state', hs, hr⟩ := G.bind_eq_ok.1 hr
  obtain ⟨cut, -, hr⟩ := G.bind_eq_ok.1 hr
  split at hr
  · cases hr
  · obtain ⟨ls', -, hr⟩ := G.bind_eq_ok.1 hr
    split at hr
    · split at hr
      · cases hr
      · cases hr
        refine ⟨rfl, ?_⟩
        unfold Client.contactMonitor at h
        obtain ⟨v0, h0, h⟩ := G.bind_eq_ok.1 h
        obtain ⟨v1, h1, h⟩ := G.bind_eq_ok.1 h
        obtain ⟨v2, h2, h⟩ := G.bind_eq_ok.1 h
        obtain ⟨⟨m, v3⟩, h3, h⟩ := G.bind_eq_ok.1 h
        obtain ⟨⟨r, v4⟩, h4, h⟩ := G.bind_eq_ok.1 h
        obtain ⟨⟨s, v5⟩, h5, h⟩ := G.bind_eq_ok.1 h
        obtain ⟨s0, hs0, hw⟩ := finish_written hcs hsz hs ht.1 ht.2 h0 (addRetainedVersions_frame h1)
          (addRetainedVersions_collected h1) h2 ((run_frame h3).1.trans (run_frame h4).1)
          (fun c => vrun_collected hcs h4 (vrun_collected hcs h3 c)) h5
        rw [hs] at hs0
        cases hs0
        obtain ⟨c1, c2, c3, c4, c5, c6, c7⟩ := finish_cutoff h0 (addRetainedVersions_later h1) h2
          ((run_later h3).trans (run_later h4)) h5
        obtain ⟨c, hc, h⟩ := G.bind_eq_ok.1 h
        obtain ⟨ls'', hls, h⟩ := G.bind_eq_ok.1 h
        obtain ⟨⟨dle, v6⟩, hd, h⟩ := G.bind_eq_ok.1 h
        dsimp only at h hd
        split at h
        · cases h
        next x =>
        refine ⟨s0, s, ls'', x, hs, hw, c7, ?_, ?_, h⟩
        · rw [c6, (run_frame hd).2]
          rfl
        · obtain ⟨hm0, -⟩ := newVerifier_table h0
          have hm3 := (((addRetainedVersions_later h1).trans (updateView_later h2)).trans (run_later h3)).table hm0
          obtain ⟨tr, htr, -⟩ := vrun_runs h4 hm3
          have hne := (contactMonitor_left htr).1
          rw [(updateRetainedVersions_keeps hls).1]
          dsimp only at hc ⊢
          cases hrc : r.contact with
          | none => rw [hrc] at hc; cases hc
          | some p =>
            rw [hrc] at hc hne
            cases hc
            rw [contactStruct_length]
            exact List.length_pos_iff.2 (fun h => hne (by rw [h]))
    · cases hr

/-- **A label that has been monitored is due again at once.**  After any accepted response to a `ContactMonitorRequest` the
label is stored with the cutoff of the new state as its terminal entry. -/
theorem C93_contact_again (hcs : env.cs.Good) (hsz : env.sz.hash = env.cs.hashSize) (hmode : env.cfg.mode ≠ thirdPartyAuditing)
    {now : Nat} {pick : Option Bytes} {state : Option ClientState} {ls : ClientLabelState} {req : ContactMonitorRequest}
    {res : MonitorResponse} (hr : monitorRequest env st pick = .ok (some (.contact req, state, ls)))
    (ht : res.Typed env.cfg env.sz) (h : Client.contactMonitor env now state ls req res st = .ok st') :
    ∃ cutoff, cutoffOf env st' = .ok cutoff ∧ Due st' cutoff req.label ∧ MayReturn st' cutoff (some req.label) ∧
      ¬ MayReturn st' cutoff none := by
  obtain ⟨-, s0, s, ls', x, -, hw, -, hx, hl, hp⟩ := contact_stored hcs hsz hr ht h
  obtain ⟨raw, hm⟩ := putLabelState_stored hp (Or.inl hl)
  have hdue : Due st' x req.label := ⟨raw, x, hm, le_refl _⟩
  exact ⟨x, (cutoffOf_of_holds hmode hw (putLabelState_holds hp)).trans hx, hdue, hdue, fun hn => hn _ hdue⟩

/-- The same for a label that the client starts to own. -/
theorem C93_init_again (hcs : env.cs.Good) (hsz : env.sz.hash = env.cs.hashSize) (hmode : env.cfg.mode ≠ thirdPartyAuditing)
    {now : Nat} {label : Bytes} {state : Option ClientState} {ls : ClientLabelState} {req : OwnerInitRequest}
    {res : OwnerInitResponse} (hr : ownerInitRequest env st label = .ok (req, state, ls)) (ht : res.Typed env.cfg env.sz)
    (h : Client.ownerInit env now state ls req res st = .ok st') :
    ∃ cutoff, cutoffOf env st' = .ok cutoff ∧ Due st' cutoff label ∧ ¬ MayReturn st' cutoff none := by
  unfold ownerInitRequest at hr
  obtain ⟨state', hs, hr⟩ := G.bind_eq_ok.1 hr
  obtain ⟨ls', -, hr⟩ := G.bind_eq_ok.1 hr
  split at hr
  · cases hr
  · obtain ⟨start, hst, hr⟩ := G.bind_eq_ok.1 hr
    cases hr
    unfold Client.ownerInit at h
    obtain ⟨v0, h0, h⟩ := G.bind_eq_ok.1 h
    obtain ⟨l, -, h⟩ := G.bind_eq_ok.1 h
    obtain ⟨v1, h1, h⟩ := G.bind_eq_ok.1 h
    obtain ⟨-, -, h⟩ := G.bind_eq_ok.1 h
    obtain ⟨v2, h2, h⟩ := G.bind_eq_ok.1 h
    obtain ⟨⟨m, v3⟩, h3, h⟩ := G.bind_eq_ok.1 h
    obtain ⟨⟨r, v4⟩, h4, h⟩ := G.bind_eq_ok.1 h
    obtain ⟨⟨s, v5⟩, h5, h⟩ := G.bind_eq_ok.1 h
    obtain ⟨s0, hs0, hw⟩ := finish_written hcs hsz hs ht.1 ht.2.2.2 h0 (processLadder_frame h1)
      (processLadder_collected h1) h2 ((run_frame h3).1.trans (run_frame h4).1)
      (fun c => vrun_collected hcs h4 (vrun_collected hcs h3 c)) h5
    rw [hs] at hs0
    cases hs0
    obtain ⟨-, -, -, -, -, -, c7⟩ := finish_cutoff h0 (processLadder_later h1) h2 ((run_later h3).trans (run_later h4)) h5
    dsimp only at h
    split at h
    · cases h
    · obtain ⟨v6, -, h⟩ := G.bind_eq_ok.1 h
      obtain ⟨ls'', hls, h⟩ := G.bind_eq_ok.1 h
      obtain ⟨raw, hm⟩ := putLabelState_stored h (Or.inr (by rw [(updateRetainedVersions_keeps hls).2]; simp))
      have hdue : Due st' start label := ⟨raw, start, hm, le_refl _⟩
      exact ⟨start, (cutoffOf_of_holds hmode hw (putLabelState_holds h)).trans (c7 _ hst), hdue, fun hn => hn _ hdue⟩

/-- **The cutoff stays where it is**: no accepted response moves it. -/
theorem C93_cutoff_fixed (hcs : env.cs.Good) (hsz : env.sz.hash = env.cs.hashSize) (hmode : env.cfg.mode ≠ thirdPartyAuditing)
    (h : Receives env st st') {x : Nat} (hx : cutoffOf env st = .ok x) : cutoffOf env st' = .ok x := by
  have key : ∃ s0 s, getState env st = .ok (some s0) ∧ Holds st' s ∧ Written env s0 s ∧
      ∀ y, getDistinguished env (some s0) = .ok y → getDistinguished env (some s) = .ok y := by
    cases h with
    | search now order state label version res hs ht h =>
      unfold Client.search at h
      obtain ⟨⟨x, s, v⟩, h1, h⟩ := G.bind_eq_ok.1 h
      have key : ∃ s0, getState env st = .ok (some s0) ∧ Written env s0 s ∧
          ∀ y, getDistinguished env (some s0) = .ok y → getDistinguished env (some s) = .ok y := by
        unfold verifySearch at h1
        obtain ⟨v0, h0, h1⟩ := G.bind_eq_ok.1 h1
        obtain ⟨t, -, h1⟩ := G.bind_eq_ok.1 h1
        obtain ⟨-, -, h1⟩ := G.bind_eq_ok.1 h1
        obtain ⟨l, -, h1⟩ := G.bind_eq_ok.1 h1
        obtain ⟨c, -, h1⟩ := G.bind_eq_ok.1 h1
        obtain ⟨v1, h2, h1⟩ := G.bind_eq_ok.1 h1
        obtain ⟨v2, h3, h1⟩ := G.bind_eq_ok.1 h1
        obtain ⟨⟨x', v3⟩, h4, h1⟩ := G.bind_eq_ok.1 h1
        obtain ⟨⟨s', v4⟩, h5, h1⟩ := G.bind_eq_ok.1 h1
        cases h1
        obtain ⟨s0, hs0, hw⟩ := finish_written hcs hsz hs ht.1 ht.2.2.2.2.2 h0 (processLadder_frame h2)
          (processLadder_collected h2) h3 (run_frame h4).1 (vrun_collected hcs h4) h5
        rw [hs] at hs0
        cases hs0
        exact ⟨s0, hs, hw, (finish_cutoff h0 (processLadder_later h2) h3 (run_later h4) h5).2.2.2.2.2.2⟩
      obtain ⟨s0, hs0, hw, hc⟩ := key
      refine ⟨s0, s, hs0, ?_, hw, hc⟩
      dsimp only at h
      split at h
      · exact putState_holds h
      · obtain ⟨⟨dle, v'⟩, -, h⟩ := G.bind_eq_ok.1 h
        dsimp only at h
        split at h
        · exact putState_holds h
        · obtain ⟨ls, -, h⟩ := G.bind_eq_ok.1 h
          obtain ⟨v'', -, h⟩ := G.bind_eq_ok.1 h
          obtain ⟨t, -, h⟩ := G.bind_eq_ok.1 h
          obtain ⟨⟨c, x'⟩, -, h⟩ := G.bind_eq_ok.1 h
          obtain ⟨ls', -, h⟩ := G.bind_eq_ok.1 h
          exact putLabelState_holds h
    | ownerInit now state ls label req res hr ht h =>
      unfold ownerInitRequest at hr
      obtain ⟨state', hs, hr⟩ := G.bind_eq_ok.1 hr
      obtain ⟨ls', -, hr⟩ := G.bind_eq_ok.1 hr
      split at hr
      · cases hr
      · obtain ⟨start, -, hr⟩ := G.bind_eq_ok.1 hr
        cases hr
        unfold Client.ownerInit at h
        obtain ⟨v0, h0, h⟩ := G.bind_eq_ok.1 h
        obtain ⟨l, -, h⟩ := G.bind_eq_ok.1 h
        obtain ⟨v1, h1, h⟩ := G.bind_eq_ok.1 h
        obtain ⟨-, -, h⟩ := G.bind_eq_ok.1 h
        obtain ⟨v2, h2, h⟩ := G.bind_eq_ok.1 h
        obtain ⟨⟨m, v3⟩, h3, h⟩ := G.bind_eq_ok.1 h
        obtain ⟨⟨r, v4⟩, h4, h⟩ := G.bind_eq_ok.1 h
        obtain ⟨⟨s, v5⟩, h5, h⟩ := G.bind_eq_ok.1 h
        obtain ⟨s0, hs0, hw⟩ := finish_written hcs hsz hs ht.1 ht.2.2.2 h0 (processLadder_frame h1)
          (processLadder_collected h1) h2 ((run_frame h3).1.trans (run_frame h4).1)
          (fun c => vrun_collected hcs h4 (vrun_collected hcs h3 c)) h5
        rw [hs] at hs0
        cases hs0
        refine ⟨s0, s, hs, ?_, hw,
          (finish_cutoff h0 (processLadder_later h1) h2 ((run_later h3).trans (run_later h4)) h5).2.2.2.2.2.2⟩
        dsimp only at h
        split at h
        · cases h
        · obtain ⟨v6, -, h⟩ := G.bind_eq_ok.1 h
          obtain ⟨ls', -, h⟩ := G.bind_eq_ok.1 h
          exact putLabelState_holds h
    | contactMonitor now pick state ls req res hr ht h =>
      obtain ⟨-, s0, s, ls', x, h1, h2, h3, -, -, h4⟩ := contact_stored hcs hsz hr ht h
      exact ⟨s0, s, h1, putLabelState_holds h4, h2, h3⟩
    | ownerMonitor now pick state ls o req res hr ho ht h =>
      unfold monitorRequest at hr
      obtain ⟨state', hs, hr⟩ := G.bind_eq_ok.1 hr
      obtain ⟨cut, -, hr⟩ := G.bind_eq_ok.1 hr
      split at hr
      · cases hr
      · obtain ⟨ls', -, hr⟩ := G.bind_eq_ok.1 hr
        split at hr
        · split at hr
          · cases hr
          · cases hr
        · cases hr
          unfold Client.ownerMonitor at h
          obtain ⟨v0, h0, h⟩ := G.bind_eq_ok.1 h
          obtain ⟨v1, h1, h⟩ := G.bind_eq_ok.1 h
          obtain ⟨v2, h2, h⟩ := G.bind_eq_ok.1 h
          obtain ⟨⟨m, v3⟩, h3, h⟩ := G.bind_eq_ok.1 h
          obtain ⟨⟨r, v4⟩, h4, h⟩ := G.bind_eq_ok.1 h
          obtain ⟨⟨r', v5⟩, h5, h⟩ := G.bind_eq_ok.1 h
          obtain ⟨⟨s, v6⟩, h6, h⟩ := G.bind_eq_ok.1 h
          obtain ⟨s0, hs0, hw⟩ := finish_written hcs hsz hs ht.1 ht.2 h0 (addRetainedVersions_frame h1)
            (addRetainedVersions_collected h1) h2 (((run_frame h3).1.trans (run_frame h4).1).trans (run_frame h5).1)
            (fun c => vrun_collected hcs h5 (vrun_collected hcs h4 (vrun_collected hcs h3 c))) h6
          rw [hs] at hs0
          cases hs0
          refine ⟨s0, s, hs, ?_, hw, (finish_cutoff h0 (addRetainedVersions_later h1) h2
            (((run_later h3).trans (run_later h4)).trans (run_later h5)) h6).2.2.2.2.2.2⟩
          obtain ⟨c, -, h⟩ := G.bind_eq_ok.1 h
          dsimp only at h
          split at h
          · cases h
          · obtain ⟨ls', -, h⟩ := G.bind_eq_ok.1 h
            exact putLabelState_holds h
    | update now label values req sv sv' res hr ht h =>
      unfold updateRequest at hr
      obtain ⟨state', hs, hr⟩ := G.bind_eq_ok.1 hr
      obtain ⟨ls', -, hr⟩ := G.bind_eq_ok.1 hr
      split at hr
      · cases hr
      · cases hr
        unfold Stream.verify at h
        obtain ⟨⟨sver, coms⟩, -, h⟩ := G.bind_eq_ok.1 h
        obtain ⟨l, -, h⟩ := G.bind_eq_ok.1 h
        obtain ⟨-, -, h⟩ := G.bind_eq_ok.1 h
        obtain ⟨v0, h0, h⟩ := G.bind_eq_ok.1 h
        obtain ⟨v1, h1, h⟩ := G.bind_eq_ok.1 h
        obtain ⟨v1', h1', h⟩ := G.bind_eq_ok.1 h
        obtain ⟨v2, h2, h⟩ := G.bind_eq_ok.1 h
        obtain ⟨⟨m, v3⟩, h3, h⟩ := G.bind_eq_ok.1 h
        obtain ⟨⟨r, v4⟩, h4, h⟩ := G.bind_eq_ok.1 h
        obtain ⟨⟨s, v5⟩, h5, h⟩ := G.bind_eq_ok.1 h
        obtain ⟨s0, hs0, hw⟩ := finish_written hcs hsz hs ht.1 ht.2.2.2.2 h0
          ((addRetainedVersions_frame h1).trans (processLadder_frame h1'))
          (fun c => processLadder_collected h1' (addRetainedVersions_collected h1 c)) h2
          ((run_frame h3).1.trans (run_frame h4).1)
          (fun c => vrun_collected hcs h4 (vrun_collected hcs h3 c)) h5
        rw [hs] at hs0
        cases hs0
        refine ⟨s0, s, hs, ?_, hw, (finish_cutoff h0 ((addRetainedVersions_later h1).trans (processLadder_later h1')) h2
          ((run_later h3).trans (run_later h4)) h5).2.2.2.2.2.2⟩
        obtain ⟨c, -, h⟩ := G.bind_eq_ok.1 h
        dsimp only at h
        split at h
        · cases h
        · obtain ⟨ls', -, h⟩ := G.bind_eq_ok.1 h
          obtain ⟨st2, h6, h⟩ := G.bind_eq_ok.1 h
          cases h
          exact putLabelState_holds h6
  obtain ⟨s0, s, hs, hh, hw, hc⟩ := key
  rw [cutoffOf_of_holds hmode hw hh]
  unfold cutoffOf at hx
  rw [hs, G.ok_bind] at hx
  exact hc x hx

theorem rightPathLoop_gt {x n r : Nat} : ∀ (fuel y : Nat) (l : List Nat), rightPathLoop fuel x n r y = .ok l → ∀ z ∈ l, x < z := by
  intro fuel
  induction fuel with
  | zero => intro y l h; cases h
  | succ fuel ih =>
    intro y l h
    unfold rightPathLoop at h
    split at h
    · obtain ⟨y', -, h⟩ := G.bind_eq_ok.1 h
      obtain ⟨rest, hr, h⟩ := G.bind_eq_ok.1 h
      cases h
      intro z hz
      split at hz
      · next hy =>
        rcases List.mem_cons.1 hz with rfl | hz
        · exact hy
        · exact ih _ _ hr z hz
      · exact ih _ _ hr z hz
    · cases h
      simp

theorem markPath_ge {ver x0 : Nat} : ∀ (l : List Nat) (ptrs : PMap) (x : Nat), x0 ≤ x → (∀ z ∈ l, x0 ≤ z) →
    x0 ≤ (markPath ver l ptrs x).2 := by
  intro l
  induction l with
  | nil => intro ptrs x h _; exact h
  | cons p l ih =>
    intro ptrs x h hl
    unfold markPath
    split
    · exact h
    · exact ih _ _ (hl p List.mem_cons_self) (fun z hz => hl z (List.mem_cons_of_mem _ hz))

theorem updateContactState_ge {order : PMap → List (Nat × Nat)} {contact : List MonitorMapEntry} {x n ver : Nat}
    {c : List MonitorMapEntry} {t : Nat} (h : updateContactState order contact x n ver = .ok (c, t)) : x ≤ t := by
  unfold updateContactState at h
  obtain ⟨path, hp, h⟩ := G.bind_eq_ok.1 h
  obtain ⟨ptrs, -, h⟩ := G.bind_eq_ok.1 h
  have hge := markPath_ge (ver := ver) (x0 := x) (x :: path) (contactMap contact) x (le_refl _) (by
    intro z hz
    rcases List.mem_cons.1 hz with rfl | hz
    · exact le_refl _
    · exact Nat.le_of_lt (rightPathLoop_gt _ _ _ hp z hz))
  cases h
  exact hge

/-- **A label found by a search is left alone**: after an accepted response to a search, what is stored for the label is what
was stored before, or has a terminal entry after the cutoff, so that `GetStaleLabel` does not return it. -/
theorem C93_search_rests_partial (hcs : env.cs.Good) (hsz : env.sz.hash = env.cs.hashSize)
    (hmode : env.cfg.mode ≠ thirdPartyAuditing) {now : Nat} {order : PMap → List (Nat × Nat)} {state : Option ClientState}
    {label : Bytes} {version : Option Nat} {res : SearchResponse} (hs : getState env st = .ok state)
    (ht : res.Typed env.cfg env.sz (searchRequest state label version))
    (h : Client.search env now order state (searchRequest state label version) res st = .ok st') {cutoff : Nat}
    (hc : cutoffOf env st' = .ok cutoff) : st'.labels = st.labels ∨
      (∀ raw t, (label, raw, t) ∈ st'.labels → cutoff < t) ∧ ¬ Due st' cutoff label := by
  unfold Client.search at h
  obtain ⟨⟨x, s, v⟩, h1, h⟩ := G.bind_eq_ok.1 h
  have key : ∃ s0, Written env s0 s ∧ getDistinguished env (some s) =
      ((v.p.run (Received.handle env.cs) (rightmostDistinguished env.cfg v.n)).1 >>= asCutoff) := by
    unfold verifySearch at h1
    obtain ⟨v0, h0, h1⟩ := G.bind_eq_ok.1 h1
    obtain ⟨t, -, h1⟩ := G.bind_eq_ok.1 h1
    obtain ⟨-, -, h1⟩ := G.bind_eq_ok.1 h1
    obtain ⟨l, -, h1⟩ := G.bind_eq_ok.1 h1
    obtain ⟨c, -, h1⟩ := G.bind_eq_ok.1 h1
    obtain ⟨v1, h2, h1⟩ := G.bind_eq_ok.1 h1
    obtain ⟨v2, h3, h1⟩ := G.bind_eq_ok.1 h1
    obtain ⟨⟨x', v3⟩, h4, h1⟩ := G.bind_eq_ok.1 h1
    obtain ⟨⟨s', v4⟩, h5, h1⟩ := G.bind_eq_ok.1 h1
    cases h1
    obtain ⟨s0, -, hw⟩ := finish_written hcs hsz hs ht.1 ht.2.2.2.2.2 h0 (processLadder_frame h2)
      (processLadder_collected h2) h3 (run_frame h4).1 (vrun_collected hcs h4) h5
    exact ⟨s0, hw, (finish_cutoff h0 (processLadder_later h2) h3 (run_later h4) h5).2.2.2.2.2.1⟩
  obtain ⟨s0, hw, hcut⟩ := key
  have same : ∀ {st1 : CStore}, putState st s = .ok st1 → st1.labels = st.labels := by
    intro st1 h
    unfold putState at h
    obtain ⟨raw, -, h⟩ := G.bind_eq_ok.1 h
    cases h
    rfl
  dsimp only at h
  split at h
  · exact Or.inl (same h)
  · obtain ⟨⟨dle, v'⟩, hd, h⟩ := G.bind_eq_ok.1 h
    dsimp only at h
    split at h
    · exact Or.inl (same h)
    next hdle =>
    obtain ⟨ls, -, h⟩ := G.bind_eq_ok.1 h
    obtain ⟨v'', -, h⟩ := G.bind_eq_ok.1 h
    obtain ⟨t, -, h⟩ := G.bind_eq_ok.1 h
    obtain ⟨⟨c, x'⟩, hu, h⟩ := G.bind_eq_ok.1 h
    obtain ⟨ls', -, h⟩ := G.bind_eq_ok.1 h
    right
    rw [cutoffOf_of_holds hmode hw (putLabelState_holds h), hcut, (run_frame hd).2, G.ok_bind] at hc
    have hlt : cutoff < x' := by
      have := updateContactState_ge hu
      cases dle with
      | none => cases hc
      | some d =>
        cases hc
        simp only [Option.any_some, decide_eq_true_eq] at hdle
        omega
    have hall : ∀ raw t, (label, raw, t) ∈ st'.labels → cutoff < t := by
      intro raw t hm
      rw [putLabelState_terminal h hm]
      exact hlt
    exact ⟨hall, fun ⟨raw, t, hm, hle⟩ => by have := hall raw t hm; omega⟩

/-- **An owned label would be due again at once** after an accepted response to an `OwnerMonitorRequest`, if the client could read its
own state of the label (but see `C93_owner_never`).  `o.starting` is where the owner was before. -/
theorem C93_owner_again (hcs : env.cs.Good) (hsz : env.sz.hash = env.cs.hashSize) (hmode : env.cfg.mode ≠ thirdPartyAuditing)
    {now : Nat} {label : Bytes} {state : Option ClientState} {ls : ClientLabelState} {o : LabelOwnerState}
    {res : MonitorResponse} (hs : getState env st = .ok state)
    (ht : res.Typed env.cfg env.sz)
    (h : Client.ownerMonitor env now state ls o ⟨getLast state, label, ls.contact, o.starting, greatestVersion o⟩ res st = .ok st')
    {cutoff : Nat} (hx : cutoffOf env st = .ok cutoff) (hstart : o.starting ≤ cutoff) :
    cutoffOf env st' = .ok cutoff ∧ Due st' cutoff label ∧ MayReturn st' cutoff (some label) ∧ ¬ MayReturn st' cutoff none := by
  unfold cutoffOf at hx
  rw [hs, G.ok_bind] at hx
  unfold Client.ownerMonitor at h
  obtain ⟨v0, h0, h⟩ := G.bind_eq_ok.1 h
  obtain ⟨v1, h1, h⟩ := G.bind_eq_ok.1 h
  obtain ⟨v2, h2, h⟩ := G.bind_eq_ok.1 h
  obtain ⟨⟨m, v3⟩, h3, h⟩ := G.bind_eq_ok.1 h
  obtain ⟨⟨r, v4⟩, h4, h⟩ := G.bind_eq_ok.1 h
  obtain ⟨⟨r', v5⟩, h5, h⟩ := G.bind_eq_ok.1 h
  obtain ⟨⟨s, v6⟩, h6, h⟩ := G.bind_eq_ok.1 h
  obtain ⟨s0, hs0, hw⟩ := finish_written hcs hsz hs ht.1 ht.2 h0 (addRetainedVersions_frame h1)
    (addRetainedVersions_collected h1) h2 (((run_frame h3).1.trans (run_frame h4).1).trans (run_frame h5).1)
    (fun c => vrun_collected hcs h5 (vrun_collected hcs h4 (vrun_collected hcs h3 c))) h6
  rw [hs] at hs0
  cases hs0
  obtain ⟨c1, c2, c3, c4, c5, c6, c7⟩ := finish_cutoff h0 (addRetainedVersions_later h1) h2
    (((run_later h3).trans (run_later h4)).trans (run_later h5)) h6
  obtain ⟨c, -, h⟩ := G.bind_eq_ok.1 h
  dsimp only at h
  split at h
  · cases h
  next o' ho' =>
  obtain ⟨ls'', hls, h⟩ := G.bind_eq_ok.1 h
  obtain ⟨raw, hm⟩ := putLabelState_stored h (Or.inr (by rw [(updateRetainedVersions_keeps hls).2]; simp))
  have hkept : cutoffOf env st' = .ok cutoff := (cutoffOf_of_holds hmode hw (putLabelState_holds h)).trans (c7 _ hx)
  refine ⟨hkept, ?_⟩
  suffices hd : Due st' cutoff label from ⟨hd, hd, fun hn => hn _ hd⟩
  refine ⟨raw, o'.starting, hm, ?_⟩
  rw [cutoffOf_of_holds hmode hw (putLabelState_holds h), c6] at hkept
  obtain ⟨d, hd, hcut⟩ := G.bind_eq_ok.1 hkept
  have hd' : d = some cutoff := by
    cases d with
    | none => cases hcut
    | some y => cases hcut; rfl
  subst hd'
  -- the timestamps
  obtain ⟨hm0, -⟩ := newVerifier_table h0
  have l2 := (addRetainedVersions_later h1).trans (updateView_later h2)
  have hm2 := l2.table hm0
  have hm3 := (run_later h3).table hm2
  have hm4 := (run_later h4).table hm3
  have hm5 := (run_later h5).table hm4
  obtain ⟨t3, r3, k3⟩ := vrun_runs h3 hm2
  obtain ⟨t4, r4, k4⟩ := vrun_runs h4 hm3
  obtain ⟨t5, r5, k5⟩ := vrun_runs h5 hm4
  obtain ⟨q1, q2, -, -, q5⟩ := newMonitor_is r3
  obtain ⟨-, e1, e2, e3, e4⟩ := contactMonitor_left r4
  obtain ⟨result, p, root, rootP, hf, hroot, -, hv, -, fw⟩ := finish_ok h6
  obtain ⟨hts, -⟩ := finish_retained hm5 hf
  have hw6 : v6.p.timestamps = v5.p.timestamps := by
    have l5 := ((l2.trans (run_later h3)).trans (run_later h4)).trans (run_later h5)
    obtain ⟨s1, -, hnone, -⟩ := finish_same_head h0 (addRetainedVersions_frame h1) h2
      (((run_frame h3).1.trans (run_frame h4).1).trans (run_frame h5).1) h6
    unfold verifyTreeHead at hv
    rw [show ({ v5 with p := p } : Verifier).fth.treeHead = none by
      show v5.fth.treeHead = none; rw [l5.frame.fth, (newVerifier_ok h0).2.1, hnone]] at hv
    dsimp only at hv
    split at hv
    · cases hv
    · cases hv; exact hts
  have h64t : ∀ e ∈ v6.p.timestamps, e.2 < 2 ^ 64 := by
    have hcol := vrun_collected hcs h5 (vrun_collected hcs h4 (vrun_collected hcs h3 (updateView_collected hcs h2
      (addRetainedVersions_collected h1 (newVerifier_collected hsz (fun s hs' => by cases hs'; exact getState_typed hs)
        ht.2 h0)))))
    rw [hw6]
    exact hcol.times
  obtain ⟨hpos, hmax⟩ := logRoot_size hroot
  have h64 : v6.n < 2 ^ 64 := by rw [fw.n]; unfold LogMath.maxTreeSize at hmax; omega
  obtain ⟨rr, g1, g2⟩ := rightmost_greatest (H := Received.handle env.cs) (cfg := env.cfg) c2 h64 c3 h64t c4
  rw [hd] at g1
  cases g1
  -- the walk
  unfold Alg.ownerMonitor at r5
  have hown : r.owner = some ⟨o.starting, o.verAtStarting, o.upcomingVers⟩ := e4
  rw [hown] at r5
  dsimp only at r5
  obtain ⟨o2, ta, tb, rfl, hwalk, hret⟩ := runs_bind_ok.1 r5
  obtain ⟨rfl, hr'⟩ := runs_pure.1 hret
  have hr' := Except.ok.inj hr'
  subst hr'
  cases ho'
  have hn36 : v6.n = v2.n := by
    rw [fw.n, (run_frame h5).1.n, (run_frame h4).1.n, (run_frame h3).1.n]
  have hnr : r.treeSize = v6.n := by rw [e2]; show m.treeSize = _; rw [q2, hn36]
  have hcfg : r.cfg = env.cfg := by rw [e1]; exact q1
  have hrm : r.rightmost = rb (spread v6.p.timestamps) v6.n v6.n := by
    rw [e3]
    show m.rightmost = _
    have : (v6.n - 1, m.rightmost) ∈ v6.p.timestamps := by
      rw [hw6, hn36]
      exact (run_later h5).grows hm4 _ ((run_later h4).grows hm3 _ (k3 _ _ q5))
    rw [show rb (spread v6.p.timestamps) v6.n v6.n = spread v6.p.timestamps (v6.n - 1) by simp [rb]]
    exact (spread_eq c3 this).symm
  rw [hnr, hcfg, hrm, root_eq c2] at hwalk
  have htrace : TsTrace ta (spread v6.p.timestamps) := by
    intro y a hy
    have : (y, a) ∈ v6.p.timestamps := by
      rw [hw6]
      exact k5 y a (List.mem_append_left _ hy)
    exact (spread_eq c3 this).symm
  rcases ownerWalk_start (spread_good h64t v6.n) _ _ _ _ _ _ _ (.root c2) htrace hwalk with e | e
  · rw [e]; exact hstart
  · exact g2.2 _ e

/-! ### owned labels -/

/-- no bytes are read as the state of a label with an owner -/
theorem newClientLabelState_owner {sz : Sizes} {buf rest : Bytes} {ls : ClientLabelState}
    (h : newClientLabelState sz buf = .ok (ls, rest)) : ls.owner = none ∧ Each MonitorMapEntry.Typed ls.contact := by
  unfold newClientLabelState at h
  obtain ⟨contact, r1, h1, h⟩ := rd_bind_inv h
  obtain ⟨owner, r2, ho, h⟩ := rd_bind_inv h
  obtain ⟨versions, r3, -, h⟩ := rd_bind_inv h
  cases h
  refine ⟨?_, ((codec_slice codec_monitorMapEntry 4 "contact state").canon _ _ _ h1).1⟩
  unfold rOpt at ho
  obtain ⟨present, r4, -, ho⟩ := rd_bind_inv ho
  split at ho
  · obtain ⟨o, r5, ho, -⟩ := rd_bind_inv ho
    unfold newLabelOwnerState at ho
    obtain ⟨start, r6, -, ho⟩ := rd_bind_inv ho
    obtain ⟨i, r7, hi, -⟩ := rd_bind_inv ho
    cases hi
  · cases ho; rfl

theorem getLabelState_owner {label : Bytes} {ls : ClientLabelState} (h : getLabelState env st label = .ok ls) :
    ls.owner = none ∧ Each MonitorMapEntry.Typed ls.contact := by
  unfold getLabelState parseLabelState at h
  split at h
  · cases h
    exact ⟨rfl, fun a ha => by cases ha⟩
  · unfold readAll at h
    split at h
    · cases h
    next hr =>
      split at h
      · cases h
      · cases h
        exact newClientLabelState_owner hr

/-- **No label is ever monitored or updated by its owner**, whatever the database holds: `Monitor` never returns an
`OwnerMonitorRequest`, and `Update` always fails. -/
theorem C93_owner_never (st : CStore) :
    (∀ pick req state ls, monitorRequest env st pick ≠ .ok (some (.owner req, state, ls))) ∧
    (∀ label values req sv, updateRequest env st label values ≠ .ok (req, sv)) := by
  constructor
  · intro pick req state ls h
    unfold monitorRequest at h
    obtain ⟨state', -, h⟩ := G.bind_eq_ok.1 h
    obtain ⟨cut, -, h⟩ := G.bind_eq_ok.1 h
    split at h
    · cases h
    · obtain ⟨ls', hl, h⟩ := G.bind_eq_ok.1 h
      rw [(getLabelState_owner hl).1] at h
      dsimp only at h
      split at h
      · cases h
      · cases h
  · intro label values req sv h
    unfold updateRequest at h
    obtain ⟨state', -, h⟩ := G.bind_eq_ok.1 h
    obtain ⟨ls', hl, h⟩ := G.bind_eq_ok.1 h
    rw [(getLabelState_owner hl).1] at h
    cases h

/-- **What `Monitor` asks for.**  If the state of the client and that of the label can be read, then `Monitor`, when `GetStaleLabel` returns the
label, makes a request if and only if there is something to monitor, and the request is for the tree that the client has seen last and for
exactly the entries that are monitored. -/
theorem C93_asks {label : Bytes} {cutoff : Nat} {ls : ClientLabelState} (hc : cutoffOf env st = .ok cutoff)
    (hl : getLabelState env st label = .ok ls) :
    (ls.contact = [] ∧ Errs (monitorRequest env st (some label))) ∨
    (ls.contact ≠ [] ∧ ∃ state, getState env st = .ok state ∧
      monitorRequest env st (some label) =
        .ok (some (.contact ⟨state.map (fun s => s.treeHead.treeSize), label, ls.contact⟩, state, ls))) := by
  unfold cutoffOf at hc
  obtain ⟨state, hs, hd⟩ := G.bind_eq_ok.1 hc
  unfold monitorRequest
  rw [hs, G.ok_bind, hd, G.ok_bind]
  dsimp only
  rw [hl, G.ok_bind, (getLabelState_owner hl).1]
  dsimp only
  by_cases h : ls.contact = []
  · rw [if_pos (by rw [h]; rfl)]
    exact Or.inl ⟨h, _, rfl⟩
  · rw [if_neg (fun h0 => h (List.length_eq_zero_iff.1 h0))]
    refine Or.inr ⟨h, state, rfl, ?_⟩
    cases state <;> rfl

/-- **A client that starts to own a label breaks `Monitor`**: after any accepted response to an `OwnerInitRequest` the label is due, and
whenever `GetStaleLabel` returns it, `Monitor` fails.  So does starting to own the label again. -/
theorem C93_init_breaks (hcs : env.cs.Good) (hsz : env.sz.hash = env.cs.hashSize) (hmode : env.cfg.mode ≠ thirdPartyAuditing)
    {now : Nat} {label : Bytes} {state : Option ClientState} {ls : ClientLabelState} {req : OwnerInitRequest}
    {res : OwnerInitResponse} (hr : ownerInitRequest env st label = .ok (req, state, ls)) (ht : res.Typed env.cfg env.sz)
    (h : Client.ownerInit env now state ls req res st = .ok st') :
    ∃ cutoff, cutoffOf env st' = .ok cutoff ∧ MayReturn st' cutoff (some label) ∧ Errs (getLabelState env st' label) ∧
      Errs (monitorRequest env st' (some label)) ∧ Errs (ownerInitRequest env st' label) ∧
      ∀ values, Errs (updateRequest env st' label values) := by
  obtain ⟨cutoff, hc, hdue, -⟩ := C93_init_again hcs hsz hmode hr ht h
  have herr : Errs (getLabelState env st' label) := by
    unfold ownerInitRequest at hr
    obtain ⟨state', hs, hr⟩ := G.bind_eq_ok.1 hr
    obtain ⟨ls', hl, hr⟩ := G.bind_eq_ok.1 hr
    split at hr
    · cases hr
    · obtain ⟨start, hst, hr⟩ := G.bind_eq_ok.1 hr
      cases hr
      unfold Client.ownerInit at h
      obtain ⟨v0, -, h⟩ := G.bind_eq_ok.1 h
      obtain ⟨l, -, h⟩ := G.bind_eq_ok.1 h
      obtain ⟨v1, -, h⟩ := G.bind_eq_ok.1 h
      obtain ⟨-, -, h⟩ := G.bind_eq_ok.1 h
      obtain ⟨v2, -, h⟩ := G.bind_eq_ok.1 h
      obtain ⟨⟨m, v3⟩, -, h⟩ := G.bind_eq_ok.1 h
      obtain ⟨⟨r, v4⟩, -, h⟩ := G.bind_eq_ok.1 h
      obtain ⟨⟨s, v5⟩, -, h⟩ := G.bind_eq_ok.1 h
      dsimp only at h
      split at h
      · cases h
      · obtain ⟨v6, -, h⟩ := G.bind_eq_ok.1 h
        obtain ⟨ls'', hls, h⟩ := G.bind_eq_ok.1 h
        obtain ⟨k1, k2⟩ := updateRetainedVersions_keeps hls
        dsimp only at k1 k2
        obtain ⟨raw, rl, -, hrl, rfl⟩ := putLabelState_spec h
        unfold rawLabelState at hrl
        rw [if_pos (Or.inr (by rw [k2]; simp))] at hrl
        obtain ⟨b, hb, hrl⟩ := G.bind_eq_ok.1 hrl
        cases hrl
        have hlen : ls''.contact.length < 2 ^ 32 ∧ ∀ o, ls''.owner = some o → o.upcomingVers.length < 2 ^ 32 := by
          unfold ClientLabelState.marshal at hb
          obtain ⟨x, y, hx, hy, -⟩ := wSeq_ok.1 hb
          constructor
          · unfold wSlice at hx
            split at hx
            · cases hx
            · omega
          · intro o ho
            rw [ho] at hy
            obtain ⟨-, y2, -, hy, -⟩ := wSeq_ok.1 hy
            unfold LabelOwnerState.marshal at hy
            obtain ⟨-, y3, -, hy, -⟩ := wSeq_ok.1 hy
            obtain ⟨-, y4, -, hy, -⟩ := wSeq_ok.1 hy
            unfold wSlice at hy
            split at hy
            · cases hy
            · omega
        obtain ⟨b', hb', hbad⟩ := C46_owner_false env.sz ls'' _ k2 (by rw [k1]; exact (getLabelState_owner hl).2) hlen.1
          (hlen.2 _ k2)
        rw [hb] at hb'
        cases hb'
        have : getLabelState env (st.putLabel raw label (some b) start) label =
            readAll (newClientLabelState env.sz) "unexpected data appended to client label state" b := by
          unfold getLabelState CStore.putLabel
          simp [List.lookup, parseLabelState]
        rw [this]
        obtain ⟨msg, hmsg⟩ := hbad
        exact ⟨msg, by unfold readAll; rw [hmsg]⟩
  obtain ⟨msg, hmsg⟩ := herr
  have hc' := hc
  unfold cutoffOf at hc'
  obtain ⟨state', hs', hd'⟩ := G.bind_eq_ok.1 hc'
  refine ⟨cutoff, hc, hdue, ⟨msg, hmsg⟩, ⟨msg, ?_⟩, ⟨msg, ?_⟩, fun values => ⟨msg, ?_⟩⟩
  · unfold monitorRequest
    rw [hs', G.ok_bind, hd', G.ok_bind]
    dsimp only
    rw [hmsg, G.error_bind]
  · unfold ownerInitRequest
    rw [hs', G.ok_bind, hmsg, G.error_bind]
  · unfold updateRequest
    rw [hs', G.ok_bind, hmsg, G.error_bind]

/-- **`Monitor` never finds that nothing needs to be monitored** once a label has been monitored. -/
theorem C93_never_nil (hcs : env.cs.Good) (hsz : env.sz.hash = env.cs.hashSize) (hmode : env.cfg.mode ≠ thirdPartyAuditing)
    {now : Nat} {pick : Option Bytes} {state : Option ClientState} {ls : ClientLabelState} {req : ContactMonitorRequest}
    {res : MonitorResponse} (hr : monitorRequest env st pick = .ok (some (.contact req, state, ls)))
    (ht : res.Typed env.cfg env.sz) (h : Client.contactMonitor env now state ls req res st = .ok st') :
    ¬ Recommends env st' none := by
  obtain ⟨c, hc, -, -, hno⟩ := C93_contact_again hcs hsz hmode hr ht h
  rintro ⟨c', pick', hc', hp, hm⟩
  rw [hc] at hc'
  cases hc'
  cases pick' with
  | none => exact hno hp
  | some l =>
    unfold monitorRequest at hm
    obtain ⟨state', -, hm⟩ := G.bind_eq_ok.1 hm
    obtain ⟨cut, -, hm⟩ := G.bind_eq_ok.1 hm
    obtain ⟨ls', -, hm⟩ := G.bind_eq_ok.1 hm
    split at hm
    · split at hm
      · cases hm
      · cases hm
    · cases hm

/-! ### one label keeps the others from being monitored -/

/-- `Monitor` recommends the label, and the response to its request is accepted -/
def Round (env : CEnv) (label : Bytes) (st st' : CStore) : Prop :=
  ∃ now req state ls res, Recommends env st (some (.contact req, state, ls)) ∧ req.label = label ∧ res.Typed env.cfg env.sz ∧
    Client.contactMonitor env now state ls req res st = .ok st'

/-- `k` such rounds, all for the same label -/
inductive Rounds (env : CEnv) (label : Bytes) : Nat → CStore → CStore → Prop
  | zero (st : CStore) : Rounds env label 0 st st
  | succ {k : Nat} {st st' st'' : CStore} : Rounds env label k st st' → Round env label st' st'' → Rounds env label (k + 1) st st''

/-- the state of the label while it waits for entry 5 to be covered -/
def busyLabel : ClientLabelState := ⟨[⟨5, 1⟩], none, watchVersions.take 2⟩

/-- two labels that the client monitors, both due -/
def busyStore : CStore :=
  ⟨watchState.marshal.toOption, [([10], (busyLabel.marshal.toOption).getD [], 3), ([11], (busyLabel.marshal.toOption).getD [], 2)]⟩

/-- the answer: nothing new -/
def busyRes : MonitorResponse := ⟨⟨none, none⟩, ⟨[], [], [], []⟩⟩

theorem busy_request : monitorRequest soundClient busyStore (some [10]) =
    .ok (some (.contact ⟨some 6, [10], [⟨5, 1⟩]⟩, some watchState, busyLabel)) := by
  have h1 : getState soundClient busyStore = .ok (some watchState) := by decide +kernel
  have h2 : getLabelState soundClient busyStore [10] = .ok busyLabel := by decide +kernel
  have h3 : getDistinguished soundClient (some watchState) = .ok 3 := by decide +kernel
  unfold monitorRequest
  rw [h1, G.ok_bind, h3, G.ok_bind]
  simp only [h2, G.ok_bind]
  rfl

theorem busy_due : Due busyStore 3 [10] ∧ Due busyStore 3 [11] :=
  ⟨⟨_, 3, List.mem_cons_self, by decide⟩, ⟨_, 2, List.mem_cons_of_mem _ List.mem_cons_self, by decide⟩⟩

theorem busy_typed : busyRes.Typed soundClient.cfg soundClient.sz := by
  refine ⟨⟨?_, ?_, ?_⟩, ?_⟩ <;> simp [busyRes, Maybe, CombinedTreeProof.Typed, Each]

/-- the response is accepted, and the store stays as it is -/
theorem busy_round : Round soundClient [10] busyStore busyStore :=
  ⟨12, _, _, _, busyRes, ⟨3, some [10], by decide +kernel, busy_due.1, busy_request⟩, rfl, busy_typed, by decide +kernel⟩

/-- **Another label may never be monitored.**  Two labels are due.  For every `k` there is an execution in which `Monitor` is
called `k` times, all responses are accepted, and the second label is still due as it was in the beginning: it has
never been recommended. -/
theorem C93_starves : ∃ (env : CEnv) (st : CStore) (a b : Bytes) (cutoff : Nat), env.cs.Good ∧ a ≠ b ∧
    cutoffOf env st = .ok cutoff ∧ Due st cutoff a ∧ Due st cutoff b ∧
    ∀ k, ∃ st', Rounds env a k st st' ∧ cutoffOf env st' = .ok cutoff ∧ Due st' cutoff b := by
  refine ⟨soundClient, busyStore, [10], [11], 3, toySuite_good, by decide, by decide +kernel, busy_due.1, busy_due.2, fun k => ?_⟩
  refine ⟨busyStore, ?_, by decide +kernel, busy_due.2⟩
  induction k with
  | zero => exact .zero _
  | succ k ih => exact .succ ih busy_round

/-- the hypotheses of `C93_contact_again` and `C93_never_nil` are met -/
example : ¬ Recommends soundClient busyStore none :=
  C93_never_nil (now := 12) toySuite_good rfl (by decide) busy_request busy_typed
    (show Client.contactMonitor soundClient 12 (some watchState) busyLabel ⟨some 6, [10], [⟨5, 1⟩]⟩ busyRes busyStore = .ok busyStore by
      decide +kernel)

/-- the hypotheses of `C93_asks` are met, by a label with one monitored entry -/
example : cutoffOf soundClient busyStore = .ok 3 ∧ getLabelState soundClient busyStore [10] = .ok busyLabel ∧ busyLabel.contact ≠ [] :=
  ⟨by decide +kernel, by decide +kernel, by decide⟩

/-- the hypotheses of `C93_owner_again` are met: the owner has monitored the label up to entry 2, and now up to entry 3, the cutoff -/
example : ∃ st', Client.ownerMonitor soundClient 12 (some watchState) ⟨[⟨4, 1⟩], some watchOwner, watchVersions⟩ watchOwner
      ⟨some 6, [10], [⟨4, 1⟩], 2, some 1⟩ watchOwnerRes busyStore = .ok st' ∧
    cutoffOf soundClient st' = .ok 3 ∧ Due st' 3 [10] ∧ MayReturn st' 3 (some [10]) ∧ ¬ MayReturn st' 3 none := by
  have hacc : (Client.ownerMonitor soundClient 12 (some watchState) ⟨[⟨4, 1⟩], some watchOwner, watchVersions⟩ watchOwner
      ⟨some 6, [10], [⟨4, 1⟩], 2, some 1⟩ watchOwnerRes busyStore).isOk = true := by decide +kernel
  match hst : Client.ownerMonitor soundClient 12 (some watchState) ⟨[⟨4, 1⟩], some watchOwner, watchVersions⟩ watchOwner
      ⟨some 6, [10], [⟨4, 1⟩], 2, some 1⟩ watchOwnerRes busyStore with
  | .error e => rw [hst] at hacc; cases hacc
  | .ok st' =>
    refine ⟨st', rfl, C93_owner_again (now := 12) (state := some watchState) toySuite_good rfl (by decide) (by decide +kernel) ?_ hst
      (by decide +kernel) (by decide)⟩
    refine ⟨⟨?_, ?_, ?_⟩, ?_⟩ <;> simp [watchOwnerRes, Maybe, CombinedTreeProof.Typed, Each, ProofTyped, ResTyped, Wire.Fits] <;> decide

/-- the answer to a client that wants to own the label, starting at entry 3 -/
def ownStart : OwnerInitResponse :=
  ⟨⟨none, none⟩, [1], [⟨[0], some [167]⟩, ⟨[0], some [156]⟩, ⟨[0], none⟩, ⟨[0], none⟩],
   ⟨[], [⟨[.inclusion 2, .inclusion 1, .nonInclusionLeaf [0x40] [156] 1, .nonInclusionLeaf [0x40] [156] 1], [[33]]⟩], [], []⟩⟩

/-- the hypotheses of `C93_init_again` and `C93_init_breaks` are met -/
example : ∃ st', Client.ownerInit soundClient 12 (some watchState) ⟨[], none, []⟩ ⟨some 6, [10], 3⟩ ownStart
      ⟨watchState.marshal.toOption, []⟩ = .ok st' ∧
    ∃ cutoff, cutoffOf soundClient st' = .ok cutoff ∧ Due st' cutoff [10] ∧ ¬ MayReturn st' cutoff none := by
  have hacc : (Client.ownerInit soundClient 12 (some watchState) ⟨[], none, []⟩ ⟨some 6, [10], 3⟩ ownStart
      ⟨watchState.marshal.toOption, []⟩).isOk = true := by decide +kernel
  match hst : Client.ownerInit soundClient 12 (some watchState) ⟨[], none, []⟩ ⟨some 6, [10], 3⟩ ownStart
      ⟨watchState.marshal.toOption, []⟩ with
  | .error e => rw [hst] at hacc; cases hacc
  | .ok st' =>
    refine ⟨st', rfl, ?_⟩
    refine C93_init_again (now := 12) toySuite_good rfl (by decide) (by decide +kernel) ?_ hst
    refine ⟨⟨?_, ?_, ?_⟩, ?_⟩ <;>
      simp [ownStart, Maybe, CombinedTreeProof.Typed, Each, ProofTyped, ResTyped, Wire.Fits, BinaryLadderStep.Typed] <;> decide

/-- the answer to a search: the greatest version is 2, which was added in entry 5 -/
def laterRes : SearchResponse :=
  ⟨⟨none, none⟩, some 2, [9], ⟨[193], none⟩, [⟨[0], some [167]⟩, ⟨[0], some [156]⟩, ⟨[0], none⟩, ⟨[0], none⟩],
   ⟨[], [⟨[.inclusion 2, .inclusion 1, .nonInclusionLeaf [0x40] [156] 1, .nonInclusionLeaf [0x40] [156] 1], [[33]]⟩,
     ⟨[.nonInclusionLeaf [0x20] [77] 2, .inclusion 2], [[56], [15]]⟩], [], []⟩⟩

/-- the hypotheses of `C93_search_rests_partial` are met: the label is stored, and not due -/
example : ∃ st', Client.search soundClient 12 id (some lateState) (searchRequest (some lateState) [10] none) laterRes
      ⟨lateState.marshal.toOption, []⟩ = .ok st' ∧ cutoffOf soundClient st' = .ok 3 ∧ st'.labels.map (·.1) = [[10]] ∧
    (st'.labels = [] ∨ (∀ raw t, ([10], raw, t) ∈ st'.labels → 3 < t) ∧ ¬ Due st' 3 [10]) := by
  have hacc : (Client.search soundClient 12 id (some lateState) (searchRequest (some lateState) [10] none) laterRes
      ⟨lateState.marshal.toOption, []⟩).toOption.map (fun s => (s.labels.map (·.1), (cutoffOf soundClient s).toOption)) =
      some ([[10]], some 3) := by decide +kernel
  match hst : Client.search soundClient 12 id (some lateState) (searchRequest (some lateState) [10] none) laterRes
      ⟨lateState.marshal.toOption, []⟩ with
  | .error e => rw [hst] at hacc; cases hacc
  | .ok st' =>
    rw [hst] at hacc
    simp only [Except.toOption, Option.map_some, Option.some.injEq, Prod.mk.injEq] at hacc
    have hc : cutoffOf soundClient st' = .ok 3 := by
      cases hc : cutoffOf soundClient st' with
      | error e => rw [hc] at hacc; cases hacc.2
      | ok a => rw [hc] at hacc; cases hacc.2; rfl
    refine ⟨st', rfl, hc, hacc.1, ?_⟩
    refine C93_search_rests_partial (now := 12) toySuite_good rfl (by decide) (by decide +kernel) ?_ hst hc
    refine ⟨⟨?_, ?_, ?_⟩, ?_⟩ <;>
      simp [laterRes, Maybe, CombinedTreeProof.Typed, Each, ProofTyped, ResTyped, Wire.Fits, BinaryLadderStep.Typed, searchRequest,
        UpdateValue.Typed, SuffixTyped] <;> decide

end Katie.Props
