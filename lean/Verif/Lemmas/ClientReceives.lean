import Verif.Spec.ClientWire
import Verif.Lemmas.ClientState

/-
What a client has in its store after it has accepted a decoded response.
-/

namespace Katie.Client
open Katie Katie.Wire Katie.Alg Katie.Ladder Katie.Server Katie.ClientSpec

theorem putState_holds {st st' : CStore} {s : ClientState} (h : putState st s = .ok st') : Holds st' s := by
  unfold putState at h
  obtain ⟨raw, h1, h⟩ := G.bind_eq_ok.1 h
  cases h
  exact ⟨raw, h1, rfl⟩

theorem putLabelState_holds {st st' : CStore} {s : ClientState} {label : Bytes} {ls : ClientLabelState} {x : Nat}
    (h : putLabelState st s label ls x = .ok st') : Holds st' s := by
  unfold putLabelState at h
  obtain ⟨raw, h1, h⟩ := G.bind_eq_ok.1 h
  obtain ⟨rl, -, h⟩ := G.bind_eq_ok.1 h
  cases h
  exact ⟨raw, h1, rfl⟩

/-- the new state of a client whose state was `s0` -/
structure Written (env : CEnv) (s0 s : ClientState) : Prop where
  head : s.treeHead = s0.treeHead
  auditor : s.auditor = none
  typed : env.cfg.mode ≠ thirdPartyAuditing → s.Typed env.cfg env.sz

/-- the last steps of all operations -/
theorem finish_written {env : CEnv} (hcs : env.cs.Good) (hsz : env.sz.hash = env.cs.hashSize) {st : CStore} {now : Nat}
    {state : Option ClientState} {fth : FullTreeHead} {proof : CombinedTreeProof} {v0 v1 v2 v3 w : Verifier}
    {s : ClientState} (hst : getState env st = .ok state) (ht : fth.Typed env.cfg) (hp : proof.Typed env.sz)
    (h0 : newVerifier state (getLast state) fth proof = .ok v0) (f01 : Frame v0 v1)
    (c01 : Collected env.cs.hashSize v0.p → Collected env.cs.hashSize v1.p)
    (h12 : v1.updateView env now = .ok v2) (f23 : Frame v2 v3)
    (c23 : Collected env.cs.hashSize v2.p → Collected env.cs.hashSize v3.p) (h : v3.finish env = .ok (s, w)) :
    ∃ s0, getState env st = .ok (some s0) ∧ Written env s0 s := by
  obtain ⟨s0, rfl, hn, hth, ha⟩ := finish_same_head h0 f01 h12 f23 h
  have hnone : fth.auditor = none := by
    have := ht.2.2
    rw [hn] at this
    cases hf : fth.auditor with
    | none => rfl
    | some a => rw [hf] at this; simp at this
  have ht0 := getState_typed hst
  have hc := c23 (updateView_collected hcs h12 (c01 (newVerifier_collected hsz
    (fun s hs => by cases hs; exact ht0) hp h0)))
  refine ⟨s0, hst, hth, ha.trans hnone, fun hm => finish_typed hsz h hc hth ht0 hm (ha.trans hnone)⟩

/-- what is in the store after an accepted response -/
theorem receives_written {env : CEnv} (hcs : env.cs.Good) (hsz : env.sz.hash = env.cs.hashSize) {st st' : CStore}
    (h : Receives env st st') : ∃ s0 s, getState env st = .ok (some s0) ∧ Holds st' s ∧ Written env s0 s := by
  cases h with
  | search now order state label version res hs ht h =>
    unfold Client.search at h
    obtain ⟨⟨x, s, v⟩, h1, h⟩ := G.bind_eq_ok.1 h
    have key : ∃ s0, getState env st = .ok (some s0) ∧ Written env s0 s := by
      unfold verifySearch at h1
      obtain ⟨v0, h0, h1⟩ := G.bind_eq_ok.1 h1
      obtain ⟨t, -, h1⟩ := G.bind_eq_ok.1 h1
      obtain ⟨-, -, h1⟩ := G.bind_eq_ok.1 h1
      obtain ⟨l, -, h1⟩ := G.bind_eq_ok.1 h1
      obtain ⟨c, -, h1⟩ := G.bind_eq_ok.1 h1
      obtain ⟨v1, h2, h1⟩ := G.bind_eq_ok.1 h1
      obtain ⟨v2, h3, h1⟩ := G.bind_eq_ok.1 h1
      obtain ⟨⟨x', v3⟩, h4, h1⟩ := G.bind_eq_ok.1 h1
      obtain ⟨⟨s', v4⟩, h5, h1⟩ := G.bind_eq_ok.1 h1
      cases h1
      exact finish_written hcs hsz hs ht.1 ht.2.2.2.2.2 h0 (processLadder_frame h2) (processLadder_collected h2) h3
        (run_frame h4).1 (vrun_collected hcs h4) h5
    obtain ⟨s0, hs0, hw⟩ := key
    refine ⟨s0, s, hs0, ?_, hw⟩
    dsimp only at h
    split at h
    · exact putState_holds h
    · obtain ⟨⟨dle, v'⟩, -, h⟩ := G.bind_eq_ok.1 h
      dsimp only at h
      split at h
      · exact putState_holds h
      · obtain ⟨ls, -, h⟩ := G.bind_eq_ok.1 h
        obtain ⟨v'', -, h⟩ := G.bind_eq_ok.1 h
        obtain ⟨t, -, h⟩ := G.bind_eq_ok.1 h
        obtain ⟨⟨c, x'⟩, -, h⟩ := G.bind_eq_ok.1 h
        obtain ⟨ls', -, h⟩ := G.bind_eq_ok.1 h
        exact putLabelState_holds h
  | ownerInit now state ls label req res hr ht h =>
    unfold ownerInitRequest at hr
    obtain ⟨state', hs, hr⟩ := G.bind_eq_ok.1 hr
    obtain ⟨ls', -, hr⟩ := G.bind_eq_ok.1 hr
    split at hr
    · cases hr
    · obtain ⟨start, -, hr⟩ := G.bind_eq_ok.1 hr
      cases hr
      unfold Client.ownerInit at h
      obtain ⟨v0, h0, h⟩ := G.bind_eq_ok.1 h
      obtain ⟨l, -, h⟩ := G.bind_eq_ok.1 h
      obtain ⟨v1, h1, h⟩ := G.bind_eq_ok.1 h
      obtain ⟨-, -, h⟩ := G.bind_eq_ok.1 h
      obtain ⟨v2, h2, h⟩ := G.bind_eq_ok.1 h
      obtain ⟨⟨m, v3⟩, h3, h⟩ := G.bind_eq_ok.1 h
      obtain ⟨⟨r, v4⟩, h4, h⟩ := G.bind_eq_ok.1 h
      obtain ⟨⟨s, v5⟩, h5, h⟩ := G.bind_eq_ok.1 h
      obtain ⟨s0, hs0, hw⟩ := finish_written hcs hsz hs ht.1 ht.2.2.2 h0 (processLadder_frame h1)
        (processLadder_collected h1) h2 ((run_frame h3).1.trans (run_frame h4).1)
        (fun c => vrun_collected hcs h4 (vrun_collected hcs h3 c)) h5
      refine ⟨s0, s, hs0, ?_, hw⟩
      dsimp only at h
      split at h
      · cases h
      · obtain ⟨v6, -, h⟩ := G.bind_eq_ok.1 h
        obtain ⟨ls', -, h⟩ := G.bind_eq_ok.1 h
        exact putLabelState_holds h
  | contactMonitor now pick state ls req res hr ht h =>
    unfold monitorRequest at hr
    obtain ⟨state', hs, hr⟩ := G.bind_eq_ok.1 hr
    obtain ⟨cut, -, hr⟩ := G.bind_eq_ok.1 hr
    split at hr
    · cases hr
    · obtain ⟨ls', -, hr⟩ := G.bind_eq_ok.1 hr
      split at hr
      · split at hr
        · cases hr
        · cases hr
          unfold Client.contactMonitor at h
          obtain ⟨v0, h0, h⟩ := G.bind_eq_ok.1 h
          obtain ⟨v1, h1, h⟩ := G.bind_eq_ok.1 h
          obtain ⟨v2, h2, h⟩ := G.bind_eq_ok.1 h
          obtain ⟨⟨m, v3⟩, h3, h⟩ := G.bind_eq_ok.1 h
          obtain ⟨⟨r, v4⟩, h4, h⟩ := G.bind_eq_ok.1 h
          obtain ⟨⟨s, v5⟩, h5, h⟩ := G.bind_eq_ok.1 h
          obtain ⟨s0, hs0, hw⟩ := finish_written hcs hsz hs ht.1 ht.2 h0 (addRetainedVersions_frame h1)
            (addRetainedVersions_collected h1) h2 ((run_frame h3).1.trans (run_frame h4).1)
            (fun c => vrun_collected hcs h4 (vrun_collected hcs h3 c)) h5
          refine ⟨s0, s, hs0, ?_, hw⟩
          obtain ⟨c, -, h⟩ := G.bind_eq_ok.1 h
          obtain ⟨ls', -, h⟩ := G.bind_eq_ok.1 h
          obtain ⟨⟨dle, v6⟩, -, h⟩ := G.bind_eq_ok.1 h
          dsimp only at h
          split at h
          · cases h
          · exact putLabelState_holds h
      · cases hr
  | ownerMonitor now pick state ls o req res hr ho ht h =>
    unfold monitorRequest at hr
    obtain ⟨state', hs, hr⟩ := G.bind_eq_ok.1 hr
    obtain ⟨cut, -, hr⟩ := G.bind_eq_ok.1 hr
    split at hr
    · cases hr
    · obtain ⟨ls', -, hr⟩ := G.bind_eq_ok.1 hr
      split at hr
      · split at hr
        · cases hr
        · cases hr
      · cases hr
        unfold Client.ownerMonitor at h
        obtain ⟨v0, h0, h⟩ := G.bind_eq_ok.1 h
        obtain ⟨v1, h1, h⟩ := G.bind_eq_ok.1 h
        obtain ⟨v2, h2, h⟩ := G.bind_eq_ok.1 h
        obtain ⟨⟨m, v3⟩, h3, h⟩ := G.bind_eq_ok.1 h
        obtain ⟨⟨r, v4⟩, h4, h⟩ := G.bind_eq_ok.1 h
        obtain ⟨⟨r', v5⟩, h5, h⟩ := G.bind_eq_ok.1 h
        obtain ⟨⟨s, v6⟩, h6, h⟩ := G.bind_eq_ok.1 h
        obtain ⟨s0, hs0, hw⟩ := finish_written hcs hsz hs ht.1 ht.2 h0 (addRetainedVersions_frame h1)
          (addRetainedVersions_collected h1) h2 (((run_frame h3).1.trans (run_frame h4).1).trans (run_frame h5).1)
          (fun c => vrun_collected hcs h5 (vrun_collected hcs h4 (vrun_collected hcs h3 c))) h6
        refine ⟨s0, s, hs0, ?_, hw⟩
        obtain ⟨c, -, h⟩ := G.bind_eq_ok.1 h
        dsimp only at h
        split at h
        · cases h
        · obtain ⟨ls', -, h⟩ := G.bind_eq_ok.1 h
          exact putLabelState_holds h
  | update now label values req sv sv' res hr ht h =>
    unfold updateRequest at hr
    obtain ⟨state', hs, hr⟩ := G.bind_eq_ok.1 hr
    obtain ⟨ls', -, hr⟩ := G.bind_eq_ok.1 hr
    split at hr
    · cases hr
    · cases hr
      unfold Stream.verify at h
      obtain ⟨⟨sver, coms⟩, -, h⟩ := G.bind_eq_ok.1 h
      obtain ⟨l, -, h⟩ := G.bind_eq_ok.1 h
      obtain ⟨-, -, h⟩ := G.bind_eq_ok.1 h
      obtain ⟨v0, h0, h⟩ := G.bind_eq_ok.1 h
      obtain ⟨v1, h1, h⟩ := G.bind_eq_ok.1 h
      obtain ⟨v1', h1', h⟩ := G.bind_eq_ok.1 h
      obtain ⟨v2, h2, h⟩ := G.bind_eq_ok.1 h
      obtain ⟨⟨m, v3⟩, h3, h⟩ := G.bind_eq_ok.1 h
      obtain ⟨⟨r, v4⟩, h4, h⟩ := G.bind_eq_ok.1 h
      obtain ⟨⟨s, v5⟩, h5, h⟩ := G.bind_eq_ok.1 h
      obtain ⟨s0, hs0, hw⟩ := finish_written hcs hsz hs ht.1 ht.2.2.2.2 h0
        ((addRetainedVersions_frame h1).trans (processLadder_frame h1'))
        (fun c => processLadder_collected h1' (addRetainedVersions_collected h1 c)) h2
        ((run_frame h3).1.trans (run_frame h4).1)
        (fun c => vrun_collected hcs h4 (vrun_collected hcs h3 c)) h5
      refine ⟨s0, s, hs0, ?_, hw⟩
      obtain ⟨c, -, h⟩ := G.bind_eq_ok.1 h
      dsimp only at h
      split at h
      · cases h
      · obtain ⟨ls', -, h⟩ := G.bind_eq_ok.1 h
        obtain ⟨st2, h6, h⟩ := G.bind_eq_ok.1 h
        cases h
        exact putLabelState_holds h6

end Katie.Client
