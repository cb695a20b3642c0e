import Verif.Spec.Client
import Verif.Lemmas.ClientOps
import Verif.Props.ServerExample

/-
C42, C43: the client never accepts a tree head.
-/

namespace Katie.Props
open Katie Katie.Wire Katie.Alg Katie.Ladder Katie.Server Katie.Client Katie.ClientSpec

theorem putState_holds {st st' : CStore} {s : ClientState} (h : putState st s = .ok st') : Holds st' s := by
  unfold putState at h
  obtain ⟨raw, h1, h⟩ := G.bind_eq_ok.1 h
  cases h
  exact ⟨raw, h1, rfl⟩

theorem putLabelState_holds {st st' : CStore} {s : ClientState} {label : Bytes} {ls : ClientLabelState} {x : Nat}
    (h : putLabelState st s label ls x = .ok st') : Holds st' s := by
  unfold putLabelState at h
  obtain ⟨raw, h1, h⟩ := G.bind_eq_ok.1 h
  obtain ⟨rl, -, h⟩ := G.bind_eq_ok.1 h
  cases h
  exact ⟨raw, h1, rfl⟩

/-- the part of a search that the client verifies before touching the store -/
theorem verifySearch_same_head {env : CEnv} {now : Nat} {state : Option ClientState} {label : Bytes}
    {version : Option Nat} {res : SearchResponse} {x : Nat} {s : ClientState} {v : Verifier}
    (h : verifySearch env now state (searchRequest state label version) res = .ok (x, s, v)) :
    ∃ s0, state = some s0 ∧ res.fullTreeHead.treeHead = none ∧ s.treeHead = s0.treeHead ∧
      s.auditor = res.fullTreeHead.auditor := by
  unfold verifySearch at h
  obtain ⟨v0, h0, h⟩ := G.bind_eq_ok.1 h
  obtain ⟨t, -, h⟩ := G.bind_eq_ok.1 h
  obtain ⟨-, -, h⟩ := G.bind_eq_ok.1 h
  obtain ⟨l, -, h⟩ := G.bind_eq_ok.1 h
  obtain ⟨c, -, h⟩ := G.bind_eq_ok.1 h
  obtain ⟨v1, h1, h⟩ := G.bind_eq_ok.1 h
  obtain ⟨v2, h2, h⟩ := G.bind_eq_ok.1 h
  obtain ⟨⟨x', v3⟩, h3, h⟩ := G.bind_eq_ok.1 h
  obtain ⟨⟨s', v4⟩, h4, h⟩ := G.bind_eq_ok.1 h
  cases h
  exact finish_same_head h0 (processLadder_frame h1) h2 (run_frame h3).1 h4

/-- whatever is accepted, the client had a state, and its tree head stays the same -/
theorem accepts_same_head {env : CEnv} {st st' : CStore} (h : Accepts env st st') :
    ∃ s0 s, getState env st = .ok (some s0) ∧ Holds st' s ∧ s.treeHead = s0.treeHead := by
  cases h with
  | search now order state label version res hs h =>
    unfold Client.search at h
    obtain ⟨⟨x, s, v⟩, h1, h⟩ := G.bind_eq_ok.1 h
    obtain ⟨s0, rfl, -, hth, -⟩ := verifySearch_same_head h1
    refine ⟨s0, s, hs, ?_, hth⟩
    dsimp only at h
    split at h
    · exact putState_holds h
    · obtain ⟨⟨dle, v'⟩, -, h⟩ := G.bind_eq_ok.1 h
      dsimp only at h
      split at h
      · exact putState_holds h
      · obtain ⟨ls, -, h⟩ := G.bind_eq_ok.1 h
        obtain ⟨v'', -, h⟩ := G.bind_eq_ok.1 h
        obtain ⟨t, -, h⟩ := G.bind_eq_ok.1 h
        obtain ⟨⟨c, x'⟩, -, h⟩ := G.bind_eq_ok.1 h
        obtain ⟨ls', -, h⟩ := G.bind_eq_ok.1 h
        exact putLabelState_holds h
  | ownerInit now state ls label req res hr h =>
    unfold ownerInitRequest at hr
    obtain ⟨state', hs, hr⟩ := G.bind_eq_ok.1 hr
    obtain ⟨ls', -, hr⟩ := G.bind_eq_ok.1 hr
    split at hr
    · cases hr
    · obtain ⟨start, -, hr⟩ := G.bind_eq_ok.1 hr
      cases hr
      unfold Client.ownerInit at h
      obtain ⟨v0, h0, h⟩ := G.bind_eq_ok.1 h
      obtain ⟨l, -, h⟩ := G.bind_eq_ok.1 h
      obtain ⟨v1, h1, h⟩ := G.bind_eq_ok.1 h
      obtain ⟨-, -, h⟩ := G.bind_eq_ok.1 h
      obtain ⟨v2, h2, h⟩ := G.bind_eq_ok.1 h
      obtain ⟨⟨m, v3⟩, h3, h⟩ := G.bind_eq_ok.1 h
      obtain ⟨⟨r, v4⟩, h4, h⟩ := G.bind_eq_ok.1 h
      obtain ⟨⟨s, v5⟩, h5, h⟩ := G.bind_eq_ok.1 h
      obtain ⟨s0, rfl, -, hth, -⟩ := finish_same_head h0 (processLadder_frame h1) h2
        ((run_frame h3).1.trans (run_frame h4).1) h5
      refine ⟨s0, s, hs, ?_, hth⟩
      dsimp only at h
      split at h
      · cases h
      · obtain ⟨v6, -, h⟩ := G.bind_eq_ok.1 h
        obtain ⟨ls', -, h⟩ := G.bind_eq_ok.1 h
        exact putLabelState_holds h
  | contactMonitor now pick state ls req res hr h =>
    unfold monitorRequest at hr
    obtain ⟨state', hs, hr⟩ := G.bind_eq_ok.1 hr
    obtain ⟨cut, -, hr⟩ := G.bind_eq_ok.1 hr
    split at hr
    · cases hr
    · obtain ⟨ls', -, hr⟩ := G.bind_eq_ok.1 hr
      split at hr
      · split at hr
        · cases hr
        · cases hr
          unfold Client.contactMonitor at h
          obtain ⟨v0, h0, h⟩ := G.bind_eq_ok.1 h
          obtain ⟨v1, h1, h⟩ := G.bind_eq_ok.1 h
          obtain ⟨v2, h2, h⟩ := G.bind_eq_ok.1 h
          obtain ⟨⟨m, v3⟩, h3, h⟩ := G.bind_eq_ok.1 h
          obtain ⟨⟨r, v4⟩, h4, h⟩ := G.bind_eq_ok.1 h
          obtain ⟨⟨s, v5⟩, h5, h⟩ := G.bind_eq_ok.1 h
          obtain ⟨s0, rfl, -, hth, -⟩ := finish_same_head h0 (addRetainedVersions_frame h1) h2
            ((run_frame h3).1.trans (run_frame h4).1) h5
          refine ⟨s0, s, hs, ?_, hth⟩
          obtain ⟨c, -, h⟩ := G.bind_eq_ok.1 h
          obtain ⟨ls', -, h⟩ := G.bind_eq_ok.1 h
          obtain ⟨⟨dle, v6⟩, -, h⟩ := G.bind_eq_ok.1 h
          dsimp only at h
          split at h
          · cases h
          · exact putLabelState_holds h
      · cases hr
  | ownerMonitor now pick state ls o req res hr ho h =>
    unfold monitorRequest at hr
    obtain ⟨state', hs, hr⟩ := G.bind_eq_ok.1 hr
    obtain ⟨cut, -, hr⟩ := G.bind_eq_ok.1 hr
    split at hr
    · cases hr
    · obtain ⟨ls', -, hr⟩ := G.bind_eq_ok.1 hr
      split at hr
      · split at hr
        · cases hr
        · cases hr
      · cases hr
        unfold Client.ownerMonitor at h
        obtain ⟨v0, h0, h⟩ := G.bind_eq_ok.1 h
        obtain ⟨v1, h1, h⟩ := G.bind_eq_ok.1 h
        obtain ⟨v2, h2, h⟩ := G.bind_eq_ok.1 h
        obtain ⟨⟨m, v3⟩, h3, h⟩ := G.bind_eq_ok.1 h
        obtain ⟨⟨r, v4⟩, h4, h⟩ := G.bind_eq_ok.1 h
        obtain ⟨⟨r', v5⟩, h5, h⟩ := G.bind_eq_ok.1 h
        obtain ⟨⟨s, v6⟩, h6, h⟩ := G.bind_eq_ok.1 h
        obtain ⟨s0, rfl, -, hth, -⟩ := finish_same_head h0 (addRetainedVersions_frame h1) h2
          (((run_frame h3).1.trans (run_frame h4).1).trans (run_frame h5).1) h6
        refine ⟨s0, s, hs, ?_, hth⟩
        obtain ⟨c, -, h⟩ := G.bind_eq_ok.1 h
        dsimp only at h
        split at h
        · cases h
        · obtain ⟨ls', -, h⟩ := G.bind_eq_ok.1 h
          exact putLabelState_holds h
  | update now label values req sv sv' res hr h =>
    unfold updateRequest at hr
    obtain ⟨state', hs, hr⟩ := G.bind_eq_ok.1 hr
    obtain ⟨ls', -, hr⟩ := G.bind_eq_ok.1 hr
    split at hr
    · cases hr
    · cases hr
      unfold Stream.verify at h
      obtain ⟨⟨sver, coms⟩, -, h⟩ := G.bind_eq_ok.1 h
      obtain ⟨l, -, h⟩ := G.bind_eq_ok.1 h
      obtain ⟨-, -, h⟩ := G.bind_eq_ok.1 h
      obtain ⟨v0, h0, h⟩ := G.bind_eq_ok.1 h
      obtain ⟨v1, h1, h⟩ := G.bind_eq_ok.1 h
      obtain ⟨v1', h1', h⟩ := G.bind_eq_ok.1 h
      obtain ⟨v2, h2, h⟩ := G.bind_eq_ok.1 h
      obtain ⟨⟨m, v3⟩, h3, h⟩ := G.bind_eq_ok.1 h
      obtain ⟨⟨r, v4⟩, h4, h⟩ := G.bind_eq_ok.1 h
      obtain ⟨⟨s, v5⟩, h5, h⟩ := G.bind_eq_ok.1 h
      obtain ⟨s0, rfl, -, hth, -⟩ := finish_same_head h0
        ((addRetainedVersions_frame h1).trans (processLadder_frame h1')) h2
        ((run_frame h3).1.trans (run_frame h4).1) h5
      refine ⟨s0, s, hs, ?_, hth⟩
      obtain ⟨c, -, h⟩ := G.bind_eq_ok.1 h
      dsimp only at h
      split at h
      · cases h
      · obtain ⟨ls', -, h⟩ := G.bind_eq_ok.1 h
        obtain ⟨st2, h6, h⟩ := G.bind_eq_ok.1 h
        cases h
        exact putLabelState_holds h6

/-- **C42 is false.**  A client whose store is empty accepts no response at all, to any request: its store stays
empty for ever. -/
theorem C42_new_client_stuck (env : CEnv) {st st' : CStore} (h0 : st.state = none) (h : Reaches env st st') :
    st' = st := by
  induction h with
  | refl => rfl
  | step _ ha ih =>
    subst ih
    obtain ⟨s0, s, hs, -⟩ := accepts_same_head ha
    unfold getState at hs
    rw [h0] at hs
    cases hs

/-- **C43 is false.**  Whatever a client accepts, its tree head stays the one that it has. -/
theorem C43_tree_head_never_moves (env : CEnv) {st st' : CStore} (h : Accepts env st st') :
    ∃ s0 s, getState env st = .ok (some s0) ∧ Holds st' s ∧ s.treeHead = s0.treeHead := accepts_same_head h

/-- in particular, a search response that contains a tree head is never accepted, by any client in any state -/
theorem C43_no_tree_head_accepted (env : CEnv) (now : Nat) (order : PMap → List (Nat × Nat)) (state : Option ClientState)
    (label : Bytes) (version : Option Nat) (res : SearchResponse) (st st' : CStore) (hth : res.fullTreeHead.treeHead ≠ none) :
    Client.search env now order state (searchRequest state label version) res st ≠ .ok st' := by
  intro h
  unfold Client.search at h
  obtain ⟨⟨x, s, v⟩, h1, -⟩ := G.bind_eq_ok.1 h
  obtain ⟨s0, -, hn, -⟩ := verifySearch_same_head h1
  exact hth hn

end Katie.Props
