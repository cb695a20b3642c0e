import Verif.Props.C44_C45_Heads
import Verif.Lemmas.ClientReceives

/-
C59: a client can read the state that it has stored.
-/

namespace Katie.Props
open Katie Katie.Wire Katie.Alg Katie.Ladder Katie.Server Katie.Client Katie.ClientSpec

/-- the store after the example client in state `toyState2` has accepted a response about the unchanged tree -/
def toyStored : CStore :=
  { state := some [0, 0, 0, 0, 0, 0, 0, 2, 0, 1, 244, 1, 46, 1, 0, 0, 0, 0, 0, 0, 0, 1, 0, 0, 0, 0, 0, 0, 0, 6, 168] }

/-- **C59 is false.**  In auditing mode: the store holds the state of the client and can be read.  The client searches,
the honest server answers that the tree is unchanged, and the client accepts.  The new state has no auditor's tree head
(it is taken from the response, which has none), and the client can not read its state any more. -/
theorem C59_unreadable :
    (do let raw ← toyState2.marshal
        let before ← getState toyClient { state := some raw }
        let res ← Server.search toyEnv 6 toyT2 (searchRequest before [10] (some 0))
        let st ← Client.search toyClient 6 id before (searchRequest before [10] (some 0)) res { state := some raw }
        pure (before, res.fullTreeHead, st)) = .ok (some toyState2, ⟨none, none⟩, toyStored) ∧
    getState toyClient toyStored = goErr "unexpected EOF" := by
  constructor
  · decide +kernel
  · decide +kernel

/-- in the words of C43: an accepted response after which no request can be made -/
theorem C59_accepted_then_stuck : ∃ st, Accepts toyClient st toyStored ∧ Errs (getState toyClient toyStored) := by
  refine ⟨{ state := some ((toyState2.marshal.toOption).getD []) },
    .search 6 id (some toyState2) [10] (some 0)
      (((Server.search toyEnv 6 toyT2 (searchRequest (some toyState2) [10] (some 0))).toOption).getD
        ⟨⟨none, none⟩, none, [], ⟨[], none⟩, [], ⟨[], [], [], []⟩⟩) ?_ ?_, ?_⟩
  · decide +kernel
  · decide +kernel
  · exact ⟨_, C59_unreadable.2⟩

/-- **C59 fails in auditing mode after every accepted response.**  What is written has no auditor's tree head, and a
state that is read in auditing mode has one. -/
theorem C59_auditing_never {env : CEnv} (hcs : env.cs.Good) (hsz : env.sz.hash = env.cs.hashSize)
    (hmode : env.cfg.mode = thirdPartyAuditing) {st st' : CStore} (h : Receives env st st') :
    ∃ s, Holds st' s ∧ s.auditor = none ∧ getState env st' ≠ .ok (some s) := by
  obtain ⟨s0, s, -, hh, hw⟩ := receives_written hcs hsz h
  refine ⟨s, hh, hw.auditor, fun hg => ?_⟩
  have := (getState_typed hg).2.1.2.2 hmode
  rw [hw.auditor] at this
  cases this

/-- C59 in the other two modes, for every operation and every response that was decoded from bytes: what the client
reads is the state that it has written.  Missing for C59: auditing mode, where it is false. -/
theorem C59_readable_partial {env : CEnv} (hcs : env.cs.Good) (hsz : env.sz.hash = env.cs.hashSize)
    (hmode : env.cfg.mode ≠ thirdPartyAuditing) {st st' : CStore} (h : Receives env st st') :
    ∃ s, Holds st' s ∧ getState env st' = .ok (some s) := by
  obtain ⟨s0, s, -, hh, hw⟩ := receives_written hcs hsz h
  obtain ⟨raw, hm, hr⟩ := hh
  exact ⟨s, ⟨raw, hm, hr⟩, getState_of_typed (hw.typed hmode) hm hr⟩

/-- A client in one of these modes that has a state never loses it, whatever responses it accepts. -/
theorem C59_never_lost_partial {env : CEnv} (hcs : env.cs.Good) (hsz : env.sz.hash = env.cs.hashSize)
    (hmode : env.cfg.mode ≠ thirdPartyAuditing) {st st' : CStore} {s0 : ClientState}
    (h0 : getState env st = .ok (some s0)) (h : ReceivesAll env st st') :
    ∃ s, getState env st' = .ok (some s) ∧ s.treeHead = s0.treeHead := by
  induction h with
  | refl => exact ⟨s0, h0, rfl⟩
  | step _ hr ih =>
    obtain ⟨s1, h1, e1⟩ := ih
    obtain ⟨s0', s, hg, ⟨raw, hm, hr'⟩, hw⟩ := receives_written hcs hsz hr
    rw [h1] at hg
    cases hg
    exact ⟨s, getState_of_typed (hw.typed hmode) hm hr', hw.head.trans e1⟩

/-! ### a case -/

/-- the example server and client in contact monitoring mode -/
def toyEnvC : Env := { toyEnv with cfg := { toyEnv.cfg with mode := contactMonitoring, auditorKey := none } }

/-- its client (the VRF proofs of the example have length 0) -/
def toyClientC : CEnv := { toyClient with cfg := toyEnvC.cfg, sz := ⟨1, 0, 1⟩ }

/-- the tree of this server after two changes -/
def toyTreeC : Tree :=
  (mutate toyEnvC (toyChange [⟨[10], ⟨[4], none⟩⟩] [] 6)
    (mutate toyEnvC (toyChange [⟨[10], ⟨[1], none⟩⟩, ⟨[20], ⟨[2], none⟩⟩, ⟨[10], ⟨[3], none⟩⟩] [] 5) {}).2).2

/-- a client that knows this tree -/
def toyStateC : ClientState := ⟨⟨2, [12]⟩, none, [[46]], [(1, ⟨6, [168]⟩)]⟩
def toyStoreC : CStore := { state := some ((toyStateC.marshal.toOption).getD []) }

/-- the answer of this server to a search for version 0 of label 10 -/
def toyResponseC : SearchResponse :=
  ((Server.search toyEnvC 6 toyTreeC (searchRequest (some toyStateC) [10] (some 0))).toOption).getD
    ⟨⟨none, none⟩, none, [], ⟨[], none⟩, [], ⟨[], [], [], []⟩⟩

/-- the store after the response -/
def toyAfterC : CStore :=
  ((Client.search toyClientC 6 id (some toyStateC) (searchRequest (some toyStateC) [10] (some 0)) toyResponseC
    toyStoreC).toOption).getD {}

theorem toyReceivesC : Receives toyClientC toyStoreC toyAfterC :=
  .search 6 id (some toyStateC) [10] (some 0) toyResponseC (by decide +kernel)
    ((codec_searchResponse toyClientC.cfg toyClientC.sz (searchRequest (some toyStateC) [10] (some 0))).canon
      (((toyResponseC.marshal).toOption).getD []) toyResponseC [] (by decide +kernel)).1
    (by decide +kernel)

/-- the hypotheses of `C59_readable_partial`: the client of the example accepts the response of the example server -/
example : ∃ s, Holds toyAfterC s ∧ getState toyClientC toyAfterC = .ok (some s) :=
  C59_readable_partial (env := toyClientC) toySuite_good rfl (by decide) toyReceivesC

/-- the hypotheses of `C59_never_lost_partial` -/
example : ∃ s, getState toyClientC toyAfterC = .ok (some s) ∧ s.treeHead = toyStateC.treeHead :=
  C59_never_lost_partial (env := toyClientC) toySuite_good rfl (by decide) (by decide +kernel : getState toyClientC toyStoreC = .ok (some toyStateC))
    (.step (.refl _) toyReceivesC)

/-- the client of `C59_unreadable`, with the length of the VRF proofs of the example -/
def toyClientA : CEnv := { toyClient with sz := ⟨1, 0, 1⟩ }

/-- the response of `C59_unreadable` -/
def toyResponseA : SearchResponse :=
  ((Server.search toyEnv 6 toyT2 (searchRequest (some toyState2) [10] (some 0))).toOption).getD
    ⟨⟨none, none⟩, none, [], ⟨[], none⟩, [], ⟨[], [], [], []⟩⟩

/-- the hypotheses of `C59_auditing_never` -/
example : ∃ s, Holds toyStored s ∧ s.auditor = none ∧ getState toyClientA toyStored ≠ .ok (some s) :=
  C59_auditing_never (env := toyClientA) toySuite_good rfl rfl
    (.search (st := { state := some ((toyState2.marshal.toOption).getD []) }) 6 id (some toyState2) [10] (some 0)
      toyResponseA (by decide +kernel)
      ((codec_searchResponse toyClientA.cfg toyClientA.sz (searchRequest (some toyState2) [10] (some 0))).canon
        (((toyResponseA.marshal).toOption).getD []) toyResponseA [] (by decide +kernel)).1
      (by decide +kernel))

end Katie.Props
