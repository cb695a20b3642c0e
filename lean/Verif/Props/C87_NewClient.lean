import Verif.Props.C87_Receive
import Verif.Lemmas.ReceiveNew

/-
C87 for a client that has no state yet.  It can only search.  No response is accepted: it ends with an error, or, if all
checks have passed, with the panic of C42; or the client runs forever, if the response is about a very great version.
-/

namespace Katie.ReceiveSpec
open Katie Katie.Wire Katie.Alg Katie.Client

/-- a client without state decodes the response to a search, then verifies it -/
def receiveFirst (env : CEnv) (now : Nat) (order : PMap → List (Nat × Nat)) (label : Bytes) (version : Option Nat) (st : CStore)
    (raw : Bytes) : G CStore := do
  let (res, _) ← newSearchResponse env.cfg env.sz (searchRequest none label version) raw
  Client.search env now order none (searchRequest none label version) res st

/-- the version that the response is about is not too great -/
def FirstInRange (env : CEnv) (label : Bytes) (version : Option Nat) (raw : Bytes) : Prop :=
  (∀ v, version = some v → v < tooGreat) ∧
  ∀ res rest v, newSearchResponse env.cfg env.sz (searchRequest none label version) raw = .ok (res, rest) →
    res.version = some v → v < tooGreat

end Katie.ReceiveSpec

namespace Katie.Props
open Katie Katie.Wire Katie.Alg Katie.Client Katie.ReceiveSpec Katie.Prefix Katie.Server Katie.ContactSpec Katie.Ladder

/-- **C87 for the first search**, except for responses about very great versions: whatever the bytes are, the client ends with an
error or with the panic of C42.  It never succeeds. -/
theorem C87_first_partial {env : CEnv} (hr : Ready env) {now : Nat} {order : PMap → List (Nat × Nat)} {label : Bytes}
    {version : Option Nat} {st : CStore} (raw : Bytes) (hv : FirstInRange env label version raw) :
    (∃ m, receiveFirst env now order label version st raw = .error (.err m)) ∨
    receiveFirst env now order label version st raw = .error (.panic "nil pointer dereference") := by
  unfold receiveFirst
  refine Stuck.after (P := fun r => ∃ rest, newSearchResponse env.cfg env.sz (searchRequest none label version) raw = .ok (r.1, rest))
    ⟨search_rd raw, fun a ha => ⟨a.2, ha⟩⟩ ?_
  rintro ⟨res, rest'⟩ ⟨rest, hres⟩
  obtain ⟨h1, -, -, -, -, h6⟩ := ((codec_searchResponse _ _ _).canon _ _ _ hres).1
  refine search_newly hr.equipped rfl h1 (formed_of hr.long h1 h6).proofs (fun t ht => ?_)
  unfold targetOf searchRequest at ht
  simp only at ht
  split at ht
  · cases ht
    exact hv.1 _ rfl
  · next h =>
    cases ht
    exact hv.2 _ _ _ hres h
  · cases ht

/-- **If all checks pass, the client panics.**  A client without state computes the root of the log from the response and finds that
the tree head, and the auditor's if there is one, are signed and fresh; then it panics. -/
theorem C42_verified_panics {env : CEnv} {v w : Verifier} {result : Provider.Result} {p : Provider Received} {root rootP : Bytes}
    (hs : v.state = none) (hf : v.p.finish env.cs (Received.handle env.cs) v.n v.nP v.m = (.ok result, p))
    (hroot : Log.root env.cs v.n result.fullSubtrees = .ok root) (hrootP : auditorRoot env v.nP result.additional = .ok rootP)
    (hv : verifyTreeHead env { v with p := p } root rootP = .ok w) : v.finish env = .error (.panic "nil pointer dereference") := by
  have hw : w.state = none := by
    unfold verifyTreeHead at hv
    split at hv
    · rw [if_pos hs] at hv; cases hv
    split at hv
    · cases hv
    obtain ⟨tbs, -, hv⟩ := G.bind_eq_ok.1 hv
    split at hv
    · cases hv
    split at hv
    · cases hv; exact hs
    unfold verifyAuditor at hv
    obtain ⟨-, -, hv⟩ := G.bind_eq_ok.1 hv
    split at hv
    · cases hv
    split at hv
    · cases hv
    split at hv
    · cases hv
    split at hv
    · cases hv
    obtain ⟨tbs', -, hv⟩ := G.bind_eq_ok.1 hv
    split at hv
    · cases hv
    split at hv
    · cases hv
    · cases hv; exact hs
  unfold Verifier.finish
  rw [hf]
  simp only [hroot, hrootP, hv, G.ok_bind, newState, hw]
  rfl

/-- a tree head, with an auditor's where there has to be one -/
def someHead (c : Config) : FullTreeHead := ⟨some ⟨1, []⟩, if c.mode = thirdPartyAuditing then some ⟨0, 0, []⟩ else none⟩

theorem someHead_typed {c : Config} : (someHead c).Typed c := by
  unfold someHead
  refine ⟨?_, ?_, ?_⟩
  · rintro a ⟨⟩
    simp [TreeHead.Typed, Wire.Fits]
  · by_cases h : c.mode = thirdPartyAuditing
    · rw [if_pos h]
      rintro a ⟨⟩
      simp [AuditorTreeHead.Typed, Wire.Fits]
    · rw [if_neg h]
      rintro a ⟨⟩
  · by_cases h : c.mode = thirdPartyAuditing <;> simp [h]

theorem someHead_encodes {c : Config} : Encodes (someHead c).marshal := by
  unfold someHead
  by_cases h : c.mode = thirdPartyAuditing
  · rw [if_pos h]; exact ⟨_, rfl⟩
  · rw [if_neg h]; exact ⟨_, rfl⟩

/-- **A response to the first search makes the client run forever**: it says that the greatest version is `2^31 - 1` or more.  The
tree head need not be signed. -/
theorem C87_first_hangs {env : CEnv} {now : Nat} {label : Bytes} {st : CStore} {order : PMap → List (Nat × Nat)}
    (hm : env.cfg.mode ≠ thirdPartyManagement) {v : Nat} (hv : tooGreat ≤ v) (hv' : v < 2 ^ 32) :
    ∃ raw, receiveFirst env now order label none st raw = .error .diverge := by
  obtain ⟨raw, hraw⟩ := decodes_of (codec_searchResponse env.cfg env.sz (searchRequest none label none))
    (a := ⟨someHead env.cfg, some v, List.replicate env.sz.opening 0, ⟨[], none⟩, [], nothing⟩)
    ⟨someHead_typed, ⟨by rintro a ⟨⟩; simp only [Wire.Fits]; omega, by simp [searchRequest]⟩, by simp, by simpa [UpdateValue.Typed, SuffixTyped] using hm,
      by simp [Each], nothing_typed⟩
    (.seq someHead_encodes (.seq ⟨_, rfl⟩ (.seq ⟨_, rfl⟩ (.seq ⟨_, rfl⟩ (.seq ⟨_, rfl⟩ nothing_encodes)))))
  refine ⟨raw, ?_⟩
  unfold receiveFirst
  rw [hraw, G.ok_bind]
  unfold Client.search verifySearch
  simp only [searchRequest, targetOf, verifyUpdateValue, getLast, newVerifier, retainedProvider, treeSizeOf, someHead, Option.map_none,
    G.pure_eq, G.ok_bind, ne_eq, not_true_eq_false, if_false]
  rw [if_pos hm, G.ok_bind, great_ladder hv hv']
  rfl

/-- A client without state makes no other requests than searches. -/
theorem C87_first_is_search (env : CEnv) (label : Bytes) (pick : Option Bytes) (values : List Bytes) :
    Errs (ownerInitRequest env {} label) ∧ Errs (monitorRequest env {} pick) ∧ Errs (updateRequest env {} label values) := by
  refine ⟨⟨_, rfl⟩, ⟨_, rfl⟩, ?_⟩
  unfold updateRequest
  exact ⟨_, rfl⟩

/-- two of the three outcomes, for a client as in `C87_first_partial`; the third is `C42_first_response_panics` -/
example : Ready wideClient ∧ FirstInRange wideClient [10] none [] ∧
    (∃ m, receiveFirst wideClient 6 id [10] none {} [] = .error (.err m)) ∧
    ∃ raw, receiveFirst wideClient 6 id [10] none {} raw = .error .diverge :=
  ⟨wideReady, ⟨by rintro v ⟨⟩, by rintro res rest v ⟨⟩⟩, ⟨_, rfl⟩,
    C87_first_hangs (v := tooGreat) (by decide) (Nat.le_refl _) (by unfold tooGreat; omega)⟩

/-- the hypotheses of `C42_verified_panics` for that response: the steps are those of `toyAuditedChecks` -/
example : toyAuditedChecks.isOk = true := by decide +kernel

end Katie.Props
