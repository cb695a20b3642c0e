import Verif.Props.C62_Served

/-
C63: a client learns that a label does not exist.

The full claim is: if a label has no versions, then the client that searches for it reports that it does not exist.  This
holds of searches for a given version (`C63_fixed_version_partial`), except in third-party management mode
(`C63_third_party`), and never of searches for the greatest version (`C63_greatest_version`).
-/

namespace Katie.Props
open Katie Katie.Wire Katie.Alg Katie.Ladder Katie.Server Katie.Client Katie.ServerSpec Katie.ServedSpec Katie.SearchSpec
  Katie.SearchTree

section
variable {env : Env} {cenv : CEnv} {cs : List Change} {us : List AuditorUpdate} {t : Tree} {l : Bytes}
  {state : Option ClientState} {aud : Option AuditorTreeHead} {nowS nowC : Nat}

theorem newVerifier_served (S : Serving env cenv cs us t l) (hst : Behind env us state) {th : TreeHead} {aud : Option AuditorTreeHead}
    (hths : th.treeSize = us.length) (proof : CombinedTreeProof) :
    ∃ v, newVerifier state (getLast state) ⟨some th, aud⟩ proof = .ok v := by
  obtain ⟨htx, hinv⟩ := runs_inv S.good S.small S.runs
  have hlen := hinv.len
  have hsize := hinv.size
  have hh := honest_of_inv S.good S.small hinv S.nonempty
  rw [← hlen] at hh
  have hlast : ∀ k, getLast state = some k → 0 < k ∧ k ≤ us.length := by
    intro k hk
    cases state with
    | none => cases hk
    | some s =>
      simp only [getLast, Option.map_some, Option.some.injEq] at hk
      subst hk
      exact ⟨hst.1, hst.2.1.le⟩
  obtain ⟨fk, hfk⟩ := retained_exists (n := us.length) (by omega) hlast
  obtain ⟨full, hrp, -⟩ := Server.retainedProvider_ok hh.times hst hfk proof
  exact ⟨_, newVerifier_eq hrp⟩

/-- What the server answers for a label that has no versions. -/
theorem absent_answer (S : Serving env cenv cs us t l) (habs : versionsOf l cs = []) (hst : Behind env us state)
    {version : Option Nat} {res : SearchResponse}
    (h : Server.search env nowS { t with auditor := aud } (searchRequest state l version) = .ok res) :
    ∃ th, th.treeSize = us.length ∧ res.fullTreeHead = ⟨some th, aud⟩ ∧ res.version = (if version = none then some 0 else none) ∧
      res.value = ⟨[], none⟩ ∧ (version = none → res.binaryLadder.length = 1) := by
  obtain ⟨htx, hinv⟩ := runs_inv S.good S.small S.runs
  obtain ⟨th, tbs, hhead, hths, -, -⟩ := head_of_inv hinv S.nonempty
  rw [← hinv.len] at hths
  unfold Server.search at h
  obtain ⟨hd, h1, h⟩ := G.bind_eq_ok.1 h
  obtain ⟨index, h2, h⟩ := G.bind_eq_ok.1 h
  obtain ⟨ladder, h3, h⟩ := G.bind_eq_ok.1 h
  obtain ⟨ov, h4, h⟩ := G.bind_eq_ok.1 h
  obtain ⟨⟨steps, s⟩, h5, h⟩ := G.bind_eq_ok.1 h
  obtain ⟨p1, -, h⟩ := G.bind_eq_ok.1 h
  obtain ⟨p2, -, h⟩ := G.bind_eq_ok.1 h
  obtain ⟨⟨proof, p3⟩, -, h⟩ := G.bind_eq_ok.1 h
  have hindex : index = [] := by
    have := hinv.getIndex l
    simp only [searchRequest] at h2
    rw [htx, this, habs] at h2
    exact (Except.ok.inj h2).symm
  subst hindex
  have hov : ov.value = ⟨[], none⟩ := by
    simp only [searchRequest] at h4
    rw [htx, hinv.getVersion, habs] at h4
    rw [← Except.ok.inj h4]
    rfl
  have hfth : hd.fth = ⟨some th, aud⟩ := by
    unfold Server.fullTreeHead searchRequest at h1
    simp only [hhead] at h1
    cases hgl : getLast state with
    | none =>
      rw [hgl] at h1
      rw [← Except.ok.inj h1]
    | some k =>
      rw [hgl] at h1
      have hlt : k < us.length := by
        cases state with
        | none => cases hgl
        | some s =>
          simp only [getLast, Option.map_some, Option.some.injEq] at hgl
          rw [← hgl]
          exact hst.2.1
      simp only at h1
      rw [if_neg (by omega), if_neg (by omega)] at h1
      rw [← Except.ok.inj h1]
  refine ⟨th, hths, ?_⟩
  rw [← Except.ok.inj h]
  refine ⟨hfth, ?_, hov, ?_⟩
  · simp only [searchRequest]
    cases version with
    | none => rfl
    | some v => rfl
  · rintro rfl
    simp only [searchRequest] at h3 h5 ⊢
    have : ladder = [0] := (Except.ok.inj h3).symm
    subst this
    unfold addLadder at h5
    obtain ⟨out, -, h5⟩ := G.bind_eq_ok.1 h5
    obtain ⟨s1, -, h5⟩ := G.bind_eq_ok.1 h5
    have : steps = [⟨out.2, none⟩] := (Prod.mk.inj (Except.ok.inj h5)).1.symm
    subst this
    rfl

/-- **The claim C63 is false for every search for the greatest version**: if the label does not exist, the client
complains about the number of steps of the binary ladder. -/
theorem C63_greatest_version (S : Serving env cenv cs us t l) (habs : versionsOf l cs = []) (hst : Behind env us state)
    (hmode : env.cfg.mode ≠ thirdPartyManagement) {res : SearchResponse}
    (h : Server.search env nowS { t with auditor := aud } (searchRequest state l none) = .ok res) :
    verifySearch cenv nowC state (searchRequest state l none) res =
      goErr "incorrect number of binary ladder steps provided" := by
  obtain ⟨th, hths, h1, h2, h3, h4⟩ := absent_answer S habs hst h
  obtain ⟨v, hv⟩ := newVerifier_served S hst (aud := aud) hths res.search
  obtain ⟨htx, hinv⟩ := runs_inv S.good S.small S.runs
  obtain ⟨body, hbody, -⟩ := stored_commitment hinv S.label 0
  have hsto : storedOf env (versionsOf l cs) 0 = ⟨List.replicate env.sz.opening 0, ⟨[], none⟩⟩ := by rw [habs]; rfl
  rw [hsto] at hbody
  rw [if_pos rfl] at h2
  unfold verifySearch
  simp only [searchRequest, h1]
  rw [hv, G.ok_bind]
  simp only [targetOf, h2, G.pure_eq, G.ok_bind, h3, verifyUpdateValue, S.client.cfg]
  rw [if_pos hmode, if_neg (by simp)]
  simp only [G.pure_eq, G.ok_bind, computeCommitment, hbody]
  rw [(by decide : searchBinaryLadder 0 0 [] [] = .ok [0, 1]), G.ok_bind]
  unfold processLadder
  rw [if_pos (by rw [h4 rfl]; decide)]
  rfl

/-- **In third-party management mode the claim is false for every search**: the server has no signed value for a version
that does not exist, and the client complains about the missing signature. -/
theorem C63_third_party (S : Serving env cenv cs us t l) (habs : versionsOf l cs = []) (hst : Behind env us state)
    (hmode : env.cfg.mode = thirdPartyManagement) (hkey : env.cfg.leafKey ≠ none) {version : Option Nat} {tbs : Bytes}
    (htbs : updateTBS env.cfg l (version.getD 0) [] = .ok tbs) (hsig : cenv.leafVerify tbs [] = false) {res : SearchResponse}
    (h : Server.search env nowS { t with auditor := aud } (searchRequest state l version) = .ok res) :
    verifySearch cenv nowC state (searchRequest state l version) res = goErr "leaf signature verification failed" := by
  obtain ⟨th, hths, h1, h2, h3, -⟩ := absent_answer S habs hst h
  obtain ⟨v, hv⟩ := newVerifier_served S hst (aud := aud) hths res.search
  unfold verifySearch
  simp only [searchRequest, h1]
  rw [hv, G.ok_bind]
  have htgt : targetOf (searchRequest state l version) res = .ok (version.getD 0) := by
    unfold targetOf searchRequest
    cases version with
    | none => rw [if_pos rfl] at h2; simp only [h2]; rfl
    | some v => rfl
  simp only [searchRequest] at htgt
  rw [htgt, G.ok_bind]
  simp only [h3, verifyUpdateValue, S.client.cfg, hmode, htbs, G.ok_bind, hkey]
  rw [if_neg (by simp), if_neg (by simp), if_pos (by simp [hsig])]
  rfl

/-- **C63, fixed-version search.**  If the label does not exist, the server answers and the client reports this.  Missing
for the full claim: searches for the greatest version (`C63_greatest_version`), third-party management
(`C63_third_party`, excluded by `hleaf`), and the sizes of the log excluded by `hview` (C18). -/
theorem C63_fixed_version_partial (S : Serving env cenv cs us t l) (habs : versionsOf l cs = []) {v : Nat} (hv : v < 2 ^ 31 - 1)
    (hst : Behind env us state)
    (hview : ∀ k, getLast state = some k → ∀ f, frontier us.length = .ok f → k - 1 ∉ f)
    (hd : ∀ b, searchBinaryLadder v v [] [] = .ok b → VrfDistinct env cs l b)
    (haud : ∀ a, aud = some a → 0 < a.treeSize ∧ a.treeSize ≤ us.length)
    (hS : InWindow env.cfg nowS (entryAt env.cs us (us.length - 1)).timestamp)
    (hC : InWindow env.cfg nowC (entryAt env.cs us (us.length - 1)).timestamp)
    (hleaf : LeafSigned cenv l v ⟨[], none⟩) :
    ∃ res, Server.search env nowS { t with auditor := aud } (searchRequest state l (some v)) = .ok res ∧
      checkedSearch cenv nowC state (searchRequest state l (some v)) res = goErr "requested version of label does not exist" ∧
      verifySearch cenv nowC state (searchRequest state l (some v)) res = goErr "requested version of label does not exist" := by
  have hnone : (versionsOf l cs)[v]? = none := by rw [habs]; rfl
  rcases C62_fixed_version_partial S hv hst hview hd haud hS hC (by unfold storedOf; rw [hnone]; exact hleaf) with
    ⟨x, _, _, _, hx, -⟩ | ⟨-, h⟩ | ⟨hx, -⟩
  · rw [hnone] at hx; cases hx
  · exact h
  · exact absurd hnone hx

end

theorem toyServing77 : Serving toyEnv toyClient toyHistory toyUs toyT5 [77] where
  good := toySuite_good
  small := (by decide : toySuite.hashSize ≤ 32)
  runs := toyHistory_runs
  nonempty := by simp [toyHistory]
  client := toyClientOf
  label := by decide
  kept := by decide
  count := by decide

/-- the whole exchange, for any label -/
def toyVerified (now : Nat) (t : Tree) (state : Option ClientState) (l : Bytes) (version : Option Nat) : G Nat := do
  let res ← Server.search toyEnv now t (searchRequest state l version)
  let r ← verifySearch toyClient now state (searchRequest state l version) res
  pure r.1

/-- The server answers, and the client complains. -/
example : versionsOf [77] toyHistory = [] ∧
    (∃ res, Server.search toyEnv 300 toyT5 (searchRequest (some toyState2) [77] none) = .ok res) ∧
    toyVerified 300 toyT5 (some toyState2) [77] none = goErr "incorrect number of binary ladder steps provided" := by
  refine ⟨by decide, ?_, by decide +kernel⟩
  have : (Server.search toyEnv 300 toyT5 (searchRequest (some toyState2) [77] none)).toOption.isSome = true := by decide +kernel
  cases h : Server.search toyEnv 300 toyT5 (searchRequest (some toyState2) [77] none) with
  | ok res => exact ⟨res, rfl⟩
  | error e => rw [h] at this; cases this

example := C63_fixed_version_partial (aud := none) (nowS := 300) (nowC := 300) (state := some toyState2) toyServing77 (by decide) (v := 0)
  (by decide) toyBehind (fun k hk f hf => by cases hk; cases hf; decide)
  (fun b hb => vrfDistinct_of_check (by
    rw [← Except.ok.inj ((by decide : searchBinaryLadder 0 0 [] [] = .ok [0, 1]).symm.trans hb)]
    decide +kernel))
  (by rintro a ⟨⟩) ⟨by decide +kernel, by decide +kernel⟩ ⟨by decide +kernel, by decide +kernel⟩ (fun h => by cases h)

/-- a server in third-party management mode, with one label -/
def toyEnv3 : Env :=
  { toyEnv with cfg := { mode := thirdPartyManagement, leafKey := some [2], rmw := 10, sigKey := [1], vrfKey := [1] } }
def toyClient3 : CEnv := { toyClient with cfg := toyEnv3.cfg, leafVerify := fun _ sig => decide (sig ≠ []) }
def toyChange3 : Change := toyChange [⟨[10], ⟨[1], some [7]⟩⟩] [] 5
def toyTp : Tree := (mutate toyEnv3 toyChange3 {}).2
def toyUp : AuditorUpdate :=
  { timestamp := 5,
    added := [{ vrf := [29], com := [24] }],
    removed := [],
    proof := { results := [.nonInclusionParent 0], elements := [] } }

theorem toyServing3 : Serving toyEnv3 toyClient3 ([] ++ [toyChange3]) ([] ++ [toyUp]) toyTp [77] where
  good := toySuite_good
  small := (by decide : toySuite.hashSize ≤ 32)
  runs := by
    have h : mutate toyEnv3 toyChange3 {} = (.ok toyUp, toyTp) := Prod.ext (by decide +kernel) rfl
    refine ServerSpec.Runs.change (.start rfl) h ⟨fun _ => .refl _, by decide, fun _ _ => rfl, ?_⟩
      (inRange_of_short (by decide +kernel) (by decide +kernel)) (.inl rfl)
    simp [toyChange3, toyChange, UpdateValue.Typed, SuffixTyped, toyEnv3]
  nonempty := by simp
  client := ⟨rfl, rfl, fun _ => rfl, fun _ => rfl, toyClientOf.sig⟩
  label := by decide
  kept := by decide
  count := by decide

/-- The server answers, and the client complains. -/
example : versionsOf [77] [toyChange3] = [] ∧ (updateTBS toyEnv3.cfg [77] 0 []).toOption.isSome = true ∧
    (Server.search toyEnv3 5 toyTp (searchRequest none [77] (some 0))).toOption.isSome = true ∧
    (Server.search toyEnv3 5 toyTp (searchRequest none [77] (some 0)) >>= fun res =>
      verifySearch toyClient3 5 none (searchRequest none [77] (some 0)) res >>= fun r => pure r.1) =
        goErr "leaf signature verification failed" :=
  ⟨by decide, by decide, by decide +kernel, by decide +kernel⟩

end Katie.Props
