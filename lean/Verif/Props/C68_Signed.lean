import Verif.Model.Client
import Verif.Props.C48_Injective
import Verif.Props.C60_SearchSound

/-
C68: what a client accepts as the value of a version.  With third-party management the operator signs the label, the
version and the value, and the client verifies the signature, both of values it finds and of values it wrote itself; in the
other modes there must be no signature.
-/

namespace Katie.Props
open Katie Katie.Wire Katie.Alg Katie.Client Katie.ClientSpec

/-- The value is endorsed as version `ver` of `label`: with third-party management, the signature verifies over the
configuration, the label, the version and the value; otherwise, there is no signature. -/
def Endorsed (env : CEnv) (label : Bytes) (ver : Nat) (val : UpdateValue) : Prop :=
  (env.cfg.mode = thirdPartyManagement ∧ env.cfg.leafKey ≠ none ∧
    ∃ tbs, updateTBS env.cfg label ver val.value = .ok tbs ∧ env.leafVerify tbs (val.signature.getD []) = true) ∨
  (env.cfg.mode ≠ thirdPartyManagement ∧ val.signature = none)

/-- The leaf key verifies nothing but updates (label, version, value) that are in `S`. -/
def OnlySigned (env : CEnv) (S : Bytes → Nat → Bytes → Prop) : Prop :=
  ∀ tbs sig, env.leafVerify tbs sig = true →
    ∃ label ver value, S label ver value ∧ ver < 2 ^ 32 ∧ updateTBS env.cfg label ver value = .ok tbs

/-- The check accepts exactly the endorsed values. -/
theorem C68_endorsed_iff {env : CEnv} {label : Bytes} {ver : Nat} {val : UpdateValue} :
    verifyUpdateValue env label ver val = .ok () ↔ Endorsed env label ver val := by
  unfold verifyUpdateValue Endorsed
  by_cases hm : env.cfg.mode = thirdPartyManagement
  · simp only [hm, ne_eq, not_true_eq_false, if_false, true_and, false_and, or_false]
    constructor
    · intro h
      obtain ⟨tbs, h1, h⟩ := G.bind_eq_ok.1 h
      split at h
      · cases h
      next hk =>
      split at h
      · cases h
      next hv => exact ⟨hk, tbs, h1, by simpa using hv⟩
    · rintro ⟨hk, tbs, h1, hv⟩
      rw [h1, G.ok_bind, if_neg hk, if_neg (by simpa using hv)]
      rfl
  · simp only [hm, ne_eq, not_false_eq_true, if_true, true_and, false_and, false_or]
    by_cases hs : val.signature = none
    · simp only [hs, not_true_eq_false, if_false]
      exact ⟨fun _ => trivial, fun _ => rfl⟩
    · simp only [hs, not_false_eq_true, if_true, iff_false]
      exact fun h => by cases h

/-- An endorsed value has been signed for this label and this version, if the key signs nothing else. -/
theorem C68_authentic {env : CEnv} {S : Bytes → Nat → Bytes → Prop} (hS : OnlySigned env S) (hc : ConfigTyped env.cfg)
    (hm : env.cfg.mode = thirdPartyManagement) {label : Bytes} {ver : Nat} (hv : ver < 2 ^ 32) {val : UpdateValue}
    (h : Endorsed env label ver val) : S label ver val.value := by
  rcases h with ⟨-, -, tbs, h1, h2⟩ | ⟨h, -⟩
  · obtain ⟨label', ver', value', h3, h4, h5⟩ := hS tbs _ h2
    obtain ⟨-, rfl, rfl, rfl⟩ := C48_update env.cfg env.cfg hc hc label label' ver ver' hv h4 val.value value' tbs h1 h5
    exact h3
  · exact absurd hm h

/-- The value of an accepted search response is endorsed as the version searched for. -/
theorem C68_search {env : CEnv} {now : Nat} {order : PMap → List (Nat × Nat)} {state : Option ClientState}
    {req : SearchRequest} {res : SearchResponse} {st st' : CStore}
    (h : Client.search env now order state req res st = .ok st') :
    ∃ target, AnswerFor req res target ∧ Endorsed env req.label target res.value := by
  unfold Client.search at h
  obtain ⟨r, h, -⟩ := G.bind_eq_ok.1 h
  unfold verifySearch at h
  obtain ⟨_, _, h⟩ := G.bind_eq_ok.1 h
  obtain ⟨target, htg, h⟩ := G.bind_eq_ok.1 h
  obtain ⟨_, hu, _⟩ := G.bind_eq_ok.1 h
  exact ⟨target, targetOf_iff.1 htg, C68_endorsed_iff.1 hu⟩

theorem updateCommitments_endorsed {env : CEnv} {label : Bytes} {startVer : Nat} :
    ∀ (l : List (Bytes × UpdateInfo)) (i : Nat) (coms : List (Nat × Bytes)),
    updateCommitments env label startVer i l = .ok coms →
    ∀ (j : Nat) (val : Bytes) (info : UpdateInfo), l[j]? = some (val, info) →
      Endorsed env label ((startVer + (i + j)) % 2 ^ 32) ⟨val, info.signature⟩ := by
  intro l
  induction l with
  | nil => intro i coms _ j val info hj; simp at hj
  | cons e l ih =>
    obtain ⟨val, info⟩ := e
    intro i coms h j val' info' hj
    unfold updateCommitments at h
    obtain ⟨_, h1, h⟩ := G.bind_eq_ok.1 h
    obtain ⟨c, _, h⟩ := G.bind_eq_ok.1 h
    obtain ⟨more, h2, -⟩ := G.bind_eq_ok.1 h
    cases j with
    | zero =>
      simp only [List.getElem?_cons_zero, Option.some.injEq, Prod.mk.injEq] at hj
      obtain ⟨rfl, rfl⟩ := hj
      exact C68_endorsed_iff.1 h1
    | succ j =>
      rw [List.getElem?_cons_succ] at hj
      have := ih (i + 1) more h2 j val' info' hj
      rwa [show i + 1 + j = i + (j + 1) by omega] at this

/-- the version after the greatest one that the owner knows of (versions are 32 bits wide) -/
def nextVersion (o : LabelOwnerState) : Nat :=
  if o.verAtStarting + (o.upcomingVers.length : Nat) < 0 then 0
  else ((o.verAtStarting + (o.upcomingVers.length : Nat)).toNat + 1) % 2 ^ 32

theorem nextVersion_eq (o : LabelOwnerState) :
    (match greatestVersion o with
      | none => 0
      | some g => (g + 1) % 2 ^ 32) = nextVersion o := by
  unfold greatestVersion nextVersion
  by_cases h : o.verAtStarting + (o.upcomingVers.length : Nat) ≥ 0
  · simp only [h, if_true]
    rw [if_neg (by omega), Nat.mod_add_mod]
  · simp only [h, if_false]
    rw [if_pos (by omega)]

/-- If the answer to an update is accepted, there is an opening and a signature for each value, and each value (those in
the answer, or those of the request if the answer has none) is endorsed as the version it becomes: they are numbered from
the one after the greatest version that the owner knows of. -/
theorem C68_update {env : CEnv} {now : Nat} {sv sv' : Stream} {res : UpdateResponse} {st st' : CStore}
    (h : sv.verify env now res st = .ok (sv', st')) :
    let values := if res.values = [] then sv.req.values else res.values
    ∃ o, sv.ls.owner = some o ∧ 0 < values.length ∧ res.info.length = values.length ∧
      ∀ (i : Nat) (val : Bytes) (info : UpdateInfo), values[i]? = some val → res.info[i]? = some info →
        Endorsed env sv.req.label ((nextVersion o + i) % 2 ^ 32) ⟨val, info.signature⟩ := by
  have he : (if res.values.length = 0 then sv.req.values else res.values) =
      (if res.values = [] then sv.req.values else res.values) := by
    cases res.values <;> simp
  unfold Stream.verify at h
  rw [he] at h
  obtain ⟨⟨startVer, coms⟩, h, -⟩ := G.bind_eq_ok.1 h
  generalize (if res.values = [] then sv.req.values else res.values) = values at h
  unfold verifyValues at h
  split at h
  · cases h
  next hlen =>
  split at h
  · cases h
  next o ho =>
  obtain ⟨coms', h1, h⟩ := G.bind_eq_ok.1 h
  have h1 : updateCommitments env sv.req.label (nextVersion o) 0 (values.zip res.info) = .ok coms' := by
    rw [← nextVersion_eq]; exact h1
  refine ⟨o, ho, by omega, by omega, ?_⟩
  intro i val info hv hi
  have := updateCommitments_endorsed _ 0 _ h1 i val info (by rw [List.getElem?_zip_eq_some]; exact ⟨hv, hi⟩)
  rwa [Nat.zero_add] at this

/-- With third-party management: the value that a search returns has been signed by the operator as this version of this
label. -/
theorem C68_search_authentic {env : CEnv} {S : Bytes → Nat → Bytes → Prop} (hS : OnlySigned env S)
    (hc : ConfigTyped env.cfg) (hm : env.cfg.mode = thirdPartyManagement) {now : Nat} {order : PMap → List (Nat × Nat)}
    {state : Option ClientState} {req : SearchRequest} {res : SearchResponse} {st st' : CStore}
    (h32 : ∀ t, AnswerFor req res t → t < 2 ^ 32)
    (h : Client.search env now order state req res st = .ok st') :
    ∃ target, AnswerFor req res target ∧ S req.label target res.value.value := by
  obtain ⟨target, h1, h2⟩ := C68_search h
  exact ⟨target, h1, C68_authentic hS hc hm (h32 target h1) h2⟩

/-- With third-party management: each value of an accepted update has been signed by the operator as the version it
becomes. -/
theorem C68_update_authentic {env : CEnv} {S : Bytes → Nat → Bytes → Prop} (hS : OnlySigned env S)
    (hc : ConfigTyped env.cfg) (hm : env.cfg.mode = thirdPartyManagement) {now : Nat} {sv sv' : Stream}
    {res : UpdateResponse} {st st' : CStore} (h : sv.verify env now res st = .ok (sv', st')) :
    let values := if res.values = [] then sv.req.values else res.values
    ∃ o, sv.ls.owner = some o ∧ ∀ (i : Nat) (val : Bytes), values[i]? = some val →
      S sv.req.label ((nextVersion o + i) % 2 ^ 32) val := by
  obtain ⟨o, h1, -, h3, h4⟩ := C68_update h
  refine ⟨o, h1, ?_⟩
  intro i val hv
  have hi : i < res.info.length := by
    rw [h3]
    exact (List.getElem?_eq_some_iff.1 hv).1
  exact C68_authentic hS hc hm (Nat.mod_lt _ (by decide)) (h4 i val res.info[i] hv (List.getElem?_eq_getElem hi))

/-! ### examples -/

/-- a client with third-party management whose operator has signed value 9 as version 1 of the label `[7]` only -/
def signedClient : CEnv :=
  { soundClient with
    cfg := { soundClient.cfg with mode := thirdPartyManagement, leafKey := some [7] }
    leafVerify := fun tbs sig => decide (sig = [55]) &&
      decide (updateTBS { soundClient.cfg with mode := thirdPartyManagement, leafKey := some [7] } [7] 1 [9] = .ok tbs) }

example : OnlySigned signedClient (fun label ver value => label = [7] ∧ ver = 1 ∧ value = [9]) := by
  intro tbs sig h
  have h' : sig = [55] ∧ updateTBS signedClient.cfg [7] 1 [9] = .ok tbs := by simpa [signedClient] using h
  exact ⟨[7], 1, [9], ⟨rfl, rfl, rfl⟩, by decide, h'.2⟩

/-- the signed value is accepted as version 1; not as version 2, not for another label, not without the signature -/
example : verifyUpdateValue signedClient [7] 1 ⟨[9], some [55]⟩ = .ok () ∧
    verifyUpdateValue signedClient [7] 2 ⟨[9], some [55]⟩ = goErr "leaf signature verification failed" ∧
    verifyUpdateValue signedClient [8] 1 ⟨[9], some [55]⟩ = goErr "leaf signature verification failed" ∧
    verifyUpdateValue signedClient [7] 1 ⟨[9], none⟩ = goErr "leaf signature verification failed" ∧
    verifyUpdateValue soundClient [7] 1 ⟨[9], none⟩ = .ok () ∧
    verifyUpdateValue soundClient [7] 1 ⟨[9], some [55]⟩ = goErr "leaf signature provided when not expected" := by
  decide +kernel

/-- a search that is accepted -/
example : (verifySearch soundClient 6 (some soundState) soundReq soundRes).toOption.map (·.1) = some 1 ∧
    Endorsed soundClient soundReq.label 1 soundRes.value :=
  ⟨by decide +kernel, Or.inr ⟨by decide, rfl⟩⟩

/-- an owner with version 3 at the starting position and two later versions: the next one is 6; without versions it is 0 -/
example : nextVersion ⟨4, 3, [5, 6]⟩ = 6 ∧ nextVersion ⟨4, -1, []⟩ = 0 := by decide

end Katie.Props
