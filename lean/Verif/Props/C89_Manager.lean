import Verif.Lemmas.ServerStep
import Verif.Lemmas.ServeCalm
import Verif.Props.C41_Managed
import Verif.Props.C63_Absent

/-
C89: a manager accepts what its service operator submits, and nothing that the operator did not sign.
-/

namespace Katie.Props
open Katie Katie.Wire Katie.Server Katie.Managed Katie.ManagedSpec Katie.ServerSpec

/-- an operator is set up exactly with a configuration for third-party management that has the operator's key -/
theorem C89_operator_key (cfg : Config) (pub : Bytes) :
    (newManagedLog cfg pub = .ok () ↔ cfg.mode = thirdPartyManagement ∧ cfg.leafKey = some pub) ∧
    (newManagedLog cfg pub ≠ .ok () → ∃ e, newManagedLog cfg pub = .error (.err e)) := by
  unfold newManagedLog
  by_cases h : cfg.mode ≠ thirdPartyManagement
  · rw [if_pos h]
    exact ⟨⟨fun e => by simp [goErr] at e, fun e => absurd e.1 h⟩, fun _ => ⟨_, rfl⟩⟩
  · rw [if_neg h]
    cases hk : cfg.leafKey with
    | none => exact ⟨⟨fun e => by simp [goErr] at e, fun e => by simp at e⟩, fun _ => ⟨_, rfl⟩⟩
    | some k =>
      simp only
      by_cases hp : k ≠ pub
      · rw [if_pos hp]
        exact ⟨⟨fun e => by simp [goErr] at e, fun e => absurd (Option.some.inj e.2) hp⟩, fun _ => ⟨_, rfl⟩⟩
      · rw [if_neg hp]
        exact ⟨⟨fun _ => ⟨not_not.1 h, by rw [not_not.1 hp]⟩, fun _ => rfl⟩, fun e => absurd rfl e⟩

theorem updateTBS_err {cfg : Config} (hc : Keyed cfg) {label : Bytes} {v : Nat} {value : Bytes} {e : Fault}
    (h : updateTBS cfg label v value = .error e) : ∃ m, e = .err m := by
  have : Alg.Calm (updateTBS cfg label v value) := by
    unfold updateTBS
    exact wSeq_calm (marshalConfig_calm hc) (wSeq_calm wBytes_calm (wSeq_calm .ok wBytes_calm))
  exact this e h

theorem verifyOperator_spec {cfg : Config} {verify : Bytes → Bytes → Bool} {label : Bytes} {signed : Nat} (hc : Keyed cfg) (hk : cfg.leafKey ≠ none) :
    ∀ (i : Nat) (vs : List UpdateValue),
      (verifyOperator cfg verify label signed i vs = .ok () ∧ Verified cfg verify label (signed + i) vs) ∨
      ((∃ e, verifyOperator cfg verify label signed i vs = .error (.err e)) ∧ ¬ Verified cfg verify label (signed + i) vs)
  | i, [] => .inl ⟨rfl, fun j v h => by simp at h⟩
  | i, v :: vs => by
    unfold verifyOperator
    cases ht : updateTBS cfg label ((signed + i) % 2 ^ 32) v.value with
    | error e =>
      obtain ⟨m, rfl⟩ := updateTBS_err hc ht
      refine .inr ⟨⟨m, rfl⟩, fun hv => ?_⟩
      obtain ⟨tbs, h1, -⟩ := hv 0 v rfl
      rw [Nat.add_zero, ht] at h1
      cases h1
    | ok tbs =>
      cases hkey : cfg.leafKey with
      | none => exact absurd hkey hk
      | some k =>
        simp only [G.ok_bind]
        by_cases hs : verify tbs (v.signature.getD []) = true
        · rw [if_neg (by simpa using hs)]
          rcases verifyOperator_spec hc hk (i + 1) vs with ⟨h1, h2⟩ | ⟨h1, h2⟩
          · refine .inl ⟨h1, fun j w hw => ?_⟩
            cases j with
            | zero =>
              simp only [List.getElem?_cons_zero, Option.some.injEq] at hw
              subst hw
              exact ⟨tbs, ht, hs⟩
            | succ j =>
              have := h2 j w (by simpa using hw)
              rwa [show signed + (i + 1) + j = signed + i + (j + 1) by omega] at this
          · refine .inr ⟨h1, fun hv => h2 (fun j w hw => ?_)⟩
            have := hv (j + 1) w (by simpa using hw)
            rwa [show signed + i + (j + 1) = signed + (i + 1) + j by omega] at this
        · rw [if_pos (by simpa using hs)]
          refine .inr ⟨⟨_, rfl⟩, fun hv => ?_⟩
          obtain ⟨tbs', h1, h2⟩ := hv 0 v rfl
          rw [Nat.add_zero, ht] at h1
          cases h1
          exact hs h2

/-- **C89**: after any execution, a manager with the operator's key takes up a submission exactly if all its values are
validly signed, for its label and consecutive versions from the stated one on; otherwise it answers with an error. -/
theorem C89_accepts_iff {env : Env} (hcs : env.cs.Good) (hsm : Prefix.Small env.cs) {cs : List Change} {us : List AuditorUpdate}
    {t : Tree} (h : ServerSpec.Runs env cs us t) (hm : env.cfg.mode = thirdPartyManagement) (hk : env.cfg.leafKey ≠ none) (verify : Bytes → Bytes → Bool) (req : ManagerUpdateRequest) :
    ((∃ u, setManagerRequest env verify t req = .ok u) ↔ Verified env.cfg verify req.label req.signedVersion req.values) ∧
    (∀ u, setManagerRequest env verify t req = .ok u → u = ⟨t, req.last, req.label, some req.signedVersion, req.values,
      (ServerSpec.versionsOf req.label cs).map Version.pos, nextVer req.greatestVersion⟩) ∧
    (¬ Verified env.cfg verify req.label req.signedVersion req.values → ∃ e, setManagerRequest env verify t req = .error (.err e)) := by
  obtain ⟨htx, hinv⟩ := runs_inv hcs hsm h
  rw [← htx] at hinv
  unfold setManagerRequest
  rw [hinv.getIndex]
  rcases verifyOperator_spec (verify := verify) (label := req.label) (signed := req.signedVersion) ⟨fun _ => hk, fun e => by rw [hm] at e; exact absurd e (by decide)⟩ hk 0 req.values with ⟨h1, h2⟩ | ⟨⟨e, h1⟩, h2⟩
  · rw [h1]
    exact ⟨⟨fun _ => h2, fun _ => ⟨_, rfl⟩⟩, fun u hu => (Except.ok.inj hu).symm, fun hn => absurd h2 hn⟩
  · rw [h1]
    exact ⟨⟨fun ⟨u, hu⟩ => (by cases hu), fun hv => absurd hv h2⟩, fun u hu => (by cases hu), fun _ => ⟨e, rfl⟩⟩

/-- **C89**: everything that an operator with the right key submits, over any sequence of requests, is taken up by the manager
at any time.  `sign` and `verify` are those of the operator's keys. -/
theorem C89_operator_accepted {env : Env} (hcs : env.cs.Good) (hsm : Prefix.Small env.cs) {cs : List Change} {us : List AuditorUpdate}
    {t : Tree} (h : ServerSpec.Runs env cs us t) {pub : Bytes} (hop : newManagedLog env.cfg pub = .ok ()) {sign : Bytes → G Bytes}
    {verify : Bytes → Bytes → Bool} (hsig : ∀ tbs sig, sign tbs = .ok sig → verify tbs sig = true)
    {reqs : List UpdateRequest} {rs : List ManagerUpdateRequest} (hs : ManagedSpec.serveAll env.cfg sign reqs [] = .ok rs)
    (hb : ∀ l, (batches l reqs).sum + 1 < 2 ^ 32) : ∀ r ∈ rs, ∃ u, setManagerRequest env verify t r = .ok u := by
  intro r hr
  obtain ⟨hm, hk⟩ := (C89_operator_key env.cfg pub).1.1 hop
  refine ((C89_accepts_iff hcs hsm h hm (by rw [hk]; simp) verify r).1).2 (fun i v hv => ?_)
  obtain ⟨hver, hsigned⟩ := C41_signed_partial hs r.label (hb r.label)
  obtain ⟨tbs, sig, h1, h2, h3⟩ := hsigned r hr rfl i v hv
  have hmem : r.signedVersion + i ∈ ManagedSpec.versionsOf r.label rs := by
    unfold ManagedSpec.versionsOf
    rw [List.mem_flatMap]
    refine ⟨r, by simp [hr], List.mem_map.2 ⟨i, ?_, rfl⟩⟩
    exact List.mem_range.2 (List.getElem?_eq_some_iff.1 hv).1
  have hsmall : r.signedVersion + i < 2 ^ 32 := by
    have := hb r.label
    rw [hver, List.mem_append, List.mem_range, List.mem_map] at hmem
    cases hB : batches r.label reqs with
    | nil => rw [hB] at hmem; simp at hmem
    | cons k B =>
      rw [hB] at hmem this
      simp only [List.headD_cons, List.tail_cons, List.sum_cons, List.mem_range] at hmem this
      rcases hmem with hmem | ⟨j, hj, e⟩ <;> omega
  refine ⟨tbs, ?_, ?_⟩
  · rw [Nat.mod_eq_of_lt hsmall]; exact h1
  · rw [h3]; exact hsig _ _ h2

/-! ### a concrete case -/

/-- an operator whose signatures are the bytes to be signed, with a byte in front -/
def toySign (tbs : Bytes) : G Bytes := .ok (7 :: tbs)

/-- the verification of its signatures -/
def toyVerify (tbs sig : Bytes) : Bool := decide (sig = 7 :: tbs)

/-- what it submits for the requests of C41, and that the manager of C63 takes it up -/
example : ∃ rs, ManagedSpec.serveAll toyEnv3.cfg toySign toyRequests [] = .ok rs ∧ rs.length = 3 ∧
    ∀ r ∈ rs, ∃ u, setManagerRequest toyEnv3 toyVerify toyTp r = .ok u := by
  have hok : (ManagedSpec.serveAll toyEnv3.cfg toySign toyRequests []).toBool = true := by decide +kernel
  cases hs : ManagedSpec.serveAll toyEnv3.cfg toySign toyRequests [] with
  | error e => rw [hs] at hok; cases hok
  | ok rs =>
    refine ⟨rs, rfl, ?_, ?_⟩
    · have : (ManagedSpec.serveAll toyEnv3.cfg toySign toyRequests []).toOption.map List.length = some 3 := by decide +kernel
      rw [hs] at this
      exact Option.some.inj this
    · refine C89_operator_accepted toyServing3.good toyServing3.small toyServing3.runs (pub := [2]) (by decide) (verify := toyVerify) ?_ hs ?_
      · intro tbs sig h
        cases h
        simp [toyVerify]
      · intro l
        have : (batches l toyRequests).sum ≤ 4 := by
          unfold batches toyRequests
          by_cases h1 : ([1] : Bytes) = l <;> by_cases h2 : ([2] : Bytes) = l <;> simp [h1, h2]
          all_goals (try subst h1) <;> (try subst h2) <;> simp_all
        omega

/-- a signature for another version is refused -/
example : (setManagerRequest toyEnv3 toyVerify toyTp ⟨none, [10], none, 5, [⟨[1], some [0]⟩]⟩).toBool = false := by
  decide +kernel

end Katie.Props
