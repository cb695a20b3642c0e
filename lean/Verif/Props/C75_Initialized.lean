import Verif.Lemmas.ServeOnly
import Verif.Props.C67_Monitored

/-
C75: the initialization of a label owner against an honest server.

The vocabulary is in `Verif/Spec/Initialized.lean`, `Verif/Spec/Served.lean` and `Verif/Spec/Monitored.lean`.  As for searches and
monitoring (C62, C67) everything up to the check of the tree head succeeds, with the right result, and then no answer about a new
tree head is accepted.
-/

namespace Katie.Props
open Katie Katie.Wire Katie.Alg Katie.Ladder Katie.Server Katie.Client Katie.ServerSpec Katie.ServedSpec Katie.SearchSpec
  Katie.SearchTree

section
variable {env : Env} {cenv : CEnv} {cs : List Change} {us : List AuditorUpdate} {t : Tree} {l : Bytes}
  {state : Option ClientState} {aud : Option AuditorTreeHead} {nowS nowC : Nat}

/-- `V` has the versions that can be looked up: version 0, and the ladder of every version of the label -/
def HasLadders (cs : List Change) (l : Bytes) (V : List Nat) : Prop :=
  0 ∈ V ∧ ∀ v < (versionsOf l cs).length, ∀ b, searchBinaryLadder v v [] [] = .ok b → ∀ u ∈ b, u ∈ V

/-- What the client has found out when it comes to checking the tree head `th`: the root hash is that of the log and is the one
that was signed, what it would retain of the log is right, and so is the owner's state: the greatest version at the starting
position, and no later ones. -/
structure InitConvinced (env : Env) (cenv : CEnv) (cs : List Change) (us : List AuditorUpdate) (l : Bytes) (state : Option ClientState)
    (aud : Option AuditorTreeHead) (th : TreeHead) (start : Nat) (m : Monitor)
    (checked : G (Monitor × Verifier × Provider.Result × Bytes × Bytes)) : Prop where
  checked : ∃ v result root rootP tbs, checked = .ok (m, v, result, root, rootP) ∧
    v.state = state ∧ v.fth = ⟨some th, aud⟩ ∧ v.n = us.length ∧
    root = LogSpec.rootHash env.cs.H (logLeaves env.cs us) ∧
    treeHeadTBS cenv.cfg us.length root = .ok tbs ∧ cenv.sigVerify tbs th.signature = true ∧
    (∀ a, aud = some a → rootP = LogSpec.rootHash env.cs.H ((logLeaves env.cs us).take a.treeSize)) ∧
    Keeps env us us.length result.fullSubtrees result.logEntries
  owner : ∃ o, m.owner = some o ∧ o.starting = start ∧ o.upcoming = [] ∧
    OwnerKnows ((versionsOf l cs).map Version.pos) us.length o.starting o.verAtStarting o.upcoming

/-- **C75 (partial).**  The owner of a label asks to start at a distinguished entry that has not expired.  The server answers the
request.  The client's checks of the timestamps, of the ladders and of the proof succeed; the root hash is the one of the log,
which the server has signed; and the owner's state is right.  Missing for the full claim: the client does not accept the
answer (`C75_never_accepted`). -/
theorem C75_init_partial {start : Nat} {V : List Nat} (S : Serving env cenv cs us t l)
    (hlive : Live env.cfg (times env us) us.length start) (hV : HasLadders cs l V) (hd : VrfDistinct env cs l V)
    (hst : Behind env us state) (hview : ∀ k, getLast state = some k → ∀ f, frontier us.length = .ok f → k - 1 ∉ f)
    (haud : ∀ a, aud = some a → 0 < a.treeSize ∧ a.treeSize ≤ us.length)
    (hS : InWindow env.cfg nowS (times env us (us.length - 1))) (hC : InWindow env.cfg nowC (times env us (us.length - 1))) :
    ∃ th res m, t.head = some th ∧
      Server.ownerInit env nowS { t with auditor := aud } ⟨getLast state, l, start⟩ = .ok res ∧
      InitConvinced env cenv cs us l state aud th start m (checkedInit cenv nowC state ⟨getLast state, l, start⟩ res) := by
  obtain ⟨htx, hinv⟩ := runs_inv S.good S.small S.runs
  have hlen := hinv.len
  have hne := S.nonempty
  obtain ⟨th, res, h1, h2, h3, -, m, v, result, rootP, c1, c2, c3, c4, c5, c6, c7⟩ :=
    init_core S.good S.small S.runs hne S.client S.label S.kept S.count (by
      intro vers all hvers hall
      have hsub : ∀ v ∈ all, v ∈ V := by
        intro v hv
        rcases (allLadderVersions_mem hall v).1 hv with rfl | ⟨u, hu, b, hb, hvb⟩
        · exact hV.1
        · exact hV.2 u (hvers u hu) b hb v hvb
      intro v hv l' v' o pr pr' hor
      refine hd v (hsub v hv) l' v' o pr pr' ?_
      rcases hor with ⟨h1, h2⟩ | h
      · exact .inl ⟨h1, hsub v' h2⟩
      · exact .inr h) hlive hst haud hS hC hview
  obtain ⟨th', tbs, t1, -, t3, t4⟩ := head_of_inv hinv hne
  rw [h1] at t1
  cases t1
  have hpos : 0 < us.length := by rw [hlen]; exact List.length_pos_iff.2 hne
  refine ⟨th, res, m, h1, h3, ⟨⟨v, result, _, rootP, tbs, c1, c2, c3, c4, rfl, ?_, S.client.sig _ _ t4, c6, c5⟩,
    ⟨_, c7, rfl, rfl, ⟨(hlive.1.2.range hpos).2, rfl, List.nil_prefix⟩⟩⟩⟩
  rw [S.client.cfg, hlen]
  exact t3

/-- **The server answers only requests to start at a distinguished entry that has not expired**, whoever asks, at any time. -/
theorem C75_only_distinguished (hcs : env.cs.Good) (hsm : Prefix.Small env.cs) (hruns : ServerSpec.Runs env cs us t)
    {req : OwnerInitRequest} {res : OwnerInitResponse}
    (h : Server.ownerInit env nowS { t with auditor := aud } req = .ok res) : Live env.cfg (times env us) us.length req.start :=
  init_only hcs hsm hruns h

/-- So it answers exactly these. -/
theorem C75_answers_iff {start : Nat} {V : List Nat} (S : Serving env cenv cs us t l) (hV : HasLadders cs l V)
    (hd : VrfDistinct env cs l V) (hst : Behind env us state)
    (hview : ∀ k, getLast state = some k → ∀ f, frontier us.length = .ok f → k - 1 ∉ f)
    (haud : ∀ a, aud = some a → 0 < a.treeSize ∧ a.treeSize ≤ us.length)
    (hS : InWindow env.cfg nowS (times env us (us.length - 1))) :
    (∃ res, Server.ownerInit env nowS { t with auditor := aud } ⟨getLast state, l, start⟩ = .ok res) ↔
      Live env.cfg (times env us) us.length start := by
  constructor
  · rintro ⟨res, h⟩
    exact C75_only_distinguished S.good S.small S.runs h
  · intro hlive
    obtain ⟨th, res, m, -, h, -⟩ := C75_init_partial S hlive hV hd hst hview haud hS hS
    exact ⟨res, h⟩

/-- What becomes of an answer that convinces the client: a client without state panics (if there is no auditor), a client with
an older state reports that the tree has not grown. -/
theorem C75_outcome {th : TreeHead} {m : Monitor} {req : OwnerInitRequest} {res : OwnerInitResponse} {ls : ClientLabelState}
    {st : CStore} (hst : Behind env us state)
    (h : InitConvinced env cenv cs us l state aud th req.start m (checkedInit cenv nowC state req res)) :
    (state = none → aud = none → Client.ownerInit cenv nowC state ls req res st = goPanic "nil pointer dereference") ∧
    (state ≠ none → Client.ownerInit cenv nowC state ls req res st = goErr "provided tree size is not greater than advertised") := by
  obtain ⟨v, result, root, rootP, tbs, h1, h2, h3, h4, -, h6, h7, -⟩ := h.checked
  constructor
  · rintro rfl rfl
    have key : verifyTreeHead cenv v root rootP = .ok v := by
      simp only [verifyTreeHead, h3, h2, Option.any_none, h4, h6, G.ok_bind, h7]
      rw [if_neg (by simp), if_neg (by simp)]
      rfl
    rw [ownerInit_eq, h1]
    simp only [G.ok_bind, key, newState, h2]
    rfl
  · intro hne
    have key : verifyTreeHead cenv v root rootP = goErr "provided tree size is not greater than advertised" := by
      cases state with
      | none => exact absurd rfl hne
      | some s =>
        have := hst.2.1
        simp only [verifyTreeHead, h3, h2, Option.any_some, h4]
        rw [if_pos (by simpa using this.le)]
    rw [ownerInit_eq, h1]
    simp only [G.ok_bind, key]
    rfl

/-- **The full claim of C75 is false for every execution**: no answer to an initialization request of a client that does not yet
have the server's tree head is accepted. -/
theorem C75_never_accepted {start : Nat} {V : List Nat} (hst : Behind env us state) (S : Serving env cenv cs us t l)
    (hlive : Live env.cfg (times env us) us.length start) (hV : HasLadders cs l V) (hd : VrfDistinct env cs l V)
    (hview : ∀ k, getLast state = some k → ∀ f, frontier us.length = .ok f → k - 1 ∉ f)
    (haud : ∀ a, aud = some a → 0 < a.treeSize ∧ a.treeSize ≤ us.length)
    (hS : InWindow env.cfg nowS (times env us (us.length - 1))) (hC : InWindow env.cfg nowC (times env us (us.length - 1)))
    (ls : ClientLabelState) (st : CStore) :
    ∀ res, Server.ownerInit env nowS { t with auditor := aud } ⟨getLast state, l, start⟩ = .ok res →
      ∀ out, Client.ownerInit cenv nowC state ls ⟨getLast state, l, start⟩ res st ≠ .ok out := by
  obtain ⟨th, res', m, h1, h2, h3⟩ := C75_init_partial S hlive hV hd hst hview haud hS hC
  obtain ⟨v, result, root, rootP, tbs, k1, k2, k3, k4, -⟩ := h3.checked
  intro res hres out hout
  cases Except.ok.inj (hres.symm.trans h2)
  rw [ownerInit_eq, k1, G.ok_bind] at hout
  obtain ⟨w, hw, hout⟩ := G.bind_eq_ok.1 hout
  obtain ⟨s, hs, hout⟩ := G.bind_eq_ok.1 hout
  cases state with
  | none =>
    have : w.state = none := by
      rw [← k2]
      exact (verifyTreeHead_frame hw).state
    simp only [newState, this] at hs
    cases hs
  | some s =>
    have := hst.2.1
    simp only [verifyTreeHead, k3, k2, Option.any_some, k4] at hw
    rw [if_pos (by simpa using this.le)] at hw
    cases hw

end

/-! ### The hypotheses for the execution of `ServerExample` -/

theorem toyLive2 : Live toyEnv.cfg (times toyEnv toyUs) toyUs.length 2 := by
  have hw : ∀ a b : Nat, a + toyEnv.cfg.rmw ≤ b → Wide toyEnv.cfg.rmw a b := fun _ _ h => h
  refine ⟨⟨by decide, .left (hw _ _ (by decide +kernel)) (by decide)
    (.right (hw _ _ (by decide +kernel)) (by decide) (.here (hw _ _ (by decide +kernel))))⟩, ?_⟩
  unfold Expired
  decide +kernel

theorem toyLadders : HasLadders toyHistory [10] [0, 1, 2, 3] := by
  refine ⟨by decide, ?_⟩
  intro v hv b hb
  have : (versionsOf [10] toyHistory).length = 3 := by decide
  have hv' : v = 0 ∨ v = 1 ∨ v = 2 := by omega
  rcases hv' with rfl | rfl | rfl
  · rw [← Except.ok.inj ((by decide : searchBinaryLadder 0 0 [] [] = .ok [0, 1]).symm.trans hb)]; decide
  · rw [← Except.ok.inj ((by decide : searchBinaryLadder 1 1 [] [] = .ok [0, 1, 3, 2]).symm.trans hb)]; decide
  · rw [← Except.ok.inj ((by decide : searchBinaryLadder 2 2 [] [] = .ok [0, 1, 3, 2]).symm.trans hb)]; decide

/-- A client that knows the log of size 2 becomes the owner of label 10 in the log of size 5, starting at entry 2. -/
example := C75_init_partial (aud := some ⟨300, 5, [0]⟩) (nowS := 300) (nowC := 300) (state := some toyState2) toyServing toyLive2
  toyLadders (vrfDistinct_of_check (by decide +kernel))
  toyBehind (fun k hk f hf => by cases hk; cases hf; decide) (by rintro a ⟨⟩; exact ⟨by decide, by decide⟩)
  ⟨by decide +kernel, by decide +kernel⟩ ⟨by decide +kernel, by decide +kernel⟩

example := C75_answers_iff (aud := none) (nowS := 300) (start := 2) (state := some toyState2) toyServing
  toyLadders (vrfDistinct_of_check (by decide +kernel))
  toyBehind (fun k hk f hf => by cases hk; cases hf; decide) (by rintro a ⟨⟩) ⟨by decide +kernel, by decide +kernel⟩

/-- Entry 0 is not distinguished. -/
example : Server.ownerInit toyEnv 300 toyT5 ⟨some 2, [10], 0⟩ = goErr "requested starting position is not distinguished" := by
  decide +kernel

example := C75_never_accepted (aud := none) (nowS := 300) (nowC := 300) (state := some toyState2) toyBehind toyServing toyLive2
  toyLadders (vrfDistinct_of_check (by decide +kernel))
  (fun k hk f hf => by cases hk; cases hf; decide) (by rintro a ⟨⟩)
  ⟨by decide +kernel, by decide +kernel⟩ ⟨by decide +kernel, by decide +kernel⟩ ⟨[], none, []⟩ {}

end Katie.Props
