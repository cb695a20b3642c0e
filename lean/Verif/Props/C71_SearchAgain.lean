import Verif.Lemmas.ClientVersions
import Verif.Props.C60_SearchSound

/-!
# C71: looking up a label again while it is monitored

"If a client accepts the response of a search and then monitors the label, then it accepts the response of the next search for
the label as well, if the response is right."  This is **false**.  What is retained for a monitored label contains version 0
(`C71_monitored_zero`), every verified response shows version 0 as well, and a version can not be added twice: every search
that has to update the monitoring state of a monitored label fails, whatever the response (`C71_search_refused`), and the label
can not be owned any more either (`C71_init_refused`).  `C71_repeat_refused` shows a client that accepts a response and
refuses the same response when it is repeated.  `C71_search_partial` says when searches are not affected.
-/

namespace Katie.Props
open Katie Katie.Wire Katie.Alg Katie.Client Katie.Ladder Katie.Server

/-- the retained versions of a label contain version 0 -/
def KnowsZero (ls : ClientLabelState) : Prop := ∃ r ∈ ls.versions, r.version = 0

/-- Whatever `updateRetainedVersions` retains for a label that is monitored or owned contains version 0. -/
theorem C71_monitored_zero {ls ls' : ClientLabelState} {s : Received} (h : updateRetainedVersions ls s = .ok ls')
    (hm : ls.contact ≠ [] ∨ ls.owner ≠ none) : KnowsZero ls' := updateRetainedVersions_zero h hm

/-- **C71 is false.**  The client monitors a label, and searches for it: whatever the server answers, a search that ends right
of the rightmost distinguished entry is refused, although the response has been verified. -/
theorem C71_search_refused {env : CEnv} {now : Nat} {order : PMap → List (Nat × Nat)} {state : Option ClientState}
    {req : SearchRequest} {res : SearchResponse} {st : CStore} {ls : ClientLabelState} {terminal : Nat} {updated : ClientState}
    {v w : Verifier} {dle : Option Nat} (hmode : env.cfg.mode = contactMonitoring)
    (hver : verifySearch env now state req res = .ok (terminal, updated, v))
    (hdle : v.run env (rightmostDistinguished env.cfg v.n) = .ok (dle, w))
    (hright : ∀ x, dle = some x → x < terminal)
    (hls : getLabelState env st req.label = .ok ls) (hz : KnowsZero ls) :
    ∃ m, search env now order state req res st = goErr m := by
  have h0 : (w.p.state.versions.lookup 0).isSome := by
    rw [run_known hdle]; exact verifySearch_zero hver
  obtain ⟨m, hm⟩ := addRetainedVersions_refused (env := env) ls.versions w (by
    obtain ⟨r, hr, h⟩ := hz
    exact ⟨r, hr, by rw [h]; exact h0⟩)
  refine ⟨m, ?_⟩
  unfold Client.search
  rw [hver, G.ok_bind]
  simp only [hmode, ne_eq, not_true_eq_false, if_false]
  rw [hdle, G.ok_bind]
  have hn : dle.any (fun x => decide (terminal ≤ x)) = false := by
    cases dle with
    | none => rfl
    | some x => simpa using hright x rfl
  simp only [hn, Bool.false_eq_true, if_false]
  rw [hls, G.ok_bind, hm]
  rfl

/-- The same for the owner: a label that the client monitors as a contact can not be initialised as owned. -/
theorem C71_init_refused {env : CEnv} {now : Nat} {state : Option ClientState} {ls : ClientLabelState} {req : OwnerInitRequest}
    {res : OwnerInitResponse} {st st' : CStore} (hz : KnowsZero ls) : ownerInit env now state ls req res st ≠ .ok st' := by
  intro h
  unfold Client.ownerInit at h
  obtain ⟨v0, -, h⟩ := G.bind_eq_ok.1 h
  obtain ⟨ladder, hl, h⟩ := G.bind_eq_ok.1 h
  obtain ⟨v1, h1, h⟩ := G.bind_eq_ok.1 h
  obtain ⟨_, -, h⟩ := G.bind_eq_ok.1 h
  obtain ⟨v2, h2, h⟩ := G.bind_eq_ok.1 h
  obtain ⟨⟨m, v3⟩, h3, h⟩ := G.bind_eq_ok.1 h
  obtain ⟨⟨r, v4⟩, h4, h⟩ := G.bind_eq_ok.1 h
  obtain ⟨⟨u, v5⟩, h5, h⟩ := G.bind_eq_ok.1 h
  simp only at h
  split at h
  · cases h
  obtain ⟨v6, h6, h⟩ := G.bind_eq_ok.1 h
  have h0 : (v5.p.state.versions.lookup 0).isSome := by
    rw [verifierFinish_known h5, run_known h4, run_known h3, updateView_known h2]
    exact processLadder_known h1 (allLadderVersions_zero hl)
  obtain ⟨e, he⟩ := addRetainedVersions_refused (env := env) ls.versions v5 (by
    obtain ⟨r, hr, h⟩ := hz
    exact ⟨r, hr, by rw [h]; exact h0⟩)
  rw [he] at h6
  cases h6

/-- A search that starts or continues the monitoring of a label is the last one: if the client stored something for the label,
then version 0 is retained there, provided that what is stored can be read back. -/
theorem C71_search_stores_zero {env : CEnv} {now : Nat} {order : PMap → List (Nat × Nat)} {state : Option ClientState}
    {req : SearchRequest} {res : SearchResponse} {st st' : CStore} (h : search env now order state req res st = .ok st')
    {raw : Bytes} {x : Nat} (hnew : (st'.labels.lookup req.label) = some (raw, x)) (hold : st.labels.lookup req.label = none) :
    ∃ ls, ls.marshal = .ok raw ∧ KnowsZero ls := by
  unfold Client.search at h
  obtain ⟨⟨t, u, v⟩, -, h⟩ := G.bind_eq_ok.1 h
  have put : ∀ {s'}, putState st u = .ok s' → s'.labels = st.labels := by
    intro s' hp
    unfold putState at hp
    obtain ⟨_, -, hp⟩ := G.bind_eq_ok.1 hp
    cases hp
    rfl
  simp only at h
  split at h
  · rw [put h, hold] at hnew; cases hnew
  obtain ⟨⟨dle, w⟩, -, h⟩ := G.bind_eq_ok.1 h
  simp only at h
  split at h
  · rw [put h, hold] at hnew; cases hnew
  obtain ⟨ls, -, h⟩ := G.bind_eq_ok.1 h
  obtain ⟨w2, -, h⟩ := G.bind_eq_ok.1 h
  obtain ⟨target, -, h⟩ := G.bind_eq_ok.1 h
  obtain ⟨⟨contact, t2⟩, -, h⟩ := G.bind_eq_ok.1 h
  obtain ⟨ls2, h2, h⟩ := G.bind_eq_ok.1 h
  unfold putLabelState at h
  obtain ⟨raw1, -, h⟩ := G.bind_eq_ok.1 h
  obtain ⟨rl, h3, h⟩ := G.bind_eq_ok.1 h
  cases h
  unfold rawLabelState at h3
  unfold CStore.putLabel at hnew
  have hnone : (st.labels.filter (fun e => e.1 ≠ req.label)).lookup req.label = none := by
    rw [List.lookup_eq_none_iff]
    intro p hp
    have := (List.mem_filter.1 hp).2
    simp at this
    simpa using Ne.symm this
  split at h3
  · next hc =>
    obtain ⟨raw2, h4, h3⟩ := G.bind_eq_ok.1 h3
    cases h3
    simp only [List.lookup_cons, beq_self_eq_true] at hnew
    obtain ⟨rfl, -⟩ := Prod.mk.inj (Option.some.inj hnew)
    refine ⟨ls2, h4, updateRetainedVersions_zero h2 ?_⟩
    have h5 := (updateRetainedVersions_ok h2).1
    have h6 := (updateRetainedVersions_ok h2).2.1
    simp only at h5 h6 ⊢
    rcases hc with hc | hc
    · left
      intro e
      rw [h5] at hc
      simp only [e] at hc
      simp at hc
    · right
      rw [h6] at hc
      exact hc
  · cases h3
    simp only at hnew
    rw [hnone] at hnew
    cases hnew

/-- What holds of C71: a search is not affected by what the client monitors if the monitoring state need not be updated, that
is in the other modes and if the search ends at or left of the rightmost distinguished entry. -/
theorem C71_search_partial {env : CEnv} {now : Nat} {order : PMap → List (Nat × Nat)} {state : Option ClientState}
    {req : SearchRequest} {res : SearchResponse} {st : CStore} {terminal : Nat} {updated : ClientState} {v : Verifier}
    (hver : verifySearch env now state req res = .ok (terminal, updated, v))
    (hcase : env.cfg.mode ≠ contactMonitoring ∨
      ∃ x w, v.run env (rightmostDistinguished env.cfg v.n) = .ok (some x, w) ∧ terminal ≤ x) :
    search env now order state req res st = putState st updated := by
  unfold Client.search
  rw [hver, G.ok_bind]
  by_cases hm : env.cfg.mode ≠ contactMonitoring
  · exact if_pos hm
  · simp only [hm, if_false]
    rcases hcase with h | ⟨x, w, h, hx⟩
    · exact absurd h hm
    · rw [h, G.ok_bind]
      simp [hx]

/-! ### a concrete case -/

/-- the store of a client after a first search -/
def seenStore : CStore := (search soundClient 6 id (some soundState) soundReq soundRes {}).toOption.getD {}

/-- The client accepts the response, and monitors the label.  It refuses the same response to the same request. -/
theorem C71_repeat_refused :
    search soundClient 6 id (some soundState) soundReq soundRes {} = .ok seenStore ∧
    seenStore.labels.map (·.1) = [soundReq.label] ∧
    search soundClient 6 id (some soundState) soundReq soundRes seenStore = goErr "can not add the same version twice" := by
  decide +kernel

/-- The hypotheses of `C71_search_refused` are met by the second search; no entry is distinguished. -/
example : soundClient.cfg.mode = contactMonitoring ∧
    (∃ terminal updated v w, verifySearch soundClient 6 (some soundState) soundReq soundRes = .ok (terminal, updated, v) ∧
      v.run soundClient (rightmostDistinguished soundClient.cfg v.n) = .ok (none, w)) ∧
    ∃ ls, getLabelState soundClient seenStore soundReq.label = .ok ls ∧ KnowsZero ls := by
  refine ⟨rfl, ?_, ?_⟩
  · have h : ((verifySearch soundClient 6 (some soundState) soundReq soundRes).toOption.bind (fun r =>
        (r.2.2.run soundClient (rightmostDistinguished soundClient.cfg r.2.2.n)).toOption.map (·.1))) = some none := by
      decide +kernel
    cases h1 : verifySearch soundClient 6 (some soundState) soundReq soundRes with
    | error f => rw [h1] at h; cases h
    | ok r =>
      obtain ⟨t, u, v⟩ := r
      rw [h1] at h
      simp only [Except.toOption, Option.bind_some] at h
      cases h2 : v.run soundClient (rightmostDistinguished soundClient.cfg v.n) with
      | error f => rw [h2] at h; cases h
      | ok q =>
        obtain ⟨d, w⟩ := q
        rw [h2] at h
        simp only [Option.map_some, Option.some.injEq] at h
        subst h
        exact ⟨t, u, v, w, rfl, h2⟩
  · refine ⟨((getLabelState soundClient seenStore soundReq.label).toOption.getD ⟨[], none, []⟩), by decide +kernel, ?_⟩
    unfold KnowsZero
    decide +kernel

end Katie.Props
