import Verif.Lemmas.ReceiveClient
import Verif.Lemmas.Stays
import Verif.Lemmas.ContactState

/-
The verification of the response to a search does not crash, whatever the response is.
-/

namespace Katie.Alg
open Katie Prog SearchTree SearchSpec

/-! ### the position found is in the tree -/

theorem Stays.result {α : Type} {n : Nat} {Q : α → Prop} {p : Prog α} (h : Stays n Q p) {tr : List Ev} {a : α}
    (hr : Runs p tr (.ok a)) : Q a := by
  induction p generalizing tr with
  | ret r =>
    cases hr
    exact h a rfl
  | op q k ih =>
    cases hr with
    | op b hr => exact ih b (h.2 b) hr

theorem Spec.meet {α : Type} {n : Nat} {p : Prog α} {R : Req → Prop} {Q Q' : α → Prop} {F : Fault → Prop} (h : Spec p R Q F) (h' : Stays n Q' p) :
    Spec p R (fun a => Q a ∧ Q' a) F :=
  ⟨fun tr a hr => ⟨h.ok tr a hr, h'.result hr⟩, h.error⟩

theorem greatestLoop_below {v n : Nat} : ∀ (fuel lo : Nat) (anc : List Nat) (term : Option Nat), At n lo n anc →
    (∀ t, term = some t → t < n) → Stays n (fun t => t < n) (greatestLoop v n fuel (rt lo n) term) := by
  intro fuel
  induction fuel with
  | zero => intro lo anc term h _; exact .diverge
  | succ fuel ih =>
    intro lo anc term h ht
    have hb := h.bounds
    have hterm : ∀ (r : Int) t, (if r = 0 ∧ term = none then some (rt lo n) else term) = some t → t < n := by
      intro r t h
      split at h
      · cases h; omega
      · exact ht t h
    unfold greatestLoop
    refine .bindT (.call (show rt lo n < n by omega)) (fun r => .ite (fun _ => .fail) (fun _ => .ite (fun hx => ?_) (fun _ =>
      .ite (fun _ => .fail) (fun _ => .ite (fun _ => .fail) (fun _ => .pure ?_)))))
    · refine .bind (Q := fun c => c = rt (rt lo n + 1) n) (.lift (fun a ha => ?_)) ?_
      · rw [right_rt h (by omega)] at ha
        exact (Except.ok.inj ha).symm
      rintro c rfl
      exact ih _ _ _ (.right h (by omega)) (hterm r)
    · cases hc : (if r = 0 ∧ term = none then some (rt lo n) else term) with
      | none => simp only [Option.getD_none]; omega
      | some t => exact hterm r t hc

theorem greatestVersionSearch_below {cfg : Config} {v n : Nat} : Stays n (fun t => t < n) (greatestVersionSearch cfg v n) := by
  unfold greatestVersionSearch
  refine .ite (fun _ => .fail) (fun h0 => .bind rightmostDistinguished_stays.attempt (fun d hd => ?_))
  cases d with
  | error e => exact .pure (show 0 < n by omega)
  | ok d =>
    have h := hd d rfl
    cases d with
    | none =>
      simp only [Option.getD_none]
      rw [root_eq (by omega)]
      exact greatestLoop_below _ _ _ _ (.root (by omega)) (by simp)
    | some x =>
      obtain ⟨lo, anc, rfl, hat⟩ := h x rfl
      exact greatestLoop_below _ _ _ _ hat (by simp)

theorem fixedFinish_below {n v : Nat} {term : Option Nat} (ht : ∀ t, term = some t → t < n) {exp : Bool} {dist : List Nat} :
    Stays n (fun t => t < n) (fixedFinish v term exp dist) := by
  unfold fixedFinish
  cases term with
  | none => exact .fail
  | some t => exact .ite (fun _ => .fail) (fun _ => .bindT (.call (.inr (ht t rfl))) (fun _ => .pure (ht t rfl)))

theorem fixedLoop_below {cfg : Config} {v n rm : Nat} : ∀ (fuel lo hi : Nat) (anc : List Nat) (s : FixedState),
    At n lo hi anc → s.x = rt lo hi → (∀ t, s.terminal = some t → t < n) → Stays n (fun t => t < n) (fixedLoop cfg v n rm fuel s) := by
  intro fuel
  induction fuel with
  | zero => intro lo hi anc s h _ _; exact .diverge
  | succ fuel ih =>
    intro lo hi anc s h hsx hst
    have hb := h.bounds
    have hx : s.x < n := by omega
    have hright : ∀ s' : Nat → FixedState, (∀ r, (s' r).x = r) → (∀ r t, (s' r).terminal = some t → t < n) →
        ¬ noRightChild s.x n = true → Stays n (fun t => t < n) (do
        let r ← lift (SearchTree.right s.x n)
        fixedLoop cfg v n rm fuel (s' r)) := by
      intro s' hs' ht' hnr
      have hr : rt lo hi + 1 < hi := by
        by_contra hc
        exact hnr (by rw [hsx]; exact (noRightChild_iff h).2 hc)
      refine .bind (Q := fun c => c = rt (rt lo hi + 1) hi) (.lift (fun a ha => ?_)) ?_
      · rw [hsx, right_rt h hr] at ha
        exact (Except.ok.inj ha).symm
      rintro c rfl
      exact ih _ _ _ _ (.right h hr) (hs' _) (ht' _)
    have hleft : ∀ s' : Nat → FixedState, (∀ r, (s' r).x = r) → (∀ r t, (s' r).terminal = some t → t < n) →
        ¬ noLeftChild s.x = true → Stays n (fun t => t < n) (do
        let r ← lift (LogMath.left s.x)
        fixedLoop cfg v n rm fuel (s' r)) := by
      intro s' hs' ht' hnl
      have hl : lo < rt lo hi := by
        have := mt (noLeftChild_iff h).2 (by rw [← hsx]; exact hnl)
        omega
      refine .bind (Q := fun c => c = rt lo (rt lo hi)) (.lift (fun a ha => ?_)) ?_
      · rw [hsx, left_rt h, if_pos hl] at ha
        exact (Except.ok.inj ha).symm
      rintro c rfl
      exact ih _ _ _ _ (.left h hl) (hs' _) (ht' _)
    unfold fixedLoop
    refine .bindT (.call hx) (fun t => .ite (fun _ => .ite (fun _ => fixedFinish_below hst) (fun hnr => hright _ (fun _ => rfl) (fun _ => hst) hnr)) (fun _ => ?_))
    refine .bindT (.call hx) (fun r => ?_)
    have hterm : ∀ t, (if r ≥ 0 ∧ s.terminal.all (fun t => s.x < t) then some s.x else s.terminal) = some t → t < n := by
      intro t ht
      split at ht
      · cases ht; exact hx
      · exact hst t ht
    exact .ite (fun _ => .ite (fun _ => fixedFinish_below hterm) (fun hnr => hright _ (fun _ => rfl) (fun _ => hterm) hnr)) (fun _ =>
      .ite (fun _ => .ite (fun _ => fixedFinish_below hterm) (fun hnl => hleft _ (fun _ => rfl) (fun _ => hterm) hnl)) (fun _ => .ite (fun _ => .pure hx)
        (fun _ => .ite (fun _ => .pure hx) (fun _ => .fail))))

theorem fixedVersionSearch_below {cfg : Config} {v n : Nat} : Stays n (fun t => t < n) (fixedVersionSearch cfg v n) := by
  unfold fixedVersionSearch
  exact .ite (fun _ => .fail) (fun h0 => .bindT (.call (show n - 1 < n by omega)) (fun t =>
    fixedLoop_below _ _ _ _ _ (.root (by omega)) (root_eq (by omega)) (by simp)))

theorem search_mild {cfg : Config} {v n : Nat} (hv : v < 2 ^ 31 - 1) {c : Prop} [Decidable c] :
    Spec (if c then greatestVersionSearch cfg v n else fixedVersionSearch cfg v n) Mild (fun t => t < n) IsErr := by
  split
  · exact ((greatestVersionSearch_mild hv).meet greatestVersionSearch_below).imp (fun _ h => h) (fun _ h => h.2) (fun _ h => h)
  · exact ((fixedVersionSearch_mild hv).meet fixedVersionSearch_below).imp (fun _ h => h) (fun _ h => h.2) (fun _ h => h)

end Katie.Alg

namespace Katie
open Katie.Alg

/-! ### reading what is stored -/

/-- the reader does not crash -/
def CalmRd {α : Type} (r : Rd α) : Prop := ∀ b, Calm (r b)

namespace CalmRd
variable {α β : Type}

theorem pure {a : α} : CalmRd (pure a : Rd α) := fun _ => .ok

theorem err {m : String} : CalmRd (Rd.err m : Rd α) := fun _ => .err

theorem bind {r : Rd α} {f : α → Rd β} (h : CalmRd r) (hf : ∀ a, CalmRd (f a)) : CalmRd (r >>= f) := by
  intro b
  change Calm (match r b with | .ok (a, rest) => f a rest | .error e => .error e)
  have := h b
  cases hr : r b with
  | error e => exact calm_error this hr
  | ok p => exact hf p.1 p.2

theorem ite {c : Prop} [Decidable c] {r r' : Rd α} (h : CalmRd r) (h' : CalmRd r') : CalmRd (if c then r else r') := by
  split <;> assumption

theorem num {k : Nat} : CalmRd (rNum k) := fun _ => .ite (fun _ => .err) (fun _ => .ok)

theorem full {k : Nat} : CalmRd (rFull k) := fun b => by
  unfold rFull readFull
  exact .ite (fun _ => .err) (fun _ => .ok)

theorem bytes {k : Nat} : CalmRd (rBytes k) := num.bind (fun _ => full)

theorem int : CalmRd rInt := err

theorem optional : CalmRd rOptional := fun b => by
  unfold rOptional
  split
  · exact .err
  · exact .ite (fun _ => .err) (fun _ => .ok)

theorem opt {r : Rd α} (h : CalmRd r) : CalmRd (rOpt r) := by
  unfold rOpt
  exact optional.bind (fun _ => .ite (h.bind (fun _ => pure)) pure)

theorem loop {r : Rd α} (h : CalmRd r) : ∀ {n : Nat}, CalmRd (rLoop r n)
  | 0 => pure
  | n + 1 => by
    unfold rLoop
    exact h.bind (fun _ => (loop h).bind (fun _ => pure))

theorem slice {k : Nat} {r : Rd α} (h : CalmRd r) : CalmRd (rSlice k r) := num.bind (fun _ => loop h)

theorem versions {sz : Wire.Sizes} : CalmRd (Wire.newVersions sz) := by
  intro b
  unfold Wire.newVersions
  split
  · exact .ok
  · unfold Wire.newRetainedVersion
    exact slice (.bind .num (fun _ => .bind .full (fun _ => .bind (.opt .full) (fun _ => .pure)))) b

theorem all {r : Rd α} (h : CalmRd r) {m : String} {b : Bytes} : Calm (Server.readAll r m b) := by
  unfold Server.readAll
  cases hr : r b with
  | error e => exact calm_error (h b) hr
  | ok p => exact .ite (fun _ => .err) (fun _ => .ok)

end CalmRd
end Katie

namespace Katie.Client
open Katie Katie.Wire Katie.Alg Katie.Ladder Katie.Server Katie.Prefix Katie.SearchTree Katie.ContactSpec

section
variable {env : CEnv} {s : ClientState}

theorem labelState_calmRd {sz : Sizes} : CalmRd (newClientLabelState sz) := by
  unfold newClientLabelState newMonitorMapEntry newLabelOwnerState
  refine .bind (.slice (.bind .num (fun _ => .bind .num (fun _ => .pure)))) (fun _ => .bind (.opt ?_) (fun _ => .bind .versions (fun _ => .pure)))
  exact .bind .num (fun _ => .bind .int (fun _ => .bind (.slice .num) (fun _ => .pure)))

theorem getLabelState_calm {st : CStore} {label : Bytes} : Calm (getLabelState env st label) := by
  unfold getLabelState parseLabelState
  split
  · exact .pure
  · exact labelState_calmRd.all

/-! ### the monitoring map -/

theorem contactMap_keys (es : List MonitorMapEntry) : Keys (contactMap es) ∧
    ∀ a ∈ contactMap es, (⟨a.1, a.2⟩ : MonitorMapEntry) ∈ es := by
  suffices h : ∀ (es : List MonitorMapEntry) (m : PMap), Keys m →
      Keys (es.foldl (fun m e => m.set e.position e.version) m) ∧
      ∀ a ∈ es.foldl (fun m e => m.set e.position e.version) m, a ∈ m ∨ (⟨a.1, a.2⟩ : MonitorMapEntry) ∈ es by
    obtain ⟨h1, h2⟩ := h es [] .nil
    exact ⟨h1, fun a ha => by simpa using h2 a ha⟩
  intro es
  induction es with
  | nil => intro m hm; exact ⟨hm, fun a ha => .inl ha⟩
  | cons e es ih =>
    intro m hm
    obtain ⟨h1, h2⟩ := ih (m.set e.position e.version) (hm.set _ _)
    refine ⟨h1, fun a ha => ?_⟩
    rcases h2 a ha with h | h
    · rcases mem_set.1 h with rfl | ⟨h, -⟩
      · exact .inr (by simp)
      · exact .inl h
    · exact .inr (by simp [h])

/-- the entries are in the tree of size `n`, and their versions are not too great -/
def Placed (n : Nat) (es : List MonitorMapEntry) : Prop := ∀ e ∈ es, e.position < n ∧ e.version < 2 ^ 31 - 1

theorem contactStruct_placed {m : PMap} {n : Nat} (hk : Keys m) (h : ∀ e ∈ m, e.1 < n ∧ e.2 < 2 ^ 31 - 1) : Placed n (contactStruct m) := by
  intro e he
  exact h _ (((contactStruct_spec hk).2 e).1 he)

theorem updateContactState_safe {order : PMap → List (Nat × Nat)} (ho : IsOrder order) {es : List MonitorMapEntry} {x n ver : Nat}
    (he : Placed n es) (hx : x < n) (hv : ver < 2 ^ 31 - 1) :
    Safe (fun r => Placed n r.1) (updateContactState order es x n ver) := by
  obtain ⟨path, h1, -, h3⟩ := rightDirectPath_spec hx
  obtain ⟨hk, hm⟩ := contactMap_keys es
  obtain ⟨m1, -, m3, -⟩ := markPath_spec ver (x :: path) (contactMap es) x hk
  unfold updateContactState
  rw [h1, G.ok_bind]
  generalize hg : markPath ver (x :: path) (contactMap es) x = r at m1 m3
  obtain ⟨m, y⟩ := r
  simp only at m1 m3 ⊢
  have hall : ∀ e ∈ m, e.1 < n ∧ e.2 < 2 ^ 31 - 1 := by
    intro e hm'
    rcases m3 e hm' with h | ⟨h, h'⟩
    · exact he _ (hm e h)
    · refine ⟨?_, by omega⟩
      rcases List.mem_cons.1 h' with h' | h'
      · omega
      · exact ((h3 _).1 h').lt_n
  obtain ⟨m', s1, s2, -⟩ := simplify_spec ho (m.length + 1) m (by omega) m1 (fun e h => (hall e h).1)
  rw [s1, G.ok_bind]
  exact .pure (contactStruct_placed (m1.sublist s2) (fun e h => hall e (s2.subset h)))

/-! ### the versions to keep -/

/-- the versions of the label owner are not too many -/
def Few (o : Option LabelOwnerState) : Prop :=
  ∀ w, o = some w → -1 ≤ w.verAtStarting ∧ w.verAtStarting + w.upcomingVers.length < 2 ^ 31 - 1

theorem contactRequired_calm : ∀ {es : List MonitorMapEntry} {n : Nat}, Placed n es → Calm (contactRequired es)
  | [], _, _ => .pure
  | e :: es, n, h => by
    unfold contactRequired
    exact .bind (monitoringBinaryLadder_calm (h e (by simp)).2) (fun _ _ =>
      .bind (contactRequired_calm (n := n) (fun e' he' => h e' (by simp [he']))) (fun _ _ => .pure))

theorem ownerRequired_calm {o : Option LabelOwnerState} (h : Few o) : Calm (ownerRequired o) := by
  cases o with
  | none => exact .pure
  | some o =>
    obtain ⟨h1, h2⟩ := h o rfl
    unfold ownerRequired allLadderVersions
    refine .bind (ladders_calm (fun v hv => ?_)) (fun _ _ => .pure)
    rcases List.mem_append.1 hv with hv | hv
    · split at hv
      · rw [List.mem_singleton.1 hv]
        omega
      · simp at hv
    · obtain ⟨i, hi, rfl⟩ := List.mem_map.1 hv
      rw [List.mem_range] at hi
      omega

theorem retainAll_calm {vs : Versions} : ∀ {l : List Nat}, Calm (retainAll vs l)
  | [] => .pure
  | v :: l => by
    unfold retainAll
    split
    · exact .err
    · exact .bind retainAll_calm (fun _ _ => .pure)

theorem updateRetainedVersions_calm {ls : ClientLabelState} {n : Nat} (h : Placed n ls.contact) (ho : Few ls.owner) {r : Received} :
    Calm (updateRetainedVersions ls r) := by
  unfold updateRetainedVersions
  exact .bind (contactRequired_calm h) (fun _ _ => .bind (ownerRequired_calm ho) (fun _ _ => .bind retainAll_calm (fun _ _ => .pure)))

/-! ### search -/

theorem _root_.Katie.Prefix.Safe.of_calm {α : Type} {r : G α} (h : Calm r) : Safe (fun _ => True) r := ⟨h, fun _ _ => trivial⟩

theorem updateTBS_calm (hk : Keyed env.cfg) {label : Bytes} {ver : Nat} {val : Bytes} : Calm (updateTBS env.cfg label ver val) :=
  wSeq_calm (marshalConfig_calm hk) (wSeq_calm wBytes_calm (wSeq_calm .ok wBytes_calm))

theorem verifyUpdateValue_calm (hk : Keyed env.cfg) {label : Bytes} {ver : Nat} {val : UpdateValue} :
    Calm (verifyUpdateValue env label ver val) := by
  unfold verifyUpdateValue
  refine .ite (fun _ => .ite (fun _ => .err) (fun _ => .pure)) (fun hm => .bind (updateTBS_calm hk) (fun _ _ => ?_))
  rw [if_neg (hk.1 (by simpa using hm))]
  exact .ite (fun _ => .err) (fun _ => .pure)

theorem computeCommitment_calm {opening label : Bytes} {ver : Nat} {val : UpdateValue} :
    Calm (computeCommitment env opening label ver val) :=
  .bind (wSeq_calm wBytes_calm (wSeq_calm .ok value_calm)) (fun _ _ => .pure)

/-- what is asked of the client's state -/
structure Stated (s : ClientState) : Prop where
  pos : 0 < s.treeHead.treeSize
  lt : s.treeHead.treeSize < 2 ^ 64

/-- the target of the search is not too great -/
def SmallTarget (req : SearchRequest) (res : SearchResponse) : Prop := ∀ t, targetOf req res = .ok t → t < 2 ^ 31 - 1

theorem targetOf_calm {req : SearchRequest} {res : SearchResponse} : Calm (targetOf req res) := by
  unfold targetOf
  split
  · exact .pure
  · exact .pure
  · exact .err

/-- the parts of a response from which a verifier is made have their types -/
structure Formed (env : CEnv) (fth : FullTreeHead) (proof : CombinedTreeProof) : Prop where
  head : Maybe TreeHead.Typed fth.treeHead
  proofs : ∀ q ∈ proof.prefixProofs, DepthsFit env.cs q

theorem verifySearch_safe (he : Equipped env) (hs : Stated s) {now : Nat} {req : SearchRequest} {res : SearchResponse}
    (hl : req.last = getLast (some s)) (hf : Formed env res.fullTreeHead res.search) (ht : SmallTarget req res) :
    Safe (fun r => r.1 < r.2.2.n ∧ Going env s r.2.2 ∧ s.treeHead.treeSize ≤ r.2.2.n) (verifySearch env now (some s) req res) := by
  unfold verifySearch
  rw [hl]
  refine (newVerifier_safe hs.lt hf.head hf.proofs).bind (fun v hv => ?_)
  refine Safe.bind (P := fun t => t < 2 ^ 31 - 1) ⟨targetOf_calm, fun a ha => ht a ha⟩ (fun t htt => ?_)
  refine (Safe.of_calm (verifyUpdateValue_calm he.keyed)).bind (fun _ _ => ?_)
  refine (Safe.of_calm (searchBinaryLadder_calm htt)).bind (fun ladder _ => ?_)
  refine (Safe.of_calm computeCommitment_calm).bind (fun com _ => ?_)
  refine (processLadder_safe he hv).bind (fun v1 h1 => ?_)
  refine (updateView_safe hs.pos h1.1).bind (fun v2 h2 => ?_)
  refine (run_safe (search_mild htt) h2.1).bind (fun r h3 => ?_)
  obtain ⟨terminal, v3⟩ := r
  obtain ⟨h3, h4, h5⟩ := h3
  simp only at h3 h4 h5 ⊢
  refine (finish_safe he h4 (by omega)).bind (fun r h6 => ?_)
  obtain ⟨u, v4⟩ := r
  simp only at h6 ⊢
  refine .pure ⟨?_, h6.1, ?_⟩
  · change terminal < v4.n
    omega
  · change s.treeHead.treeSize ≤ v4.n
    omega

/-- what is stored about a label: entries of the tree that the client knows, versions that are not too great -/
structure Modest (s : ClientState) (ls : ClientLabelState) : Prop where
  contact : Placed s.treeHead.treeSize ls.contact
  owner : Few ls.owner

theorem Placed.mono {m n : Nat} {es : List MonitorMapEntry} (h : Placed m es) (hn : m ≤ n) : Placed n es :=
  fun e he => ⟨by have := h e he; omega, (h e he).2⟩

theorem search_receive (he : Equipped env) (hs : Stated s) {now : Nat} {order : PMap → List (Nat × Nat)} (ho : IsOrder order)
    {req : SearchRequest} {res : SearchResponse} {st : CStore} (hl : req.last = getLast (some s))
    (hf : Formed env res.fullTreeHead res.search) (ht : SmallTarget req res)
    (hls : ∀ ls, getLabelState env st req.label = .ok ls → Modest s ls) :
    Calm (search env now order (some s) req res st) := by
  unfold search
  refine (Safe.bind (Q := fun _ => True) (verifySearch_safe he hs hl hf ht) (fun r hr => ?_)).1
  obtain ⟨terminal, updated, v⟩ := r
  obtain ⟨h1, h2, h3⟩ := hr
  simp only at h1 h2 h3 ⊢
  refine .ite (fun _ => .of_calm putState_calm) (fun _ => ?_)
  refine (run_safe rightmostDistinguished_mild h2).bind (fun r hr => ?_)
  obtain ⟨dle, v1⟩ := r
  obtain ⟨-, h4, h5⟩ := hr
  simp only at h4 h5 ⊢
  refine .ite (fun _ => .of_calm putState_calm) (fun _ => ?_)
  refine Safe.bind (P := Modest s) ⟨getLabelState_calm, hls⟩ (fun ls hm => ?_)
  refine (addRetainedVersions_safe h4).bind (fun v2 h6 => ?_)
  refine Safe.bind (P := fun t => t < 2 ^ 31 - 1) ⟨targetOf_calm, fun a ha => ht a ha⟩ (fun t htt => ?_)
  refine (updateContactState_safe ho (n := v2.n) (hm.contact.mono (by omega)) (by omega) htt).bind (fun r hr => ?_)
  obtain ⟨contact, terminal'⟩ := r
  simp only at hr ⊢
  exact (Safe.of_calm (updateRetainedVersions_calm (ls := { ls with contact := contact }) (n := v2.n) hr hm.owner)).bind (fun _ _ => .of_calm putLabelState_calm)

end
end Katie.Client
