import Verif.Lemmas.ReceiveSearch

/-
The verification of the responses to owner initialisation and monitoring, whatever the response is.
-/

namespace Katie.Alg
open Katie Prog SearchTree SearchSpec Katie.Client

theorem ownerInit_result {m : Monitor} {start : Nat} {vers : List Nat} (h0 : 0 < m.treeSize) :
    Stays m.treeSize (fun r => ∃ v : Int, r.1.owner = some ⟨start, v, []⟩ ∧ -1 ≤ v ∧ (v = -1 ∨ ∃ w ∈ vers, v = w))
      (Alg.ownerInit m start vers) := by
  unfold Alg.ownerInit
  refine .ite (fun _ => .fail) (fun _ => .bind (initEntries_stays h0) (fun xs hxs => .ite (fun _ => .fail) (fun _ =>
    .ite (fun _ => .fail) (fun _ => .bindT (initLadders_stays hxs.2) (fun _ => .pure ?_)))))
  cases vers with
  | nil => exact ⟨-1, rfl, by decide, .inl rfl⟩
  | cons v vs => exact ⟨v, rfl, by omega, .inr ⟨v, by simp, rfl⟩⟩

theorem ownerInit_few {m : Monitor} (h0 : 0 < m.treeSize) {start : Nat} {vers : List Nat} (hv : ∀ v ∈ vers, v < 2 ^ 31 - 1) :
    Spec (Alg.ownerInit m start vers) Mild (fun r => ∃ v : Int, r.1.owner = some ⟨start, v, []⟩ ∧ -1 ≤ v ∧ v < 2 ^ 31 - 1) IsErr := by
  refine ((ownerInit_mild h0 hv).meet (ownerInit_result h0)).imp (fun _ h => h) ?_ (fun _ h => h)
  rintro r ⟨-, v, h1, h2, h3⟩
  refine ⟨v, h1, h2, ?_⟩
  rcases h3 with rfl | ⟨w, hw, rfl⟩
  · decide
  · have := hv w hw
    omega

/-- the position that an entry moves to is in the tree -/
theorem contactMonitor1_result {m : Monitor} {x ver : Nat} {prev : PMap} (hx : x < m.treeSize) :
    Stays m.treeSize (fun r => ∀ y, r.1 = some y → y < m.treeSize) (contactMonitor1 m x ver prev) := by
  obtain ⟨path, hpath, hps⟩ := rightDirectPath_ok hx
  unfold contactMonitor1 distinguishedAncestor
  rw [root_eq (by omega)]
  refine .bindT (distAncLoop_stays _ _ _ _ _ _ _ (.root (by omega)) (by omega) hx) (fun stop => ?_)
  refine .ite (fun _ => .pure (by simp)) (fun _ => ?_)
  rw [hpath]
  refine .bind (Q := fun c => c = path) (.lift (fun a ha => (Except.ok.inj ha).symm)) ?_
  rintro c rfl
  refine .bindT (inspectAll_stays _ _ (fun y hy => ?_)) (fun r => ?_)
  · exact SearchSpec.RightAnc.lt_n (hps y (inspectList_sub hy))
  · refine .ite (fun _ => .pure (by simp)) (fun _ => .ite (fun _ => .pure (by simp)) (fun _ => .pure ?_))
    rintro y hy
    have hy := Option.some.inj hy
    subst hy
    cases hc : (inspectList stop (skipFinal m.owner x) c).getLast? with
    | none => exact hx
    | some z => exact SearchSpec.RightAnc.lt_n (hps z (inspectList_sub (List.mem_of_getLast? hc)))

theorem contactLoop_result {m : Monitor} : ∀ (rest prev ptrs : PMap), (∀ e ∈ rest, e.1 < m.treeSize ∧ e.2 < 2 ^ 31 - 1) →
    Keys ptrs → (∀ e ∈ ptrs, e.1 < m.treeSize ∧ e.2 < 2 ^ 31 - 1) →
    Stays m.treeSize (fun out => Keys out ∧ ∀ e ∈ out, e.1 < m.treeSize ∧ e.2 < 2 ^ 31 - 1) (contactLoop m rest prev ptrs) := by
  intro rest
  induction rest with
  | nil => intro prev ptrs _ hk hp; exact .pure ⟨hk, hp⟩
  | cons e rest ih =>
    obtain ⟨x, ver⟩ := e
    intro prev ptrs hn hk hp
    have hx := hn (x, ver) (by simp)
    unfold contactLoop
    refine .bind (contactMonitor1_result hx.1) ?_
    rintro ⟨u, prev'⟩ hu
    cases u with
    | none => exact ih _ _ (fun e he => hn e (by simp [he])) hk hp
    | some y =>
      refine ih _ _ (fun e he => hn e (by simp [he])) (hk.set _ _) (fun e he => ?_)
      rcases mem_set.1 he with rfl | ⟨he, -⟩
      · exact ⟨hu y rfl, hx.2⟩
      · exact hp e he

/-- the map after monitoring -/
def GoodMap (n : Nat) (c : Option PMap) : Prop := ∀ p, c = some p → Keys p ∧ ∀ e ∈ p, e.1 < n ∧ e.2 < 2 ^ 31 - 1

theorem contactMonitor_result {m : Monitor} {c : PMap} (hc : m.contact = some c) (hn : ∀ e ∈ c, e.1 < m.treeSize ∧ e.2 < 2 ^ 31 - 1) :
    Stays m.treeSize (fun m' => GoodMap m.treeSize m'.contact) (contactMonitor m) := by
  unfold contactMonitor
  rw [hc]
  refine .bind (contactLoop_result _ _ [] (fun e he => hn e (mem_sortDesc.1 he)) .nil (by simp)) (fun p hp => .pure ?_)
  intro q hq
  simp only at hq
  split at hq
  · cases hq
  · cases hq
    exact hp

theorem contactMonitor_good {m : Monitor} {c : PMap} (hc : m.contact = some c) (hk : Keys c)
    (hn : ∀ e ∈ c, e.1 < m.treeSize ∧ e.2 < 2 ^ 31 - 1) :
    Spec (contactMonitor m) Mild (fun m' => m'.owner = m.owner ∧ m'.treeSize = m.treeSize ∧ GoodMap m.treeSize m'.contact) IsErr :=
  ((contactMonitor_mild hc hk (fun e he => (hn e he).1) (fun e he => (hn e he).2)).meet (contactMonitor_result hc hn)).imp
    (fun _ h => h) (fun _ h => ⟨h.1.1, h.1.2.1, h.2⟩) (fun _ h => h)

/-- what is kept about the owner -/
structure OwnerFew (o : Owner) : Prop where
  sorted : o.upcoming.Pairwise (· ≤ ·)
  least : -1 ≤ o.verAtStarting
  few : o.verAtStarting + o.upcoming.length < 2 ^ 31 - 1

theorem OwnerFew.fewVersions {o : Owner} (h : OwnerFew o) : FewVersions o := ⟨h.sorted, h.few⟩

theorem OwnerFew.set {o : Owner} (h : OwnerFew o) (x : Nat) : OwnerFew (o.setStarting x) := by
  have := h.fewVersions.set x
  refine ⟨this.1, ?_, this.2⟩
  have := h.least
  unfold Owner.setStarting
  simp only
  omega

theorem ownerWalk_least {cfg : Config} {n : Nat} : ∀ (fuel lo hi : Nat) (anc : List Nat) (l r : Nat) (o : Owner), At n lo hi anc →
    OwnerFew o → Stays n OwnerFew (ownerWalk cfg n fuel (rt lo hi) l r o) := by
  intro fuel
  induction fuel with
  | zero => intro lo hi anc l r o h _; exact .diverge
  | succ fuel ih =>
    intro lo hi anc l r o h ho
    have hb := h.bounds
    have hx : rt lo hi < n := by omega
    have hright : ¬ noRightChild (rt lo hi) n = true → ∀ o1, OwnerFew o1 → Stays n OwnerFew (do
        let timestamp ← getTs (rt lo hi)
        let c ← lift (right (rt lo hi) n)
        ownerWalk cfg n fuel c timestamp r o1) := by
      intro hnr o1 ho1
      have hne : rt lo hi + 1 < hi := by
        by_contra hcon
        exact hnr ((noRightChild_iff h).2 (by omega))
      refine .bindT (.call hx) (fun t => ?_)
      refine .bind (Q := fun c => c = rt (rt lo hi + 1) hi) (.lift (fun a ha => ?_)) ?_
      · rw [right_rt h (by omega)] at ha
        exact (Except.ok.inj ha).symm
      rintro c rfl
      exact ih _ _ _ _ _ _ (.right h (by omega)) ho1
    unfold ownerWalk
    refine .ite (fun _ => .pure ho) (fun _ => .ite (fun _ => .ite (fun _ => .pure ho) (fun hnr => hright hnr o ho)) (fun _ => ?_))
    refine .bind (Q := OwnerFew) ?_ (fun o1 ho1 => .bindT (.call hx) (fun b => .ite (fun _ => .pure ho1)
      (fun _ => .bindT (expectLadder_stays hx) (fun _ => .ite (fun _ => .pure (ho1.set _)) (fun hnr => hright hnr _ (ho1.set _))))))
    refine .ite (fun _ => .pure ho) (fun hnl => ?_)
    have hne : lo < rt lo hi := by
      by_contra hcon
      exact hnl ((noLeftChild_iff h).2 (by omega))
    refine .bindT (.call hx) (fun t => ?_)
    refine .bind (Q := fun c => c = rt lo (rt lo hi)) (.lift (fun a ha => ?_)) ?_
    · rw [left_rt h, if_pos (by omega)] at ha
      exact (Except.ok.inj ha).symm
    rintro c rfl
    exact ih _ _ _ _ _ _ (.left h (by omega)) ho

theorem ownerMonitor_few {m : Monitor} (h0 : 0 < m.treeSize) {o : Owner} (hm : m.owner = some o) (ho : OwnerFew o) :
    Spec (Alg.ownerMonitor m) Mild (fun m' => m'.contact = m.contact ∧ ∃ o', m'.owner = some o' ∧ OwnerFew o') IsErr := by
  refine ((ownerMonitor_mild h0 hm ho.fewVersions).meet (n := m.treeSize)
    (Q' := fun m' => m'.contact = m.contact ∧ ∃ o', m'.owner = some o' ∧ OwnerFew o') ?_).imp (fun _ h => h) (fun _ h => h.2) (fun _ h => h)
  unfold Alg.ownerMonitor
  rw [hm]
  simp only
  rw [root_eq h0]
  exact .bind (ownerWalk_least _ _ _ _ _ _ _ (.root h0) ho) (fun o' ho' => .pure ⟨rfl, o', rfl, ho'⟩)

end Katie.Alg

namespace Katie.Client
open Katie Katie.Wire Katie.Alg Katie.Ladder Katie.Server Katie.Prefix Katie.SearchTree Katie.ContactSpec

section
variable {env : CEnv} {s : ClientState}

theorem allLadderVersions_calm {vs : List Nat} (h : ∀ v ∈ vs, v < 2 ^ 31 - 1) : Calm (allLadderVersions vs) := by
  unfold allLadderVersions
  exact .bind (ladders_calm h) (fun _ _ => .pure)

theorem commitmentsPresent_calm {g : List Nat} : ∀ {l : List (Nat × BinaryLadderStep)}, Calm (commitmentsPresent g l)
  | [] => .pure
  | (ver, step) :: l => by
    unfold commitmentsPresent
    exact .ite (fun _ => .err) (fun _ => commitmentsPresent_calm)

theorem ownerInit_receive (he : Equipped env) (hs : Stated s) {now : Nat} {ls : ClientLabelState} {req : OwnerInitRequest}
    {res : OwnerInitResponse} {st : CStore} (hl : req.last = getLast (some s)) (hf : Formed env res.fullTreeHead res.init)
    (hv : ∀ v ∈ res.greatestVersions, v < 2 ^ 31 - 1) (hls : Modest s ls) :
    Calm (ownerInit env now (some s) ls req res st) := by
  unfold ownerInit
  rw [hl]
  refine (Safe.bind (Q := fun _ => True) (newVerifier_safe hs.lt hf.head hf.proofs) (fun v h1 => ?_)).1
  refine (Safe.of_calm (allLadderVersions_calm hv)).bind (fun ladder _ => ?_)
  refine (processLadder_safe he h1).bind (fun v2 h2 => ?_)
  refine (Safe.of_calm commitmentsPresent_calm).bind (fun _ _ => ?_)
  refine (updateView_safe hs.pos h2.1).bind (fun v3 h3 => ?_)
  refine (run_safe newMonitor_mild h3.1).bind (fun r h4 => ?_)
  obtain ⟨m, v4⟩ := r
  obtain ⟨⟨h0, -, hsz, -, -⟩, h4, h5⟩ := h4
  simp only at h0 hsz h4 h5 ⊢
  refine (run_safe (ownerInit_few (by omega) hv) h4).bind (fun r h6 => ?_)
  obtain ⟨r, v5⟩ := r
  obtain ⟨⟨w, hw, hw1, hw2⟩, h6, h7⟩ := h6
  simp only at hw h6 h7 ⊢
  refine (finish_safe he h6 (by omega)).bind (fun r h8 => ?_)
  obtain ⟨u, v6⟩ := r
  simp only at h8 ⊢
  rw [hw]
  simp only
  refine (addRetainedVersions_safe h8.1).bind (fun v7 h9 => ?_)
  refine (Safe.of_calm (updateRetainedVersions_calm (ls := { ls with owner := some ⟨req.start, w, []⟩ }) hls.contact ?_)).bind
    (fun _ _ => .of_calm putLabelState_calm)
  rintro o ho
  cases ho
  exact ⟨hw1, by simpa using hw2⟩

/-! ### monitoring -/

/-- the only crash of `r` is the nil pointer dereference -/
def NilOnly {α : Type} (r : G α) : Prop := ∀ f, r = .error f → IsErr f ∨ f = .panic "nil pointer dereference"

theorem NilOnly.of_calm {α : Type} {r : G α} (h : Calm r) : NilOnly r := fun f hf => .inl (h f hf)

theorem NilOnly.bind {α β : Type} {P : α → Prop} {r : G α} {f : α → G β} (h : Safe P r) (hf : ∀ a, P a → NilOnly (f a)) :
    NilOnly (r >>= f) := by
  cases hr : r with
  | error e =>
    intro f hf'
    cases hf'
    exact .inl (h.1 e hr)
  | ok a => exact hf a (h.2 a hr)

theorem modest_map (hls : Modest s ls) {n : Nat} (hn : s.treeHead.treeSize ≤ n) :
    Keys (contactMap ls.contact) ∧ ∀ e ∈ contactMap ls.contact, e.1 < n ∧ e.2 < 2 ^ 31 - 1 := by
  obtain ⟨hk, hm⟩ := contactMap_keys ls.contact
  refine ⟨hk, fun e he => ?_⟩
  have := hls.contact _ (hm e he)
  simp only at this
  omega

theorem contactMonitor_receive (he : Equipped env) (hs : Stated s) {now : Nat} {ls : ClientLabelState} {req : ContactMonitorRequest}
    {res : MonitorResponse} {st : CStore} (hl : req.last = getLast (some s)) (hf : Formed env res.fullTreeHead res.monitor)
    (hls : Modest s ls) : NilOnly (contactMonitor env now (some s) ls req res st) := by
  unfold contactMonitor
  rw [hl]
  refine .bind (newVerifier_safe hs.lt hf.head hf.proofs) (fun v h1 => ?_)
  refine .bind (addRetainedVersions_safe h1) (fun v2 h2 => ?_)
  refine .bind (updateView_safe hs.pos h2.1) (fun v3 h3 => ?_)
  refine .bind (run_safe newMonitor_mild h3.1) (fun r h4 => ?_)
  obtain ⟨m, v4⟩ := r
  obtain ⟨⟨h0, -, hsz, -, -⟩, h4, h5⟩ := h4
  simp only at h0 hsz h4 h5 ⊢
  obtain ⟨hk, hm⟩ := modest_map hls (n := m.treeSize) (by omega)
  refine .bind (run_safe (contactMonitor_good (m := { m with contact := some (contactMap ls.contact) }) rfl hk hm) h4) (fun r h6 => ?_)
  obtain ⟨m', v5⟩ := r
  obtain ⟨⟨-, -, hgm⟩, h6, h7⟩ := h6
  simp only at hgm h6 h7 ⊢
  refine .bind (finish_safe he h6 (by omega)) (fun r h8 => ?_)
  obtain ⟨u, v6⟩ := r
  simp only at h8 ⊢
  cases hc : m'.contact with
  | none =>
    intro f hf
    cases hf
    exact .inr rfl
  | some c =>
    obtain ⟨g1, g2⟩ := hgm c hc
    refine .bind (P := fun es => Placed m.treeSize es) ⟨.ok, fun a ha => by cases ha; exact contactStruct_placed g1 g2⟩ (fun es hes => ?_)
    refine .bind (.of_calm (updateRetainedVersions_calm (ls := { ls with contact := es }) hes hls.owner)) (fun ls' _ => ?_)
    refine .bind (run_safe rightmostDistinguished_mild h8.1) (fun r h9 => ?_)
    obtain ⟨dle, v7⟩ := r
    cases dle with
    | none => exact .of_calm .err
    | some x => exact .of_calm putLabelState_calm

theorem ownerMonitor_receive (he : Equipped env) (hs : Stated s) {now : Nat} {ls : ClientLabelState} {o : LabelOwnerState}
    (ho : ls.owner = some o) (hsort : o.upcomingVers.Pairwise (· ≤ ·)) {req : OwnerMonitorRequest}
    {res : MonitorResponse} {st : CStore} (hl : req.last = getLast (some s)) (hf : Formed env res.fullTreeHead res.monitor)
    (hls : Modest s ls) : NilOnly (ownerMonitor env now (some s) ls o req res st) := by
  obtain ⟨ho1, ho2⟩ := hls.owner o ho
  unfold ownerMonitor
  rw [hl]
  refine .bind (newVerifier_safe hs.lt hf.head hf.proofs) (fun v h1 => ?_)
  refine .bind (addRetainedVersions_safe h1) (fun v2 h2 => ?_)
  refine .bind (updateView_safe hs.pos h2.1) (fun v3 h3 => ?_)
  refine .bind (run_safe newMonitor_mild h3.1) (fun r h4 => ?_)
  obtain ⟨m, v4⟩ := r
  obtain ⟨⟨h0, -, hsz, -, -⟩, h4, h5⟩ := h4
  simp only at h0 hsz h4 h5 ⊢
  obtain ⟨hk, hm⟩ := modest_map hls (n := m.treeSize) (by omega)
  refine .bind (run_safe (contactMonitor_good (m := { m with contact := some (contactMap ls.contact), owner := some ⟨o.starting, o.verAtStarting, o.upcomingVers⟩ }) rfl hk hm) h4) (fun r h6 => ?_)
  obtain ⟨m', v5⟩ := r
  obtain ⟨⟨how, hts, hgm⟩, h6, h7⟩ := h6
  simp only at how hts hgm h6 h7 ⊢
  refine .bind (run_safe (ownerMonitor_few (by omega) how ⟨hsort, ho1, ho2⟩) h6) (fun r h8 => ?_)
  obtain ⟨m2, v6⟩ := r
  obtain ⟨⟨hcc, o', ho', hof⟩, h8, h9⟩ := h8
  simp only at hcc ho' h8 h9 ⊢
  refine .bind (finish_safe he h8 (by omega)) (fun r h10 => ?_)
  obtain ⟨u, v7⟩ := r
  simp only at h10 ⊢
  rw [hcc]
  cases hc : m'.contact with
  | none =>
    intro f hf
    cases hf
    exact .inr rfl
  | some c =>
    obtain ⟨g1, g2⟩ := hgm c hc
    refine .bind (P := fun es => Placed m.treeSize es) ⟨.ok, fun a ha => by cases ha; exact contactStruct_placed g1 g2⟩ (fun es hes => ?_)
    rw [ho']
    simp only
    refine .bind (.of_calm (updateRetainedVersions_calm (ls := { ls with contact := es, owner := some ⟨o'.starting, o'.verAtStarting, o'.upcoming⟩ }) hes ?_)) (fun ls' _ => ?_)
    · rintro w hw
      cases hw
      exact ⟨hof.least, hof.few⟩
    · exact .of_calm putLabelState_calm

end
end Katie.Client
