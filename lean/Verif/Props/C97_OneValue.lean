import Verif.Props.C95_Audited
import Verif.Props.C79_OneAnswer
import Verif.Props.C31_C35_Auditor
import Verif.Props.C12_Exact
import Verif.Lemmas.PrefixKeeps

/-
C97: in an audited log a version has one value.

The clients may have tree heads of different logs: the service operator may sign what it likes.  But the clients accept heads of
the same auditor.
-/

namespace Katie.AuditSpec
open Katie Katie.Wire Katie.Audit Katie.Alg Katie.Ladder Katie.Client Katie.CommittedSpec Katie.Props Katie.SearchSpec

/-- the algorithm of a search: for the greatest version, or for a fixed version -/
def searchAlg (env : CEnv) (greatest : Bool) (target n : Nat) : Prog Nat :=
  if greatest then greatestVersionSearch env.cfg target n else fixedVersionSearch env.cfg target n

/-- `FindsBy env W label a greatest target opening value com terminal S`: a client has received a tree head for the log `W` (its root is the
one that was signed), together with the auditor's head `a`, in a response to a search for `label`: for the greatest version if `greatest`, otherwise for a fixed one.  All checks have passed: for
version `target`, with the value `value` opened by `opening`, whose commitment is `com`, at the log entry `terminal`.  The client
has hashed the strings `S`.  (`Consistent` is what the verifier does not check: C10, C11.) -/
inductive FindsBy (env : CEnv) (W : List Content) (label : Bytes) (a : AuditorTreeHead) (greatest : Bool) (target : Nat) (opening : Bytes)
    (value : UpdateValue) (com : Bytes) (terminal : Nat) : List Bytes → Prop
  | mk {now : Nat} {state : Option ClientState} {fth : FullTreeHead} {proof : CombinedTreeProof} {v0 v1 v2 v3 w : Verifier}
      {result : Provider.Result} {p : Provider Received} {rootP : Bytes} {th : TreeHead} {b rest : Bytes}
      {ladder : List BinaryLadderStep} {vers : List Nat} :
      newFullTreeHead env.cfg b = .ok (fth, rest) → fth.treeHead = some th → th.treeSize = W.length → fth.auditor = some a →
      EntriesOk env.cs W state → FromWire env.cs proof → target < 2 ^ 32 →
      newVerifier state (getLast state) fth proof = .ok v0 →
      searchBinaryLadder target target [] [] = .ok vers → computeCommitment env opening label target value = .ok com →
      processLadder env label ladder vers [(target, com)] v0 = .ok v1 → v1.updateView env now = .ok v2 →
      v2.run env (searchAlg env greatest target v2.n) = .ok (terminal, v3) →
      (∀ e ∈ Provider.evals env.cs (searchAlg env greatest target v2.n) v2.p, Consistent e.1 e.2) →
      v3.p.finish env.cs (Received.handle env.cs) v3.n v3.nP v3.m = (.ok result, p) →
      Log.root env.cs v3.n result.fullSubtrees = .ok (logRoot env.cs W) →
      auditorRoot env v3.nP result.additional = .ok rootP →
      verifyTreeHead env { v3 with p := p } (logRoot env.cs W) rootP = .ok w →
      FindsBy env W label a greatest target opening value com terminal (finishStrings env.cs v3.n v3.nP v3.m v3.p ++
        proofStrings env.cs (Provider.evals env.cs (searchAlg env greatest target v2.n) v2.p))

/-- the same, with a search of either kind -/
def Finds (env : CEnv) (W : List Content) (label : Bytes) (a : AuditorTreeHead) (target : Nat) (opening : Bytes)
    (value : UpdateValue) (com : Bytes) (terminal : Nat) (S : List Bytes) : Prop :=
  ∃ greatest, FindsBy env W label a greatest target opening value com terminal S

/-- The updates `us` that lead from entry `x` to entry `y` do not remove the VRF output `o`. -/
def Keeps (us : List AuditorUpdate) (o : Bytes) (x y : Nat) : Prop :=
  ∀ z u, x < z → z ≤ y → us[z]? = some u → o ∉ u.removed.map (fun e => e.vrf)

/-- the strings that are hashed when the auditor evaluates the updates of the history `A` -/
def stepStrings (cs : Log.Suite) (A : List Audited) : List Bytes :=
  A.flatMap (fun s => verifierInputs cs (s.update.added ++ s.update.removed) s.update.proof ++
    afterInputs cs s.update.added s.update.removed s.update.proof)

/-- the strings that are hashed by one client, by the one who computed its tree head, and by the auditor for its head -/
def clientStrings (cs : Log.Suite) (A : List Audited) (W : List Content) (a : AuditorTreeHead) (S : List Bytes) : List Bytes :=
  S ++ logStrings cs W ++ treeStrings cs (W.map (Content.entry cs)) ++ treeStrings cs ((W.map (Content.entry cs)).take a.treeSize) ++
    treeStrings cs (log (A.take a.treeSize))

end Katie.AuditSpec

namespace Katie.Props
open Katie Katie.Wire Katie.Alg Katie.Audit Katie.AuditSpec Katie.SearchSpec Katie.Client Katie.CommittedSpec
  Katie.Ladder Katie.SearchTree

theorem logRoot_entries (cs : Log.Suite) (W : List Content) :
    LogSpec.rootHash cs.H ((W.map (Content.entry cs)).map (leafHash cs)) = logRoot cs W := by
  unfold logRoot leaves
  rw [List.map_map]
  rfl

theorem finds_passed {env : CEnv} {W : List Content} {label : Bytes} {a : AuditorTreeHead} {target : Nat} {opening : Bytes}
    {value : UpdateValue} {com : Bytes} {terminal : Nat} {S : List Bytes}
    (h : Finds env W label a target opening value com terminal S) :
    ∃ S', Passed env (W.map (Content.entry env.cs)) a S' ∧ ∀ s ∈ S', s ∈ S := by
  obtain ⟨greatest, b1, b2, b3, b4, b5, b6, b7, b8, b9, b10, b11, b12, b13, b14, b15, b16, b17, b18⟩ := h
  refine ⟨_, .mk b1 b2 (by rw [b3, List.length_map]) b4 b8 (.ladder (.refl _) b11) b12 (.run (.refl _) b13) b15
    (by rw [logRoot_entries]; exact b16) b17 (by rw [logRoot_entries]; exact b18), ?_⟩
  intro s hs
  exact List.mem_append_left _ hs

/-- What a client finds is in the log. -/
theorem finds_committed {env : CEnv} {W : List Content} {label : Bytes} {a : AuditorTreeHead} {target : Nat} {opening : Bytes}
    {value : UpdateValue} {com : Bytes} {terminal : Nat} {S : List Bytes} {out : Nat → Bytes} (hcs : env.cs.Good)
    (hW : WellFormed env.cs W)
    (hvrf : ∀ v i o pr, v < 2 ^ 32 → vrfInput label v = .ok i → env.vrfVerify i pr = .ok o → o = out v)
    (h : Finds env W label a target opening value com terminal S) :
    (Committed W out target com terminal ∧ (∃ i pr, vrfInput label target = .ok i ∧ env.vrfVerify i pr = .ok (out target)) ∧
      target < 2 ^ 32 ∧ computeCommitment env opening label target value = .ok com) ∨
    HashBroken env.cs (logStrings env.cs W) S := by
  obtain ⟨greatest, -, hth, hsz, -, hst, hwire, h32, h0, hl, hcom, h1, h2, h3, hclean, hf, hroot, -, -⟩ := h
  rename_i now state fth proof v0 v1 v2 v3 w result p rootP th b rest ladder vers
  obtain ⟨e1, e2, e3, e4, e5, e6⟩ := newVerifier_ok h0
  have hn0 : v0.n = th.treeSize := by
    unfold treeSizeOf at e5
    rw [hth] at e5
    exact (Except.ok.inj e5).symm
  obtain ⟨f02, hR, -⟩ := setup hW hst h0 h1 h2
  have f23 := (run_frame h3).1
  have f01 := processLadder_frame h1
  have hn2 : v2.n = W.length := by rw [f02.n, hn0, hsz]
  have hn : v3.n = W.length := by rw [f23.n, hn2]
  have hmn : ∀ k ∈ v3.m, k ≤ v3.n := by
    intro k hk
    have f12 := (updateView_frame h2).1
    have := updateView_size h2 k (by rw [(f12.trans f23).m] at hk; exact hk)
    rw [f01.n, hn0, hsz] at this
    rw [hn]
    exact this
  obtain ⟨hpos, hmax⟩ := logRoot_size hroot
  have hpos' : 0 < W.length := by rw [← hn]; exact hpos
  have h64 : W.length < 2 ^ 64 := by rw [← hn]; unfold LogMath.maxTreeSize at hmax; omega
  rw [hn2] at h3 hclean ⊢
  unfold searchAlg at h3 hclean ⊢
  have hr := (run_frame h3).2
  obtain ⟨g3, m3, hruns, -⟩ := run_spec (Received.handle env.cs) (if greatest then
    greatestVersionSearch env.cfg target W.length else fixedVersionSearch env.cfg target W.length) v2.p hR.ts
  rw [hr] at g3 m3 hruns
  rcases after_any hcs hW hwire hR.toBegun (fun v k hk => by
    obtain ⟨k1, i, step, k2, k3, -⟩ := hR.known v k hk
    exact ⟨searchBinaryLadder_lt hl v k1, hvrf v i _ _ (searchBinaryLadder_lt hl v k1) k2 k3⟩) hclean h3 hn hmn hf hroot with
    ⟨hL, hT, -, hC⟩ | hB
  swap
  · exact Or.inr hB
  left
  have key : (∀ e ∈ v2.p.trace (Received.handle env.cs) (if greatest then
      greatestVersionSearch env.cfg target W.length else fixedVersionSearch env.cfg target W.length), ∃ a, e.a = .ok a) ∧
      (greatest = true → ∃ dle tr1 tr2, v2.p.trace (Received.handle env.cs) (if greatest then
        greatestVersionSearch env.cfg target W.length else fixedVersionSearch env.cfg target W.length) = tr1 ++ tr2 ∧
        Runs (rightmostDistinguished env.cfg W.length) tr1 (.ok dle) ∧
        Runs (greatestLoop target W.length W.length (dle.getD (root W.length)) none) tr2 (.ok terminal)) := by
    by_cases hg : greatest = true
    · rw [if_pos hg] at hr ⊢
      obtain ⟨f, hf1, hf2⟩ := finish_frontier m3 hf
      obtain ⟨f', hf3, hf4, -, -, hf5⟩ := frontier_spine hpos' h64
      rw [hn, hf3] at hf1
      have hff := Except.ok.inj hf1
      subst hff
      obtain ⟨hok, hparts⟩ := greatest_allOk (Received.handle env.cs) (cfg := env.cfg) (ver := target) (r := terminal) hpos' hR.ts
        (by rw [hr]) (by rw [hr]; exact fun y hy => hf2 y ((hf4 y).2 hy)) (by rw [hr]; exact hf2 _ hf5)
      exact ⟨hok, fun _ => hparts⟩
    · refine ⟨?_, fun h => absurd h hg⟩
      rw [if_neg hg] at hruns ⊢
      exact (fixedVersionSearch_noCatch (cfg := env.cfg) (ver := target) (n := W.length)).runs hruns
  obtain ⟨hok, hparts⟩ := key
  obtain ⟨z, hfacts⟩ := client_tfacts (cs := env.cs) _ v2.p hR.ts hR.inv hR.times hok v3.p
    (by rw [hr]; exact Grows.refl _) (fun e he => he)
  rw [hR.tracker] at hfacts
  have hshown : terminal ∈ v3.p.timestamps.map Prod.fst ∧ Shown env.cs v2.p.state.versions proof.prefixProofs
      (Provider.evals env.cs (if greatest then greatestVersionSearch env.cfg target W.length
        else fixedVersionSearch env.cfg target W.length) v2.p) (fun x => v3.p.prefixTrees.lookup x) terminal target true := by
    by_cases hg : greatest = true
    · obtain ⟨dle, tr1, tr2, k1, k2, k3⟩ := hparts hg
      have hfacts' := hfacts
      rw [k1] at hfacts'
      obtain ⟨y, y1, y2⟩ := hfacts'.split
      obtain ⟨lo, anc, l1, l2⟩ := rightmostDistinguished_frontier hpos' k2
      rw [← l2] at k3
      have hy : y = {} := y1.ts_only (rightmostDistinguished_ts hpos' k2)
      subst hy
      exact greatestLoop_shown h32 _ lo anc none {} z tr2 terminal l1 (by intro _ e he; cases he) (by intro e he; cases he)
        (by intro t ht; cases ht) k3 y2
    · have hruns' := hruns
      rw [if_neg hg] at hruns'
      refine fixedVersionSearch_shown hpos' h32 hruns' (z := z) ?_
      have := hfacts
      rw [if_neg hg] at this ⊢
      exact this
  obtain ⟨-, -, hC'⟩ := hC _ _ _ hshown.1 hshown.2
  obtain ⟨c, k, com', k2, k3, k4, k5⟩ := hC' rfl
  have k6 := (hR.known _ _ k3).com k4
  subst k6
  obtain ⟨-, i, step, i1, i2, -⟩ := hR.known _ _ k3
  have i3 := hvrf _ i _ _ h32 i1 i2
  exact ⟨⟨c, k2, k5⟩, ⟨i, _, i1, by rw [← i3]; exact i2⟩, h32, hcom⟩

theorem chain_step {cs : Log.Suite} {A : List Audited} (h : Chain cs A) : ∀ y p q, A[y]? = some p → A[y + 1]? = some q →
    Prefix.evaluateBeforeAfter cs q.update.added q.update.removed q.update.proof = .ok (p.entry.prefixTree, q.entry.prefixTree) := by
  induction h with
  | nil => intro y p q hp; cases hp
  | @snoc A u before after hA h1 h2 h3 ih =>
    intro y p q hp hq
    have hlt := (List.getElem?_eq_some_iff.1 hq).1
    rw [List.length_append, List.length_singleton] at hlt
    rw [List.getElem?_append_left (by omega)] at hp
    by_cases hl : y + 1 < A.length
    · rw [List.getElem?_append_left hl] at hq
      exact ih y p q hp hq
    · rw [List.getElem?_append_right (by omega), show y + 1 - A.length = 0 by omega] at hq
      cases hq
      have : A.getLast? = some p := by rw [List.getLast?_eq_getElem?, show A.length - 1 = y by omega, hp]
      rw [h3 p this] at h2
      exact h2

theorem mem_stepStrings {cs : Log.Suite} {A : List Audited} {y : Nat} {q : Audited} (hq : A[y]? = some q) {s : Bytes}
    (hs : s ∈ verifierInputs cs (q.update.added ++ q.update.removed) q.update.proof ++
      afterInputs cs q.update.added q.update.removed q.update.proof) : s ∈ stepStrings cs A :=
  List.mem_flatMap.2 ⟨q, List.mem_of_getElem? hq, hs⟩

theorem mem_logStrings {cs : Log.Suite} {W : List Content} {y : Nat} {c : Content} (hc : W[y]? = some c) {s : Bytes}
    (hs : s ∈ PrefixSpec.rootInputs cs.H cs.hashSize c.map) : s ∈ logStrings cs W :=
  List.mem_append_right _ (List.mem_flatMap.2 ⟨c, List.mem_of_getElem? hc, hs⟩)

/-- the entries of the log are those of the history, up to entry `k` -/
theorem audited_entry {cs : Log.Suite} {A : List Audited} {W : List Content} {k : Nat}
    (hk : (W.map (Content.entry cs)).take k = log (A.take k)) {y : Nat} (hy : y < k) {c : Content} (hc : W[y]? = some c) :
    ∃ p, A[y]? = some p ∧ p.entry = c.entry cs := by
  have h := congrArg (fun l => l[y]?) hk
  simp only [log, List.getElem?_take, List.getElem?_map, hy, if_true, hc, Option.map_some] at h
  obtain ⟨p, hp, he⟩ := Option.map_eq_some_iff.1 h.symm
  exact ⟨p, hp, he⟩

/-- Whatever an update is, if its proof leads from the root of the map `S` to the root of the map `T`, then what is in `S` and is not
removed is in `T`, or hash inputs collide or have an all-zero digest. -/
theorem step_keeps {cs : Log.Suite} (hcs : cs.Good) (u : AuditorUpdate) (hu : UpdateOk cs u) {S T : List PrefixSpec.Pair}
    (hS : PrefixSpec.IsMap cs.hashSize S) (hT : PrefixSpec.IsMap cs.hashSize T)
    (hev : Prefix.evaluateBeforeAfter cs u.added u.removed u.proof =
      .ok (PrefixSpec.rootHash cs.H cs.hashSize S, PrefixSpec.rootHash cs.H cs.hashSize T))
    {e : PrefixSpec.Pair} (he : e ∈ S) (hr : e.1 ∉ u.removed.map (fun e => e.vrf)) :
    e ∈ T ∨ HashBroken cs (verifierInputs cs (u.added ++ u.removed) u.proof ++ afterInputs cs u.added u.removed u.proof ++
      PrefixSpec.rootInputs cs.H cs.hashSize S) (PrefixSpec.rootInputs cs.H cs.hashSize S ++ PrefixSpec.rootInputs cs.H cs.hashSize T) := by
  unfold Prefix.evaluateBeforeAfter at hev
  obtain ⟨n, hn, h⟩ := G.bind_eq_ok.mp hev
  obtain ⟨n', hadd, h⟩ := G.bind_eq_ok.mp h
  obtain ⟨hbefore, hafter⟩ := Prod.mk.inj (Except.ok.inj h)
  have hin : verifierInputs cs (u.added ++ u.removed) u.proof = n.inputs cs := by unfold verifierInputs; rw [hn]
  have hin' : afterInputs cs u.added u.removed u.proof = n'.inputs cs := by
    unfold afterInputs; rw [hn]; simp only; rw [hadd]
  rw [hin, hin']
  obtain ⟨n1, -⟩ := Prefix.evaluate_spec (wireProof_of hu) hn
  rcases Prefix.opens_of_hash hcs (I := PrefixSpec.rootInputs cs.H cs.hashSize S) n [] S ((Prefix.wf_root_iff _ _).mpr hS) he n1
    (Prefix.evaluate_noIds hn) (by rw [hbefore, Prefix.trieHash_root]) (fun _ h => h) with ho | hB
  swap
  · right
    refine Prefix.Bad.mono hB (fun s hs => ?_) (fun s hs => List.mem_append_left _ hs)
    exact List.mem_append_left _ (List.mem_append_left _ hs)
  have ho := Prefix.addRemove_opens (p := []) _ _ _ _ _ (fun hm => hr ((Prefix.sortBy_perm _).mem_iff.mp hm)) hadd
    (Prefix.opens_cacheHashes n [] ho)
  rcases Prefix.mem_of_opens hcs (J := PrefixSpec.rootInputs cs.H cs.hashSize T) (hS.len e he).1 n' [] T
    ((Prefix.wf_root_iff _ _).mpr hT) (by simp)
    (Prefix.addRemove_hashLen hcs _ _ _ _ _ _ (Prefix.hashLen_cacheHashes hcs n (Prefix.hashLen_of_sized n n1)) hadd) ho
    (by rw [hafter, Prefix.trieHash_root]) (fun _ h => h) with hm | hB
  · exact Or.inl hm
  · right
    refine Prefix.Bad.mono hB (fun s hs => ?_) (fun s hs => List.mem_append_right _ hs)
    rcases List.mem_append.1 hs with hs | hs
    · exact List.mem_append_left _ (List.mem_append_right _ hs)
    · exact List.mem_append_right _ hs

/-- In the audited part of a log, what is not removed stays. -/
theorem audited_keeps {cs : Log.Suite} (hcs : cs.Good) {A : List Audited} (hA : Chain cs A)
    (hus : ∀ u ∈ updates A, UpdateOk cs u) {W : List Content} (hW : WellFormed cs W) {k : Nat}
    (hk : (W.map (Content.entry cs)).take k = log (A.take k)) {e : PrefixSpec.Pair} {x : Nat} {c : Content} (hc : W[x]? = some c)
    (he : e ∈ c.map) : ∀ d, x + d < k → x + d < W.length → Keeps (updates A) e.1 x (x + d) →
    (∃ c', W[x + d]? = some c' ∧ e ∈ c'.map) ∨
      HashBroken cs (logStrings cs W ++ stepStrings cs A) (logStrings cs W ++ stepStrings cs A) := by
  intro d
  induction d with
  | zero => intro _ _ _; exact Or.inl ⟨c, hc, he⟩
  | succ d ih =>
    intro h1 h2 hkeep
    rcases ih (by omega) (by omega) (fun z u a1 a2 => hkeep z u a1 (by omega)) with ⟨c', hc', he'⟩ | hB
    swap
    · exact Or.inr hB
    obtain ⟨p, hp, hpe⟩ := audited_entry hk (by omega) hc'
    obtain ⟨c2, hc2⟩ : ∃ c2, W[x + (d + 1)]? = some c2 := ⟨_, List.getElem?_eq_getElem h2⟩
    obtain ⟨q, hq, hqe⟩ := audited_entry hk h1 hc2
    have hev := chain_step hA _ _ _ hp hq
    rw [hpe, hqe] at hev
    have hu : (updates A)[x + (d + 1)]? = some q.update := by
      unfold updates
      rw [List.getElem?_map, hq]
      rfl
    have g1 := hkeep _ _ (by omega) (by omega) hu
    have m1 := hW.maps _ (List.mem_of_getElem? hc')
    have m2 := hW.maps _ (List.mem_of_getElem? hc2)
    rcases step_keeps hcs q.update (hus _ (List.mem_of_getElem? hu)) m1 m2 hev he' g1 with hm | hB
    · exact Or.inl ⟨c2, hc2, hm⟩
    · right
      refine HashBroken.mono hB (fun s hs => ?_) (fun s hs => ?_)
      · rcases List.mem_append.1 hs with hs | hs
        · exact List.mem_append_right _ (mem_stepStrings hq hs)
        · exact List.mem_append_left _ (mem_logStrings hc' hs)
      · rcases List.mem_append.1 hs with hs | hs
        · exact List.mem_append_left _ (mem_logStrings hc' hs)
        · exact List.mem_append_left _ (mem_logStrings hc2 hs)

theorem mem_clientStrings (cs : Log.Suite) (A : List Audited) (W : List Content) (a : AuditorTreeHead) (S : List Bytes) (s : Bytes) :
    s ∈ clientStrings cs A W a S ↔ s ∈ S ∨ s ∈ logStrings cs W ∨ s ∈ treeStrings cs (W.map (Content.entry cs)) ∨
      s ∈ treeStrings cs ((W.map (Content.entry cs)).take a.treeSize) ∨ s ∈ treeStrings cs (log (A.take a.treeSize)) := by
  unfold clientStrings
  simp only [List.mem_append, or_assoc]

theorem vrf_outputs {env : CEnv}
    (hvrf : ∀ i pr o pr' o', env.vrfVerify i pr = .ok o → env.vrfVerify i pr' = .ok o' → o = o') (label : Bytes) :
    ∃ out : Nat → Bytes, ∀ v i o pr, v < 2 ^ 32 → vrfInput label v = .ok i → env.vrfVerify i pr = .ok o → o = out v := by
  classical
  refine ⟨fun v => if h : ∃ o i pr, vrfInput label v = .ok i ∧ env.vrfVerify i pr = .ok o then h.choose else [], ?_⟩
  intro v i o pr _ hi ho
  have hex : ∃ o i pr, vrfInput label v = .ok i ∧ env.vrfVerify i pr = .ok o := ⟨o, i, pr, hi, ho⟩
  dsimp only
  rw [dif_pos hex]
  obtain ⟨i', pr', hi', ho'⟩ := hex.choose_spec
  rw [hi] at hi'
  cases hi'
  exact hvrf i pr o pr' _ ho ho'

/-- **C97 (partial).**  Let the auditor be as in C95: restarted only when its database covers the heads returned, with signatures
that can not be forged.  Two clients, whose tree heads may be for different logs, accept heads of this auditor and each find version
`t` of a label, at entries that the auditor has audited.  If the updates which the auditor has accepted between the two entries do
not remove the VRF output of the version (`Keeps`), then both have found the same commitment, and the same value; or two strings that
were hashed, by the clients, for their logs, or by the auditor, collide (or one has the digest 0).  `out` is the VRF output.
(What is missing: the condition `Consistent` in `Finds`; without it `C60_false_value_accepted` is a counterexample.) -/
theorem C97_one_value_partial {env : CEnv} (hcs : env.cs.Good) (hcfg : ConfigTyped env.cfg)
    (hvrf : ∀ i pr o pr' o', env.vrfVerify i pr = .ok o → env.vrfVerify i pr' = .ok o' → o = o')
    {key : Bytes} {sign : Bytes → G Bytes} {us kept : List AuditorUpdate} {hs : List AuditorTreeHead} {au : Auditor}
    (hex : DurableExec env.cs env.cfg key sign (UpdateOk env.cs) us kept hs au) (hun : Unforged env sign hs) (label : Bytes) :
    ∃ A, Chain env.cs A ∧ updates A = us ∧ ∀ (W W' : List Content) (a a' : AuditorTreeHead) (t x x' : Nat)
      (o o' com com' : Bytes) (val val' : UpdateValue) (S S' : List Bytes),
      WellFormed env.cs W → WellFormed env.cs W' →
      Finds env W label a t o val com x S → Finds env W' label a' t o' val' com' x' S' →
      x < a.treeSize → x' < a'.treeSize → x ≤ x' →
      (∀ i pr out, vrfInput label t = .ok i → env.vrfVerify i pr = .ok out → Keeps us out x x') →
      o.length = o'.length → val.Typed env.cfg → val'.Typed env.cfg →
      (com = com' ∧ (val = val' ∨ ∃ b b', commitmentValue label t val = .ok b ∧ commitmentValue label t val' = .ok b' ∧
        LogSpec.Collides env.cs.H (hmacInputs env.cs.H Commit.fixedBytes (o ++ b))
          (hmacInputs env.cs.H Commit.fixedBytes (o' ++ b')))) ∨
      HashBroken env.cs (clientStrings env.cs A W a S ++ clientStrings env.cs A W' a' S' ++ stepStrings env.cs A)
        (clientStrings env.cs A W a S ++ clientStrings env.cs A W' a' S' ++ stepStrings env.cs A) := by
  obtain ⟨A, hA, hup, hall⟩ := C95_audited hcs hcfg hex
  refine ⟨A, hA, hup, ?_⟩
  intro W W' a a' t x x' o o' com com' val val' S S' hW hW' hf hf' hx hx' hle hkeep hlen hty hty'
  obtain ⟨out, hout⟩ := vrf_outputs hvrf label
  have times : ∀ V, WellFormed env.cs V → ∀ e ∈ V.map (Content.entry env.cs), e.timestamp < 2 ^ 64 := by
    intro V hV e he
    obtain ⟨c, hc, rfl⟩ := List.mem_map.1 he
    exact hV.times c hc
  -- all strings
  generalize hTT : clientStrings env.cs A W a S ++ clientStrings env.cs A W' a' S' ++ stepStrings env.cs A = TT
  have sub : ∀ s, s ∈ clientStrings env.cs A W a S ∨ s ∈ clientStrings env.cs A W' a' S' ∨ s ∈ stepStrings env.cs A →
      s ∈ TT := by
    intro s hs
    rw [← hTT, List.mem_append, List.mem_append, or_assoc]
    exact hs
  by_cases hB : HashBroken env.cs TT TT
  · exact Or.inr hB
  left
  have main : ∀ (V : List Content) (b : AuditorTreeHead) (com : Bytes) (val : UpdateValue) (o : Bytes) (x : Nat) (R : List Bytes),
      WellFormed env.cs V → Finds env V label b t o val com x R → (∀ s ∈ clientStrings env.cs A V b R, s ∈ TT) →
      (V.map (Content.entry env.cs)).take b.treeSize = log (A.take b.treeSize) ∧ Committed V out t com x ∧
      (∃ i pr, vrfInput label t = .ok i ∧ env.vrfVerify i pr = .ok (out t)) ∧
      t < 2 ^ 32 ∧ computeCommitment env o label t val = .ok com := by
    intro V b com val o x R hV hF hsub
    obtain ⟨R', hP, hR'⟩ := finds_passed hF
    have hh : (V.map (Content.entry env.cs)).take b.treeSize = log (A.take b.treeSize) := by
      rcases hall env _ b R' rfl rfl hun (times V hV) hP with ⟨-, -, -, -, k⟩ | k
      · exact k
      · refine absurd (HashBroken.mono (Or.inl k) (fun s hs => hsub s ((mem_clientStrings ..).2 ?_))
          (fun s hs => hsub s ((mem_clientStrings ..).2 ?_))) hB
        · rcases List.mem_append.1 hs with hs | hs
          · exact Or.inr (Or.inr (Or.inl hs))
          · exact Or.inr (Or.inr (Or.inr (Or.inl hs)))
        · rcases List.mem_append.1 hs with hs | hs
          · exact Or.inl (hR' s hs)
          · exact Or.inr (Or.inr (Or.inr (Or.inr hs)))
    refine ⟨hh, ?_⟩
    rcases finds_committed hcs hV hout hF with k | k
    · exact k
    · exact absurd (HashBroken.mono k (fun s hs => hsub s ((mem_clientStrings ..).2 (Or.inr (Or.inl hs))))
        (fun s hs => hsub s ((mem_clientStrings ..).2 (Or.inl hs)))) hB
  obtain ⟨p1, ⟨c, c1, c2⟩, p3, p4, p5⟩ := main W a com val o x S hW hf (fun s hs => sub s (Or.inl hs))
  obtain ⟨q1, ⟨c', c1', c2'⟩, -, -, q5⟩ := main W' a' com' val' o' x' S' hW' hf' (fun s hs => sub s (Or.inr (Or.inl hs)))
  obtain ⟨i, pr, i1, i2⟩ := p3
  have hkeep := hkeep i pr _ i1 i2
  have hlx : x' < W'.length := (List.getElem?_eq_some_iff.1 c1').1
  -- the entry in the other log
  obtain ⟨d, hd⟩ : ∃ d, W'[x]? = some d := ⟨_, List.getElem?_eq_getElem (by omega)⟩
  have hmem : (out t, com) ∈ d.map := by
    obtain ⟨r, r1, r2⟩ := audited_entry p1 hx c1
    obtain ⟨r', r1', r2'⟩ := audited_entry q1 (by omega) hd
    rw [r1] at r1'
    cases r1'
    have hroots : PrefixSpec.rootHash env.cs.H env.cs.hashSize c.map = PrefixSpec.rootHash env.cs.H env.cs.hashSize d.map := by
      have := r2.symm.trans r2'
      exact congrArg LogEntry.prefixTree this
    rcases C07_root_injective hcs _ _ (hW.maps _ (List.mem_of_getElem? c1)) (hW'.maps _ (List.mem_of_getElem? hd)) hroots with k | k
    · exact (k _).1 c2
    · refine absurd (HashBroken.mono (A := PrefixSpec.rootInputs env.cs.H env.cs.hashSize c.map)
        (B := PrefixSpec.rootInputs env.cs.H env.cs.hashSize d.map) k ?_ ?_) hB
      · exact fun s hs => sub s (Or.inl ((mem_clientStrings ..).2 (Or.inr (Or.inl (mem_logStrings c1 hs)))))
      · exact fun s hs => sub s (Or.inr (Or.inl ((mem_clientStrings ..).2 (Or.inr (Or.inl (mem_logStrings hd hs))))))
  have hcom : com = com' := by
    obtain ⟨n, rfl⟩ : ∃ n, x' = x + n := ⟨x' - x, by omega⟩
    rcases audited_keeps hcs hA (fun u hu => (durable_updates hcs hex).1.1 u (hup ▸ hu)) hW' q1
      hd hmem n hx' hlx (hup ▸ hkeep) with ⟨e, e1, e2⟩ | k
    · rw [e1] at c1'
      obtain rfl := Option.some.inj c1'
      have := List.inj_on_of_nodup_map (hW'.maps e (List.mem_of_getElem? e1)).distinct e2 c2' rfl
      exact (Prod.mk.inj this).2
    · have hs : ∀ s ∈ logStrings env.cs W' ++ stepStrings env.cs A, s ∈ TT := by
        intro s hs
        rcases List.mem_append.1 hs with hs | hs
        · exact sub s (Or.inr (Or.inl ((mem_clientStrings ..).2 (Or.inr (Or.inl hs)))))
        · exact sub s (Or.inr (Or.inr hs))
      exact absurd (HashBroken.mono k hs hs) hB
  refine ⟨hcom, ?_⟩
  unfold computeCommitment at p5 q5
  obtain ⟨b, hb, p5⟩ := G.bind_eq_ok.1 p5
  obtain ⟨b', hb', q5⟩ := G.bind_eq_ok.1 q5
  have e1 := Except.ok.inj p5
  have e2 := Except.ok.inj q5
  rcases C52_binds_label_version_value env.cs env.cfg o o' com b b' hlen label label t t p4 p4
    val val' hty hty' hb hb' (by rw [← e1]; exact C52_opens _ _ _) (by rw [hcom, ← e2]; exact C52_opens _ _ _) with
    ⟨-, -, k⟩ | k
  · exact Or.inl k
  · exact Or.inr ⟨b, b', hb, hb', k⟩

/-! ### an example: one client gets the log after the first change, the other after the second -/

/-- the auditor after it has returned the first head and accepted the second change -/
def oneAuditor : Auditor :=
  (process toySuite auditedEnv.cfg toyU2 (Audit.commit toySuite auditedEnv.cfg .ok (fun _ => .ok ()) auditedOne).2).2

/-- the string that the auditor signs for the head of size 2 -/
def oneTbs : Bytes :=
  match (Audit.commit toySuite auditedEnv.cfg .ok (fun _ => .ok ()) oneAuditor).1 with
  | .ok h => h.signature
  | .error _ => []

/-- a client that accepts the auditor's signatures for the two heads -/
def oneClient : CEnv := { toyClient with
  cfg := auditedEnv.cfg
  auditorVerify := fun tbs sig => decide (tbs = sig ∧ (sig = auditedTbs ∨ sig = oneTbs)) }

/-- the log after the first change -/
def oneLog : List Content := [⟨5, PrefixSpec.contents [batchOf toyU1]⟩]

/-- the log after the second change -/
def oneLog' : List Content := oneLog ++ [⟨6, PrefixSpec.contents [batchOf toyU1, batchOf toyU2]⟩]

/-- a decision procedure for `Consistent` -/
def consistentB (e : List Prefix.Entry × Prefix.Proof) : Bool :=
  (e.1.zip e.2.results).all (fun x =>
    if x.2.isInclusion then e.2.results.all (fun r =>
      match r with | .nonInclusionLeaf v c _ => decide (v = x.1.vrf → c = x.1.com) | _ => true)
    else match x.2 with | .nonInclusionLeaf v _ _ => decide (v ≠ x.1.vrf) | _ => true)

theorem consistentB_spec {e : List Prefix.Entry × Prefix.Proof} (h : consistentB e = true) : Consistent e.1 e.2 := by
  intro x r hx
  have := List.all_eq_true.1 h _ hx
  dsimp only at this
  split at this
  · next hi =>
    rw [if_pos hi]
    intro c d hm
    have := List.all_eq_true.1 this _ hm
    exact of_decide_eq_true this rfl
  · next hi =>
    rw [if_neg hi]
    rintro c d rfl
    exact of_decide_eq_true this rfl

/-- a decision procedure for `FromWire` -/
def wireB (hs : Nat) (p : CombinedTreeProof) : Bool :=
  p.timestamps.all (fun t => decide (t < 2 ^ 64)) && p.prefixProofs.all (fun pf => pf.elements.all (fun x => x.length == hs) &&
    pf.results.all (fun r => match r with | .nonInclusionLeaf v c _ => v.length == hs && c.length == hs | _ => true))

theorem wireB_spec {cs : Log.Suite} {p : CombinedTreeProof} (h : wireB cs.hashSize p = true) : FromWire cs p := by
  unfold wireB at h
  rw [Bool.and_eq_true, List.all_eq_true, List.all_eq_true] at h
  refine ⟨fun t ht => of_decide_eq_true (h.1 t ht), fun pf hpf => ?_⟩
  have := h.2 pf hpf
  rw [Bool.and_eq_true, List.all_eq_true, List.all_eq_true] at this
  refine ⟨fun x hx => by simpa using this.1 x hx, fun v c d hm => by simpa using this.2 _ hm⟩

/-- what the client has seen -/
structure OneSeen where
  fth : FullTreeHead
  value : UpdateValue
  opening : Bytes
  com : Bytes
  terminal : Nat
  root : Bytes
  fine : Bool
  deriving DecidableEq, Repr

/-- the steps of `Finds` when the client searches for the greatest version of label 20, which is version 0 -/
def oneChecks (now : Nat) (st : Server.Tree) : G OneSeen := do
  let res ← Server.search auditedEnv now st ⟨none, [20], none⟩
  let b ← res.fullTreeHead.marshal
  let (fth, _) ← newFullTreeHead oneClient.cfg b
  let v0 ← newVerifier none (getLast none) fth res.search
  let l ← searchBinaryLadder 0 0 [] []
  let c ← computeCommitment oneClient res.opening [20] 0 res.value
  let v1 ← processLadder oneClient [20] res.binaryLadder l [(0, c)] v0
  let v2 ← v1.updateView oneClient now
  let (x, v3) ← v2.run oneClient (searchAlg oneClient true 0 v2.n)
  match v3.p.finish toySuite (Received.handle toySuite) v3.n v3.nP v3.m with
  | (.error e, _) => .error e
  | (.ok result, p) => do
    let root ← Log.root toySuite v3.n result.fullSubtrees
    let rootP ← auditorRoot oneClient v3.nP result.additional
    let _ ← verifyTreeHead oneClient { v3 with p := p } root rootP
    pure ⟨fth, res.value, res.opening, c, x, root, wireB toySuite.hashSize res.search &&
      (Provider.evals toySuite (searchAlg oneClient true 0 v2.n) v2.p).all consistentB⟩

theorem one_finds {now : Nat} {st : Server.Tree} {W : List Content} {a : AuditorTreeHead} {fth : FullTreeHead} {th : TreeHead}
    {val : UpdateValue} {o com : Bytes} {x : Nat} (hth : fth.treeHead = some th) (hsz : th.treeSize = W.length)
    (ha : fth.auditor = some a) (h : oneChecks now st = .ok ⟨fth, val, o, com, x, logRoot toySuite W, true⟩) :
    ∃ S, FindsBy oneClient W [20] a true 0 o val com x S := by
  unfold oneChecks at h
  obtain ⟨res, -, h⟩ := G.bind_eq_ok.1 h
  obtain ⟨b, -, h⟩ := G.bind_eq_ok.1 h
  obtain ⟨⟨fth', rest⟩, k1, h⟩ := G.bind_eq_ok.1 h
  obtain ⟨v0, k2, h⟩ := G.bind_eq_ok.1 h
  obtain ⟨l, kl, h⟩ := G.bind_eq_ok.1 h
  obtain ⟨c, kc, h⟩ := G.bind_eq_ok.1 h
  obtain ⟨v1, k3, h⟩ := G.bind_eq_ok.1 h
  obtain ⟨v2, k4, h⟩ := G.bind_eq_ok.1 h
  obtain ⟨⟨x', v3⟩, k5, h⟩ := G.bind_eq_ok.1 h
  dsimp only at h
  split at h
  · cases h
  next result p k6 =>
  obtain ⟨root', k7, h⟩ := G.bind_eq_ok.1 h
  obtain ⟨rootP, k8, h⟩ := G.bind_eq_ok.1 h
  obtain ⟨w, k9, h⟩ := G.bind_eq_ok.1 h
  have h := Except.ok.inj h
  simp only [OneSeen.mk.injEq, Bool.and_eq_true] at h
  obtain ⟨rfl, rfl, rfl, rfl, rfl, rfl, hw, hc⟩ := h
  exact ⟨_, .mk k1 hth hsz ha (fun _ h => (by cases h)) (wireB_spec hw) (by decide) k2 kl kc k3 k4 k5
    (fun e he => consistentB_spec (List.all_eq_true.1 hc e he)) k6 k7 k8 k9⟩

theorem one_first : ∃ S, FindsBy oneClient oneLog [20] ⟨5, 1, auditedTbs⟩ true 0 [9] ⟨[2], none⟩ [134] 0 S := by
  have hsz : auditedT1.2.head.map (fun h => h.treeSize) = some 1 := by decide +kernel
  obtain ⟨th, hth, hsz⟩ := Option.map_eq_some_iff.1 hsz
  exact one_finds (now := 5) (st := { auditedT1.2 with auditor := some ⟨5, 1, auditedTbs⟩ })
    (fth := ⟨auditedT1.2.head, some ⟨5, 1, auditedTbs⟩⟩) hth hsz rfl (by decide +kernel)

theorem one_second : ∃ S, FindsBy oneClient oneLog' [20] ⟨6, 2, oneTbs⟩ true 0 [9] ⟨[2], none⟩ [134] 1 S := by
  have hsz : auditedT2.2.head.map (fun h => h.treeSize) = some 2 := by decide +kernel
  obtain ⟨th, hth, hsz⟩ := Option.map_eq_some_iff.1 hsz
  exact one_finds (now := 6) (st := { auditedT2.2 with auditor := some ⟨6, 2, oneTbs⟩ })
    (fth := ⟨auditedT2.2.head, some ⟨6, 2, oneTbs⟩⟩) hth hsz rfl (by decide +kernel)

/-- the hypotheses of the theorem for this auditor and these clients: one finds the version in entry 0 of a log of one entry, the
other in entry 1 of a log of two entries -/
theorem one_case : ∃ us kept hs au S S', DurableExec toySuite auditedEnv.cfg [1] .ok (UpdateOk toySuite) us kept hs au ∧
    Unforged oneClient .ok hs ∧ us = [toyU1, toyU2] ∧ oneClient.cs = toySuite ∧ oneClient.cfg = auditedEnv.cfg ∧
    WellFormed toySuite oneLog ∧ WellFormed toySuite oneLog' ∧
    Finds oneClient oneLog [20] ⟨5, 1, auditedTbs⟩ 0 [9] ⟨[2], none⟩ [134] 0 S ∧
    FindsBy oneClient oneLog' [20] ⟨6, 2, oneTbs⟩ true 0 [9] ⟨[2], none⟩ [134] 1 S' ∧
    ∀ o, Keeps us o 0 1 := by
  obtain ⟨S, hS⟩ := one_first
  obtain ⟨S', hS'⟩ := one_second
  have hu1 : UpdateOk toySuite toyU1 := by
    simp [toyU1, UpdateOk, AuditorUpdate.Typed, ProofTyped, Each, EntryTyped, ResTyped, Wire.Fits, toySuite]
  have hu2 : UpdateOk toySuite toyU2 := by
    simp [toyU2, UpdateOk, AuditorUpdate.Typed, ProofTyped, Each, EntryTyped, ResTyped, Wire.Fits, toySuite]
  have e1 := (DurableExec.start (cs := toySuite) (cfg := auditedEnv.cfg) (key := [1]) (sign := .ok) (U := UpdateOk toySuite)
    (a := ⟨none, none⟩) rfl).update hu1 (by decide)
  have e2 := ((e1.commit (fun _ => .ok ())).update hu2 (by decide +kernel)).commit (fun _ => .ok ())
  have hus : ∀ us', us' = [toyU1, toyU2] → ∀ o, Keeps us' o 0 1 := by
    rintro us' rfl o z u h1 h2 hu
    obtain rfl : z = 1 := by omega
    cases hu
    simp [toyU2]
  refine ⟨_, _, _, _, S, S', e2, ?_, by decide +kernel, rfl, rfl, ?_, ?_, ⟨_, hS⟩, hS', hus _ (by decide +kernel)⟩
  · intro tbs sig hv
    have hv : tbs = sig ∧ (sig = auditedTbs ∨ sig = oneTbs) := of_decide_eq_true hv
    obtain ⟨rfl, hv⟩ := hv
    rcases hv with hv | hv
    · cases hc : (Audit.commit toySuite auditedEnv.cfg .ok (fun _ => .ok ()) auditedOne).1 with
      | error e =>
        have : (Audit.commit toySuite auditedEnv.cfg .ok (fun _ => .ok ()) auditedOne).1.isOk = true := by decide +kernel
        rw [hc] at this
        cases this
      | ok h =>
        refine ⟨h, List.mem_append_left _ ?_, ?_⟩
        · change h ∈ [] ++ returned (Audit.commit toySuite auditedEnv.cfg .ok (fun _ => .ok ()) auditedOne).1
          rw [hc]
          exact List.mem_singleton.2 rfl
        · intro t ht
          rw [hv, auditedTbs, hc]
          exact Except.ok.inj ht
    · cases hc : (Audit.commit toySuite auditedEnv.cfg .ok (fun _ => .ok ()) oneAuditor).1 with
      | error e =>
        have : (Audit.commit toySuite auditedEnv.cfg .ok (fun _ => .ok ()) oneAuditor).1.isOk = true := by decide +kernel
        rw [hc] at this
        cases this
      | ok h =>
        refine ⟨h, List.mem_append_right _ ?_, ?_⟩
        · change h ∈ returned (Audit.commit toySuite auditedEnv.cfg .ok (fun _ => .ok ()) oneAuditor).1
          rw [hc]
          exact List.mem_singleton.2 rfl
        · intro t ht
          rw [hv, oneTbs, hc]
          exact Except.ok.inj ht
  · refine ⟨?_, by decide⟩
    intro c hc
    obtain rfl := List.mem_singleton.1 hc
    exact ⟨by decide, by decide⟩
  · refine ⟨?_, by decide⟩
    intro c hc
    simp only [oneLog', oneLog, List.cons_append, List.nil_append, List.mem_cons, List.not_mem_nil, or_false] at hc
    rcases hc with rfl | rfl
    · exact ⟨by decide, by decide⟩
    · exact ⟨by decide, by decide⟩

end Katie.Props
