import Verif.Lemmas.ServeFinal
import Verif.Props.C44_C45_Heads
import Verif.Props.C26_C27_Search

/-
C62: the answers of an honest server convince an honest client.

The vocabulary is in `Verif/Spec/Served.lean`.  The full claim, that the client accepts the answer, is false for every
execution (`C62_never_accepted`), because of the two errors behind C42 and C43.  What is proved is that everything else
succeeds: the server answers, and all checks of the client before the one of the tree head succeed with the right result.
-/

namespace Katie.Props
open Katie Katie.Wire Katie.Alg Katie.Ladder Katie.Server Katie.Client Katie.ServerSpec Katie.ServedSpec Katie.SearchSpec
  Katie.SearchTree

/-- A server after an execution with at least one log entry, a client configured for it, and a label that was never
removed. -/
structure Serving (env : Env) (cenv : CEnv) (cs : List Change) (us : List AuditorUpdate) (t : Tree) (l : Bytes) : Prop where
  good : env.cs.Good
  small : Prefix.Small env.cs
  runs : ServerSpec.Runs env cs us t
  nonempty : cs ≠ []
  client : ClientOf env cenv
  label : l.length ≤ 255
  kept : ∀ c ∈ cs, l ∉ c.remove
  count : (versionsOf l cs).length < 2 ^ 31 - 1

section
variable {env : Env} {cenv : CEnv} {cs : List Change} {us : List AuditorUpdate} {t : Tree} {l : Bytes}
  {state : Option ClientState} {aud : Option AuditorTreeHead} {nowS nowC : Nat}

/-- What the client has found out when it comes to checking the tree head `th`: the search ended at entry `x`, the root hash
is that of the log and is the one that was signed, and what it would retain is right. -/
structure Convinced (env : Env) (cenv : CEnv) (us : List AuditorUpdate) (state : Option ClientState) (aud : Option AuditorTreeHead)
    (th : TreeHead) (x : Nat) (checked : G (Nat × Verifier × Provider.Result × Bytes × Bytes)) : Prop where
  checked : ∃ v result root rootP tbs, checked = .ok (x, v, result, root, rootP) ∧
    v.state = state ∧ v.fth = ⟨some th, aud⟩ ∧ v.n = us.length ∧
    root = LogSpec.rootHash env.cs.H (logLeaves env.cs us) ∧
    treeHeadTBS cenv.cfg us.length root = .ok tbs ∧ cenv.sigVerify tbs th.signature = true ∧
    (∀ a, aud = some a → rootP = LogSpec.rootHash env.cs.H ((logLeaves env.cs us).take a.treeSize)) ∧
    Keeps env us us.length result.fullSubtrees result.logEntries

theorem grows_greatestAt (index : List Nat) (n : Nat) : SearchSpec.Grows (greatestAt index) n :=
  fun i j hij _ => greatestAt_mono index i j hij

theorem leaf_ok {cs : List Change} {us : List AuditorUpdate} {st : Store} {head : Option TreeHead}
    (h : Inv env cs us st head) (hcfg : cenv.cfg = env.cfg) (v : Nat)
    (hl : LeafSigned cenv l v (storedOf env (versionsOf l cs) v).value) :
    verifyUpdateValue cenv l v (storedOf env (versionsOf l cs) v).value = .ok () := by
  by_cases hm : cenv.cfg.mode = thirdPartyManagement
  · exact hl hm
  · unfold verifyUpdateValue
    rw [if_pos hm, if_neg]
    · rfl
    · unfold storedOf
      cases hx : (versionsOf l cs)[v]? with
      | none => simp
      | some x =>
        have h1 : SuffixTyped env.cfg x.value.signature := (h.typed l x (List.mem_of_getElem? hx)).2
        rw [hcfg] at hm
        intro h2
        have : x.value.signature.isSome := by
          cases hs : x.value.signature with
          | none => exact absurd hs h2
          | some _ => rfl
        exact hm (h1.1 this)

theorem takeWhile_all {α : Type} {p : α → Bool} : ∀ {l : List α}, (∀ a ∈ l, p a = true) → l.takeWhile p = l
  | [], _ => rfl
  | a :: l, h => by
    rw [List.takeWhile_cons, if_pos (h a List.mem_cons_self), takeWhile_all (fun b hb => h b (List.mem_cons_of_mem _ hb))]

theorem greatestAt_last {cs : List Change} (h0 : cs ≠ []) (l : Bytes) :
    greatestAt ((versionsOf l cs).map Version.pos) (cs.length - 1) = ((versionsOf l cs).length : Int) - 1 := by
  have hpos := List.length_pos_iff.2 h0
  unfold greatestAt
  rw [takeWhile_all, List.length_map]
  intro p hp
  have := (versionsOf_pos l cs).2 p hp
  simp only [decide_eq_true_eq]
  omega

/-- **C62, greatest-version search.**  For a label that has versions the server answers with the last one.  The client's
checks of the binary ladder, of the value, of the timestamps, of the search and of the proof succeed; they end at an entry
that contains this version; the root hash is the one of the log, which the server has signed.  Missing for the full claim:
the client does not accept the answer (`C62_never_accepted`). -/
theorem C62_greatest_version_partial (S : Serving env cenv cs us t l) {x : Version}
    (hx : (versionsOf l cs).getLast? = some x) (hst : Behind env us state)
    (hd : ∀ b, searchBinaryLadder ((versionsOf l cs).length - 1) ((versionsOf l cs).length - 1) [] [] = .ok b → VrfDistinct env cs l b)
    (haud : ∀ a, aud = some a → 0 < a.treeSize ∧ a.treeSize ≤ us.length)
    (hS : InWindow env.cfg nowS (entryAt env.cs us (us.length - 1)).timestamp)
    (hC : InWindow env.cfg nowC (entryAt env.cs us (us.length - 1)).timestamp)
    (hleaf : LeafSigned cenv l ((versionsOf l cs).length - 1) x.value) :
    ∃ th res y, t.head = some th ∧
      Server.search env nowS { t with auditor := aud } (searchRequest state l none) = .ok res ∧
      res.version = some ((versionsOf l cs).length - 1) ∧ res.opening = x.opening ∧ res.value = x.value ∧
      x.pos ≤ y ∧ y < us.length ∧
      Convinced env cenv us state aud th y (checkedSearch cenv nowC state (searchRequest state l none) res) := by
  have hvne : versionsOf l cs ≠ [] := by rintro h; rw [h] at hx; cases hx
  have hvpos := List.length_pos_iff.2 hvne
  have hcount := S.count
  obtain ⟨htx, hinv⟩ := runs_inv S.good S.small S.runs
  have hlen := hinv.len
  have hne := S.nonempty
  have hpos : 0 < us.length := by rw [hlen]; exact List.length_pos_iff.2 hne
  have hh := honest_of_inv S.good S.small hinv hne
  rw [← hlen] at hh
  have hget : (versionsOf l cs)[(versionsOf l cs).length - 1]? = some x := by rw [← hx, List.getLast?_eq_getElem?]
  have hsto : storedOf env (versionsOf l cs) ((versionsOf l cs).length - 1) = ⟨x.opening, x.value⟩ := by
    unfold storedOf; rw [hget]
  have htarget : (versionsOf l cs).length - 1 = searchTarget none ((versionsOf l cs).map Version.pos) := by
    unfold searchTarget
    rw [List.length_map, Nat.mod_eq_of_lt (by omega)]
  have hg : greatestAt ((versionsOf l cs).map Version.pos) (us.length - 1) = (((versionsOf l cs).length - 1 : Nat) : Int) := by
    rw [hlen, greatestAt_last hne]; omega
  obtain ⟨y, hy⟩ : ∃ y, Prog.eval (honestOf env cs us l) (searchProg env.cfg none ((versionsOf l cs).length - 1) us.length) = .ok y := by
    obtain ⟨r, h1, h2⟩ := rightmostDistinguished_eval (cfg := env.cfg)
      (honest_ts (ts := fun x => (entryAt env.cs us x).timestamp) (g := greatestAt ((versionsOf l cs).map Version.pos))
        (stop := fun _ _ => true) (n := us.length))
    have h3 : IsGreatest' (Distinguished (Wide env.cfg.rmw) (fun x => (entryAt env.cs us x).timestamp) us.length) r := by
      cases r with
      | none => exact fun y hy => h2 y ((distinguished_code_iff hh.times).2 hy)
      | some x => exact ⟨(distinguished_code_iff hh.times).1 h2.1, fun y hy => h2.2 y ((distinguished_code_iff hh.times).2 hy)⟩
    obtain ⟨y, h4, -⟩ := C26_greatest_version_found (cfg := env.cfg) (stop := fun _ _ => true) hpos hh.times (grows_greatestAt _ _) hg h3
    exact ⟨y, h4⟩
  obtain ⟨-, hy2, hy3⟩ := C26_accepted_is_greatest (cfg := env.cfg) (stop := fun _ _ => true) hpos hh.times
    (grows_greatestAt _ _) (show Prog.eval _ (greatestVersionSearch _ _ _) = _ from hy)
  obtain ⟨p, hp1, hp2⟩ := (le_greatestAt_iff (versionsOf_pos l cs).1 _ _).1 hy3
  rw [List.getElem?_map, hget] at hp1
  cases hp1
  obtain ⟨th, res, k1, k2, k3, -, k5, k6, k7, -, k9⟩ := search_core S.good S.small S.runs hne S.client S.label S.kept (by omega)
    (version := none) (fun _ => hvne) htarget (by omega) hd hst haud hS hC
    (leaf_ok hinv S.client.cfg _ (by rw [hsto]; exact hleaf)) hy
    (greatestVersionSearch_fits hpos hh.times (grows_greatestAt _ _) (by omega) (by rw [hg])) (.inr ⟨rfl, y, rfl⟩)
  obtain ⟨v, result, rootP, c1, c2, c3, c4, c5, c6⟩ := k9 y rfl
  obtain ⟨th', tbs, t1, -, t3, t4⟩ := head_of_inv hinv hne
  rw [k1] at t1
  cases t1
  refine ⟨th, res, y, k1, k3, k5, by rw [k6, hsto], by rw [k7, hsto], hp2, hy2, ⟨v, result, _, rootP, tbs, c1, c2, c3, c4, rfl, ?_, ?_, c6, c5⟩⟩
  · rw [S.client.cfg, hlen]; exact t3
  · exact S.client.sig _ _ t4

/-- **C62, fixed-version search.**  One of three things happens.  The version exists, the server answers with it and the
client is convinced as in `C62_greatest_version_partial`; or the version does not exist, the server answers, and the client
reports this; or the server reports that the version has expired.  The hypothesis on the size of the log that the client
knows excludes those for which `UpdateView` does not provide the frontier (C18).  Missing for the full claim: as in
`C62_greatest_version_partial`. -/
theorem C62_fixed_version_partial (S : Serving env cenv cs us t l) {v : Nat} (hv : v < 2 ^ 31 - 1) (hst : Behind env us state)
    (hview : ∀ k, getLast state = some k → ∀ f, frontier us.length = .ok f → k - 1 ∉ f)
    (hd : ∀ b, searchBinaryLadder v v [] [] = .ok b → VrfDistinct env cs l b)
    (haud : ∀ a, aud = some a → 0 < a.treeSize ∧ a.treeSize ≤ us.length)
    (hS : InWindow env.cfg nowS (entryAt env.cs us (us.length - 1)).timestamp)
    (hC : InWindow env.cfg nowC (entryAt env.cs us (us.length - 1)).timestamp)
    (hleaf : LeafSigned cenv l v (storedOf env (versionsOf l cs) v).value) :
    (∃ x th res y, (versionsOf l cs)[v]? = some x ∧ t.head = some th ∧
      Server.search env nowS { t with auditor := aud } (searchRequest state l (some v)) = .ok res ∧
      res.opening = x.opening ∧ res.value = x.value ∧ x.pos ≤ y ∧ y < us.length ∧
      Convinced env cenv us state aud th y (checkedSearch cenv nowC state (searchRequest state l (some v)) res)) ∨
    ((versionsOf l cs)[v]? = none ∧ ∃ res,
      Server.search env nowS { t with auditor := aud } (searchRequest state l (some v)) = .ok res ∧
      checkedSearch cenv nowC state (searchRequest state l (some v)) res = goErr "requested version of label does not exist" ∧
      verifySearch cenv nowC state (searchRequest state l (some v)) res = goErr "requested version of label does not exist") ∨
    ((versionsOf l cs)[v]? ≠ none ∧ env.cfg.maxLifetime ≠ 0 ∧
      (entryAt env.cs us 0).timestamp + env.cfg.maxLifetime ≤ (entryAt env.cs us (us.length - 1)).timestamp ∧
      Server.search env nowS { t with auditor := aud } (searchRequest state l (some v)) =
        goErr "requested version of label has expired") := by
  have hcount := S.count
  obtain ⟨htx, hinv⟩ := runs_inv S.good S.small S.runs
  have hlen := hinv.len
  have hne := S.nonempty
  have hpos : 0 < us.length := by rw [hlen]; exact List.length_pos_iff.2 hne
  have hh := honest_of_inv S.good S.small hinv hne
  rw [← hlen] at hh
  have core : ∀ r, Prog.eval (honestOf env cs us l) (fixedVersionSearch env.cfg v us.length) = r → _ := fun r hr =>
    search_core S.good S.small S.runs hne S.client S.label S.kept (by omega) (version := some v) (target := v) (by simp) rfl hv hd
      hst haud hS hC (leaf_ok hinv S.client.cfg _ hleaf) (r := r) hr (fixedVersionSearch_fits hpos hv) (.inl hview)
  have contains : ∀ y, SearchSpec.Contains (greatestAt ((versionsOf l cs).map Version.pos)) v y →
      ∃ x, (versionsOf l cs)[v]? = some x ∧ x.pos ≤ y := by
    intro y hy
    obtain ⟨p, hp1, hp2⟩ := (le_greatestAt_iff (versionsOf_pos l cs).1 _ _).1 hy
    rw [List.getElem?_map] at hp1
    cases hx : (versionsOf l cs)[v]? with
    | none => rw [hx] at hp1; cases hp1
    | some x =>
      rw [hx] at hp1
      cases hp1
      exact ⟨x, rfl, hp2⟩
  rcases C27_fixed_version_partial (cfg := env.cfg) (stop := fun _ _ => true) hh.times
      (grows_greatestAt ((versionsOf l cs).map Version.pos) us.length) hpos v with ⟨y, hy, ht, -⟩ | ⟨hy, hno⟩ | ⟨hy, y, ht, hexp, -⟩
  · obtain ⟨x, hx, hxy⟩ := contains y ht.2.1
    obtain ⟨th, res, k1, k2, k3, -, -, k6, k7, -, k9⟩ := core _ hy
    obtain ⟨w, result, rootP, c1, c2, c3, c4, c5, c6⟩ := k9 y rfl
    obtain ⟨th', tbs, t1, -, t3, t4⟩ := head_of_inv hinv hne
    rw [k1] at t1
    cases t1
    have hsto : storedOf env (versionsOf l cs) v = ⟨x.opening, x.value⟩ := by unfold storedOf; rw [hx]
    refine .inl ⟨x, th, res, y, hx, k1, k3, by rw [k6, hsto], by rw [k7, hsto], hxy, ht.1,
      ⟨w, result, _, rootP, tbs, c1, c2, c3, c4, rfl, ?_, ?_, c6, c5⟩⟩
    · rw [S.client.cfg, hlen]; exact t3
    · exact S.client.sig _ _ t4
  · obtain ⟨th, res, k1, k2, k3, -, -, k6, k7, k8, -⟩ := core _ hy
    refine .inr (.inl ⟨?_, res, k3, k8 _ rfl, ?_⟩)
    · cases hx : (versionsOf l cs)[v]? with
      | none => rfl
      | some x =>
        exfalso
        refine hno (us.length - 1) (by omega) ((le_greatestAt_iff (versionsOf_pos l cs).1 _ _).2 ⟨x.pos, ?_, ?_⟩)
        · rw [List.getElem?_map, hx]; rfl
        · have := (versionsOf_pos l cs).2 x.pos (List.mem_map_of_mem (List.mem_of_getElem? hx))
          omega
    · rw [verifySearch_eq, k8 _ rfl]
      rfl
  · obtain ⟨x, hx, hxy⟩ := contains y ht.2.1
    obtain ⟨th, res, k1, k2, k3, -⟩ := core _ hy
    refine .inr (.inr ⟨by rw [hx]; simp, hexp.1, hexp.2, ?_⟩)
    rw [k3]
    rfl

/-- **The full claim of C62 is false for every execution**: no answer that an honest server gives to a client that does not yet
have its tree head is accepted. -/
theorem C62_never_accepted (S : Serving env cenv cs us t l) (hst : Behind env us state) {version : Option Nat} {res : SearchResponse}
    (h : Server.search env nowS { t with auditor := aud } (searchRequest state l version) = .ok res) :
    ∀ out, verifySearch cenv nowC state (searchRequest state l version) res ≠ .ok out := by
  rintro ⟨y, s, v⟩ hv
  obtain ⟨s0, rfl, hn, -⟩ := verifySearch_same_head hv
  obtain ⟨htx, hinv⟩ := runs_inv S.good S.small S.runs
  obtain ⟨th, tbs, hhead, hths, -, -⟩ := head_of_inv hinv S.nonempty
  rw [← hinv.len] at hths
  unfold Server.search at h
  obtain ⟨hd, h1, h⟩ := G.bind_eq_ok.1 h
  obtain ⟨_, -, h⟩ := G.bind_eq_ok.1 h
  obtain ⟨_, -, h⟩ := G.bind_eq_ok.1 h
  obtain ⟨_, -, h⟩ := G.bind_eq_ok.1 h
  obtain ⟨_, -, h⟩ := G.bind_eq_ok.1 h
  obtain ⟨_, -, h⟩ := G.bind_eq_ok.1 h
  obtain ⟨_, -, h⟩ := G.bind_eq_ok.1 h
  obtain ⟨_, -, h⟩ := G.bind_eq_ok.1 h
  rw [← Except.ok.inj h] at hn
  have hlt := hst.2.1
  unfold Server.fullTreeHead searchRequest getLast at h1
  simp only [hhead, Option.map_some] at h1
  rw [if_neg (by omega), if_neg (by omega)] at h1
  rw [← Except.ok.inj h1] at hn
  cases hn

/-- What becomes of an answer that convinces the client: a client without state panics (if there is no auditor), a client with
an older state reports that the tree has not grown. -/
theorem C62_outcome {th : TreeHead} {y : Nat} {version : Option Nat} {res : SearchResponse} (hst : Behind env us state)
    (h : Convinced env cenv us state aud th y (checkedSearch cenv nowC state (searchRequest state l version) res)) :
    (state = none → aud = none → verifySearch cenv nowC state (searchRequest state l version) res =
      goPanic "nil pointer dereference") ∧
    (state ≠ none → verifySearch cenv nowC state (searchRequest state l version) res =
      goErr "provided tree size is not greater than advertised") := by
  obtain ⟨v, result, root, rootP, tbs, h1, h2, h3, h4, -, h6, h7, -⟩ := h.checked
  rw [verifySearch_eq, h1, G.ok_bind]
  constructor
  · rintro rfl rfl
    simp only [verifyTreeHead, h3, h2, Option.any_none, h4, h6, G.ok_bind, h7, newState]
    rw [if_neg (by simp), if_neg (by simp)]
    simp only [G.pure_eq, G.ok_bind, h2]
    rfl
  · intro hne
    cases state with
    | none => exact absurd rfl hne
    | some s =>
      have := hst.2.1
      simp only [verifyTreeHead, h3, h2, Option.any_some, h4]
      rw [if_pos (by simpa using this.le)]
      rfl

end

/-! ### The hypotheses for the execution of `ServerExample` -/

/-- the labels and versions that `VrfDistinct` speaks about -/
def vrfCandidates (cs : List Change) (l : Bytes) (V : List Nat) : List (Bytes × Nat) :=
  V.map (l, ·) ++ (List.range (cs.length + 1)).flatMap fun k => ((cs.flatMap Change.add).map LabelValue.label).flatMap fun l' =>
    (List.range (versionsOf l' (cs.take k)).length).map (l', ·)

def vrfCheck (env : Env) (cs : List Change) (l : Bytes) (V : List Nat) : Bool :=
  V.all fun v => (vrfCandidates cs l V).all fun c => decide (c = (l, v)) ||
    decide ((computeVrf env l v).map Prod.fst ≠ (computeVrf env c.1 c.2).map Prod.fst)

theorem vrfDistinct_of_check {env : Env} {cs : List Change} {l : Bytes} {V : List Nat} (h : vrfCheck env cs l V = true) :
    VrfDistinct env cs l V := by
  intro v hv l' v' o pr pr' hin h1 h2
  have hmem : (l', v') ∈ vrfCandidates cs l V := by
    unfold vrfCandidates
    rw [List.mem_append]
    rcases hin with ⟨rfl, hin⟩ | ⟨k, hk⟩
    · exact .inl (List.mem_map.2 ⟨v', hin, rfl⟩)
    · refine .inr (List.mem_flatMap.2 ⟨min k cs.length, List.mem_range.2 (by omega), List.mem_flatMap.2 ⟨l', ?_, ?_⟩⟩)
      · by_contra hno
        have : versionsOf l' (cs.take k) = [] := by
          have hsub : ∀ ds : List Change, (∀ c ∈ ds, ∀ a ∈ c.add, a.label ≠ l') → versionsOf l' ds = [] := by
            intro ds
            induction ds using List.reverseRecOn with
            | nil => intro _; rfl
            | append_singleton ds c ih =>
              intro hc
              rw [versionsOf_snoc, ih (fun d hd => hc d (by simp [hd]))]
              simpa [step, kept, fresh, added] using hc c (by simp)
          refine hsub _ (fun c hc a ha hla => hno ?_)
          exact List.mem_map.2 ⟨a, List.mem_flatMap.2 ⟨c, List.mem_of_mem_take hc, ha⟩, hla⟩
        rw [this] at hk
        cases hk
      · refine List.mem_map.2 ⟨v', List.mem_range.2 ?_, rfl⟩
        rcases Nat.le_total k cs.length with h | h
        · rwa [Nat.min_eq_left h]
        · rw [Nat.min_eq_right h, List.take_length]
          rwa [List.take_of_length_le h] at hk
  have := List.all_eq_true.1 (List.all_eq_true.1 h v hv) _ hmem
  simp only [h1, h2, Except.map, Bool.or_eq_true, decide_eq_true_eq, ne_eq, not_true_eq_false, or_false] at this
  exact Prod.mk.inj this

abbrev toyUs : List AuditorUpdate := [toyU1, toyU2, toyU3, toyU4, toyU5]

theorem toyClientOf : ClientOf toyEnv toyClient where
  cs := rfl
  cfg := rfl
  vrf := fun _ => rfl
  vrfLen := fun _ => rfl
  sig := fun tbs sig h => by
    have : sig = _ := (Except.ok.inj h).symm
    rw [this]
    simp [toyClient]

theorem toyServing : Serving toyEnv toyClient toyHistory toyUs toyT5 [10] where
  good := toySuite_good
  small := (by decide : toySuite.hashSize ≤ 32)
  runs := toyHistory_runs
  nonempty := by simp [toyHistory]
  client := toyClientOf
  label := by decide
  kept := by decide
  count := by decide

theorem toyBehind : Behind toyEnv toyUs (some toyState2) :=
  ⟨by decide, by decide, by decide +kernel, _, rfl, by decide +kernel⟩

/-- A client that knows the log of size 2 searches for the greatest version in the log of size 5. -/
example := C62_greatest_version_partial (aud := some ⟨300, 5, [0]⟩) (nowS := 300) (nowC := 300) (state := some toyState2) toyServing
  (x := ⟨1, ⟨[4], none⟩, [9]⟩) (by decide) toyBehind
  (fun b hb => vrfDistinct_of_check (by
    rw [← Except.ok.inj ((by decide : searchBinaryLadder ((versionsOf [10] toyHistory).length - 1)
      ((versionsOf [10] toyHistory).length - 1) [] [] = .ok [0, 1, 3, 2]).symm.trans hb)]
    decide +kernel))
  (by rintro a ⟨⟩; exact ⟨by decide, by decide⟩) ⟨by decide +kernel, by decide +kernel⟩ ⟨by decide +kernel, by decide +kernel⟩
  (fun h => by cases h)

/-- It searches for version 1, which exists. -/
example := C62_fixed_version_partial (aud := none) (nowS := 300) (nowC := 300) (state := some toyState2) toyServing (v := 1) (by decide)
  toyBehind (fun k hk f hf => by cases hk; cases hf; decide)
  (fun b hb => vrfDistinct_of_check (by
    rw [← Except.ok.inj ((by decide : searchBinaryLadder 1 1 [] [] = .ok [0, 1, 3, 2]).symm.trans hb)]
    decide +kernel))
  (by rintro a ⟨⟩) ⟨by decide +kernel, by decide +kernel⟩ ⟨by decide +kernel, by decide +kernel⟩ (fun h => by cases h)

/-- It searches for version 3, which does not exist. -/
example := C62_fixed_version_partial (aud := none) (nowS := 300) (nowC := 300) (state := some toyState2) toyServing (v := 3) (by decide)
  toyBehind (fun k hk f hf => by cases hk; cases hf; decide)
  (fun b hb => vrfDistinct_of_check (by
    rw [← Except.ok.inj ((by decide : searchBinaryLadder 3 3 [] [] = .ok [0, 1, 3, 7, 5, 4]).symm.trans hb)]
    decide +kernel))
  (by rintro a ⟨⟩) ⟨by decide +kernel, by decide +kernel⟩ ⟨by decide +kernel, by decide +kernel⟩ (fun h => by cases h)

/-! ### The hypothesis on the size of the log that the client knows -/

def toyChange6 : Change := toyChange [⟨[50], ⟨[6], none⟩⟩] [] 400
def toyChange7 : Change := toyChange [⟨[60], ⟨[6], none⟩⟩] [] 500

def toyU6 : AuditorUpdate :=
  { timestamp := 400,
    added := [{ vrf := [197], com := [36] }],
    removed := [],
    proof := { results := [.nonInclusionLeaf [155] [69] 1], elements := [[53]] } }

def toyU7 : AuditorUpdate :=
  { timestamp := 500,
    added := [{ vrf := [239], com := [2] }],
    removed := [],
    proof := { results := [.nonInclusionLeaf [197] [36] 2], elements := [[53], [242]] } }

def toyT6 : Tree := (mutate toyEnv toyChange6 toyT5).2
def toyT7 : Tree := (mutate toyEnv toyChange7 toyT6).2

theorem toyHistory7_runs :
    ServerSpec.Runs toyEnv (toyHistory ++ [toyChange6] ++ [toyChange7]) (toyUs ++ [toyU6] ++ [toyU7]) toyT7 := by
  have h6 : mutate toyEnv toyChange6 toyT5 = (.ok toyU6, toyT6) :=
    Prod.ext (by decide +kernel) rfl
  have h7 : mutate toyEnv toyChange7 toyT6 = (.ok toyU7, toyT7) :=
    Prod.ext (by decide +kernel) rfl
  have r6 := ServerSpec.Runs.change toyHistory_runs h6 (toyChange_ok _ _ _ (by decide +kernel) (by simp [UpdateValue.Typed, SuffixTyped, toyEnv, thirdPartyAuditing, thirdPartyManagement]))
    (inRange_of_short (by decide +kernel) (by decide +kernel)) (.inr (.inl (by decide)))
  exact ServerSpec.Runs.change r6 h7 (toyChange_ok _ _ _ (by decide +kernel) (by simp [UpdateValue.Typed, SuffixTyped, toyEnv, thirdPartyAuditing, thirdPartyManagement]))
    (inRange_of_short (by decide +kernel) (by decide +kernel)) (.inr (.inl (by decide)))

/-- the state of a client that knows the log of size 4 -/
def toyState4 : ClientState := ⟨⟨4, [190]⟩, none, [[238]], [(3, ⟨200, [180]⟩)]⟩

theorem toyBehind4 : Behind toyEnv (toyUs ++ [toyU6] ++ [toyU7]) (some toyState4) :=
  ⟨by decide, by decide, by decide +kernel, _, rfl, by decide +kernel⟩

/-- the client's checks of the server's own answer, before the tree head -/
def toyChecked (now : Nat) (t : Tree) (state : Option ClientState) (l : Bytes) (version : Option Nat) : G Nat := do
  let res ← Server.search toyEnv now t (searchRequest state l version)
  let r ← checkedSearch toyClient now state (searchRequest state l version) res
  pure r.1

/-- **Witness for C62 (and C18).**  The client knows the log of size 4, which is now of size 7; `UpdateView` provides nothing,
and the honest answer to a search for a version that exists is rejected for a missing timestamp. -/
theorem C62_view_gap : (versionsOf [10] (toyHistory ++ [toyChange6] ++ [toyChange7]))[0]? ≠ none ∧
    toyChecked 500 toyT7 (some toyState4) [10] (some 0) = goErr "expected timestamp not retained" :=
  ⟨by decide, by decide +kernel⟩

/-- A client that knows the log of size 2 is convinced. -/
example : toyChecked 500 toyT7 (some toyState2) [10] (some 0) = .ok 0 := by decide +kernel

end Katie.Props
