import Verif.Lemmas.ServeLadder
import Verif.Lemmas.ServeExchange

/-
The server's answer to a search request, and what the client makes of it.
-/

namespace Katie.Server
open Katie Katie.Wire Katie.Alg Katie.Ladder Katie.ServerSpec Katie.PrefixSpec Katie.AuditSpec Katie.SearchSpec Katie.Props
  Katie.Client Katie.SearchTree Katie.ServedSpec

/-! ### inputs of the VRF and of the commitment -/

theorem vrfInput_ok {l : Bytes} (hl : l.length ≤ 255) (v : Nat) : ∃ input, vrfInput l v = .ok input := by
  unfold vrfInput wBytes
  rw [if_neg (by omega)]
  exact ⟨_, rfl⟩

theorem computeVrf_ok {env : Env} {l : Bytes} (hl : l.length ≤ 255) (v : Nat) :
    ∃ input, vrfInput l v = .ok input ∧ computeVrf env l v = .ok (env.prove input) ∧ vrfOf env l v = env.prove input := by
  obtain ⟨input, h⟩ := vrfInput_ok hl v
  have : computeVrf env l v = .ok (env.prove input) := by unfold computeVrf; rw [h]; rfl
  exact ⟨input, h, this, by simp only [vrfOf, this]⟩

theorem stored_commitment {env : Env} {cs : List Change} {us : List AuditorUpdate} {st : Store} {head : Option TreeHead}
    (h : Inv env cs us st head) {l : Bytes} (hl : l.length ≤ 255) (v : Nat) :
    ∃ body, commitmentValue l v (storedOf env (versionsOf l cs) v).value = .ok body ∧
      comOf env l (versionsOf l cs) v = Commit.commit env.cs (storedOf env (versionsOf l cs) v).opening body := by
  have key : ∃ body, commitmentValue l v (storedOf env (versionsOf l cs) v).value = .ok body := by
    unfold storedOf
    cases hx : (versionsOf l cs)[v]? with
    | some x =>
      obtain ⟨p, hp⟩ := h.total l v x hx
      unfold pairOf at hp
      obtain ⟨_, -, hp⟩ := G.bind_eq_ok.1 hp
      obtain ⟨body, h1, -⟩ := G.bind_eq_ok.1 hp
      exact ⟨body, h1⟩
    | none =>
      simp only [commitmentValue, wBytes, UpdateValue.marshal]
      rw [if_neg (by omega), if_neg (by simp)]
      exact ⟨_, rfl⟩
  obtain ⟨body, hb⟩ := key
  exact ⟨body, hb, by simp only [comOf, hb]⟩

/-! ### the beginning of a request -/

/-- the frontier that a user at size `last` has retained -/
def FrontierOf : Option Nat → List Nat → Prop
  | none, f => f = []
  | some k, f => frontier k = .ok f

structure Retained (n : Nat) (last : Option Nat) (f : List Nat) : Prop where
  frontier : FrontierOf last f
  nodup : f.Nodup
  lt : ∀ x ∈ f, x < n

theorem retained_exists {n : Nat} (hn : n < 2 ^ 63) {last : Option Nat} (hl : ∀ k, last = some k → 0 < k ∧ k ≤ n) :
    ∃ f, Retained n last f := by
  cases last with
  | none => exact ⟨[], rfl, List.nodup_nil, by simp⟩
  | some k =>
    obtain ⟨h0, hk⟩ := hl k rfl
    obtain ⟨f, h1, -, h3, h4, -⟩ := frontier_spine h0 (by omega : k < 2 ^ 64)
    exact ⟨f, h1, h3.imp (fun h => Nat.ne_of_lt h), fun x hx => by have := h4 x hx; omega⟩

theorem loadRetained_ok {env : Env} {st : Store} {E : Nat → LogEntry} {n : Nat} (hE : ∀ x < n, getEntry env st x = .ok (E x))
    (ht : GoodTimes (fun x => (E x).timestamp) n) {last : Option Nat} {f : List Nat} (hf : Retained n last f) (s : Produced) :
    loadRetained env st last (newProvider s) = .ok (retainedTables s E [] f) := by
  cases last with
  | none =>
    have : f = [] := hf.frontier
    subst this
    rfl
  | some k =>
    have h1 : SearchTree.frontier k = .ok f := hf.frontier
    unfold loadRetained
    simp only [h1, G.ok_bind]
    rw [frontierEntries_ok (E := E) (fun x hx => hE x (hf.lt x hx)), G.ok_bind, addRetained_tables ht hf.nodup hf.lt]
    rfl

/-- the client's retained entries are the same, and its full subtrees are those of the log -/
theorem retainedProvider_ok {env : Env} {us : List AuditorUpdate} (ht : GoodTimes (fun x => (entryAt env.cs us x).timestamp) us.length)
    {state : Option ClientState} (hst : Behind env us state) {f : List Nat} (hf : Retained us.length (getLast state) f)
    (proof : CombinedTreeProof) :
    ∃ full, retainedProvider state proof = .ok (retainedTables ⟨proof, [], {}⟩ (entryAt env.cs us) full f) ∧
      ∀ k, getLast state = some k → full = LogSpec.heads env.cs.H ((logLeaves env.cs us).take k) := by
  cases state with
  | none =>
    have : f = [] := hf.frontier
    subst this
    exact ⟨[], rfl, by simp [getLast]⟩
  | some s =>
    obtain ⟨-, -, hk⟩ := hst
    have h1 : SearchTree.frontier s.treeHead.treeSize = .ok f := hf.frontier
    obtain ⟨f', h2, h3⟩ := hk.entries
    rw [h1] at h2
    cases h2
    refine ⟨s.fullSubtrees, ?_, ?_⟩
    · unfold retainedProvider
      simp only [h3]
      rw [addRetained_tables ht hf.nodup hf.lt]
    · intro k hkk
      simp only [getLast, Option.map_some, Option.some.injEq] at hkk
      subst hkk
      exact hk.full

theorem retainedTables_keys {σ : Type} (s : σ) (E : Nat → LogEntry) (full : List Bytes) (f : List Nat) :
    ∀ x, x ∈ (retainedTables s E full f).timestamps.map Prod.fst ↔ x ∈ f := by
  intro x
  simp [retainedTables]

theorem newVerifier_eq {env : Env} {us : List AuditorUpdate} {state : Option ClientState} {proof : CombinedTreeProof}
    {f : List Nat} {full : List Bytes}
    (h : retainedProvider state proof = .ok (retainedTables ⟨proof, [], {}⟩ (entryAt env.cs us) full f)) {th : TreeHead}
    {aud : Option AuditorTreeHead} {last : Option Nat} :
    newVerifier state last ⟨some th, aud⟩ proof = .ok ⟨state, ⟨some th, aud⟩,
      retainedTables ⟨proof, [], {}⟩ (entryAt env.cs us) full f, th.treeSize, aud.map (·.treeSize), last⟩ := by
  unfold newVerifier
  rw [h]
  rfl

/-! ### the tree head -/

theorem head_of_inv {env : Env} {cs : List Change} {us : List AuditorUpdate} {st : Store} {head : Option TreeHead}
    (h : Inv env cs us st head) (hne : cs ≠ []) :
    ∃ th tbs, head = some th ∧ th.treeSize = cs.length ∧
      treeHeadTBS env.cfg cs.length (LogSpec.rootHash env.cs.H (logLeaves env.cs us)) = .ok tbs ∧
      env.sign tbs = .ok th.signature := by
  have hlen : (logOf env.cs us).length = cs.length := by rw [logOf_length, h.len]
  rcases h.head with ⟨h1, -⟩ | ⟨-, sig, tbs, b, -, h2, -, h3, h4⟩
  · exact absurd (List.length_eq_zero_iff.1 (by rw [← hlen, h1]; rfl)) hne
  · rw [hlen] at h2 h3
    exact ⟨_, tbs, h2, rfl, h3, h4⟩

theorem logLeaves_len {cs : Log.Suite} {us : List AuditorUpdate} : (logLeaves cs us).length = us.length := by
  unfold logLeaves
  rw [List.length_map, logOf_length]

theorem root_take {env : Env} (hcs : env.cs.Good) {us : List AuditorUpdate} {k : Nat} (h0 : 0 < k) (hk : k ≤ us.length)
    (hn : us.length < 2 ^ 63) :
    Log.root env.cs k (LogSpec.heads env.cs.H ((logLeaves env.cs us).take k)) =
      .ok (LogSpec.rootHash env.cs.H ((logLeaves env.cs us).take k)) := by
  have hlen : ((logLeaves env.cs us).take k).length = k := by rw [List.length_take, logLeaves_len]; omega
  have := Log.root_heads hcs (L := (logLeaves env.cs us).take k) (by
    intro v hv
    obtain ⟨e, -, rfl⟩ := List.mem_map.1 (List.mem_of_mem_take hv)
    exact hcs.len _) (by omega) (by rw [hlen]; unfold LogMath.maxTreeSize; omega)
  rw [hlen] at this
  exact this

/-! ### search -/

def searchProg (cfg : Config) (version : Option Nat) (target n : Nat) : Prog Nat :=
  if version = none then greatestVersionSearch cfg target n else fixedVersionSearch cfg target n

/-- an answer is given after a search that succeeds or finds that the version does not exist -/
def answered {α : Type} (a : α) : G Nat → G α
  | .ok _ => .ok a
  | .error e => if e = .err errLabelNotFound then .ok a else .error e

theorem runSearch_eq (env : Env) (H : Handle Produced) (version : Option Nat) (index : List Nat) (n : Nat) (p : Provider Produced) :
    runSearch env H version index n p = match p.run H (searchProg env.cfg version (searchTarget version index) n) with
      | (.ok _, p) => .ok p
      | (.error e, p) => if e = .err errLabelNotFound then .ok p else .error e := by
  unfold runSearch searchProg
  cases version with
  | none => rw [if_pos rfl]; rfl
  | some v => rw [if_neg (by simp)]; rfl

theorem populates_eq {version : Option Nat} {index : List Nat} (hi : index.length < 2 ^ 31) (hv : version = none → index ≠ []) (v : Nat) :
    populates version index v = decide (v ≠ searchTarget version index) := by
  cases version with
  | some t => rfl
  | none =>
    have : 0 < index.length := List.length_pos_iff.2 (hv rfl)
    unfold populates searchTarget
    simp only [decide_eq_decide]
    rw [Nat.mod_eq_of_lt (by omega)]
    omega

theorem searchProg_about {cfg : Config} {version : Option Nat} {t n : Nat} (hn : n < 2 ^ 64) : About t (searchProg cfg version t n) := by
  unfold searchProg
  exact .ite (greatestVersionSearch_about hn) fixedVersionSearch_about

section
variable {env : Env} {cenv : CEnv} {cs : List Change} {us : List AuditorUpdate} {t : Tree} {l : Bytes}

/-- the log as the algorithms see it, for one label -/
abbrev honestOf (env : Env) (cs : List Change) (us : List AuditorUpdate) (l : Bytes) : (q : Req) → G q.Resp :=
  honest (fun x => (entryAt env.cs us x).timestamp) (greatestAt ((versionsOf l cs).map Version.pos)) (fun _ _ => true)

theorem search_core (hcs : env.cs.Good) (hsm : Prefix.Small env.cs) (hruns : ServerSpec.Runs env cs us t) (hne : cs ≠ [])
    (hc : ClientOf env cenv) (hl : l.length ≤ 255) (hkeep : ∀ c ∈ cs, l ∉ c.remove) (hcount : (versionsOf l cs).length < 2 ^ 31)
    {version : Option Nat} (hver : version = none → versionsOf l cs ≠ []) {target : Nat}
    (htarget : target = searchTarget version ((versionsOf l cs).map Version.pos)) (ht : target < 2 ^ 31 - 1)
    (hd : ∀ b, searchBinaryLadder target target [] [] = .ok b → VrfDistinct env cs l b)
    {state : Option ClientState} (hst : Behind env us state) {aud : Option AuditorTreeHead}
    (haud : ∀ a, aud = some a → 0 < a.treeSize ∧ a.treeSize ≤ us.length)
    {nowS nowC : Nat} (hwS : InWindow env.cfg nowS (entryAt env.cs us (us.length - 1)).timestamp)
    (hwC : InWindow env.cfg nowC (entryAt env.cs us (us.length - 1)).timestamp)
    (hleaf : verifyUpdateValue cenv l target (storedOf env (versionsOf l cs) target).value = .ok ())
    {r : G Nat} (hr : Prog.eval (honestOf env cs us l) (searchProg env.cfg version target us.length) = r)
    (hfit : FitsP (fun x => (entryAt env.cs us x).timestamp) (greatestAt ((versionsOf l cs).map Version.pos)) (fun _ _ => true)
      us.length false [] (searchProg env.cfg version target us.length))
    (hcov : (∀ k, getLast state = some k → ∀ f, frontier us.length = .ok f → k - 1 ∉ f) ∨ version = none ∧ ∃ x, r = .ok x) :
    ∃ th res, t.head = some th ∧ th.treeSize = us.length ∧
      (Server.search env nowS { t with auditor := aud } (searchRequest state l version) =
        answered res r) ∧
      res.fullTreeHead = ⟨some th, aud⟩ ∧ res.version = (if version = none then some target else none) ∧
      res.opening = (storedOf env (versionsOf l cs) target).opening ∧ res.value = (storedOf env (versionsOf l cs) target).value ∧
      (∀ e, r = .error e → checkedSearch cenv nowC state (searchRequest state l version) res = .error e) ∧
      ∀ x, r = .ok x → ∃ v result rootP,
        checkedSearch cenv nowC state (searchRequest state l version) res =
          .ok (x, v, result, LogSpec.rootHash env.cs.H (logLeaves env.cs us), rootP) ∧
        v.state = state ∧ v.fth = ⟨some th, aud⟩ ∧ v.n = us.length ∧
        Keeps env us us.length result.fullSubtrees result.logEntries ∧
        ∀ a, aud = some a → rootP = LogSpec.rootHash env.cs.H ((logLeaves env.cs us).take a.treeSize) := by
  obtain ⟨htx, hinv⟩ := runs_inv hcs hsm hruns
  have hlen := hinv.len
  have hsize := hinv.size
  have hpos : 0 < us.length := by rw [hlen]; exact List.length_pos_iff.2 hne
  obtain ⟨th, tbs, hhead, hths, -, -⟩ := head_of_inv hinv hne
  rw [← hlen] at hths
  have hh := honest_of_inv hcs hsm hinv hne
  rw [← hlen] at hh
  have hindex : getIndex t.tx l = .ok ((versionsOf l cs).map Version.pos) := by rw [htx]; exact hinv.getIndex l
  have hiver : version = none → (versionsOf l cs).map Version.pos ≠ [] := fun h h' => hver h (List.map_eq_nil_iff.1 h')
  -- the ladder
  obtain ⟨b, hb1, hb2, hbn, hb0, hbt, -⟩ := ladder_self ht
  have hvrf : ∀ v ∈ b, ∃ o pr, computeVrf env l v = .ok (o, pr) ∧ o.length = env.cs.hashSize := by
    intro v _
    obtain ⟨input, -, h2, -⟩ := computeVrf_ok (env := env) hl v
    exact ⟨_, _, h2, hc.vrfLen input⟩
  have hlab := labelTree_of_runs hcs hsm hruns hkeep hvrf (hd b hb1)
  rw [← hlen] at hlab
  have hladder : searchLadder version ((versionsOf l cs).map Version.pos) = .ok b := by
    unfold searchLadder
    rw [if_neg, ← htarget, hb1]
    rintro ⟨h1, h2⟩
    exact hiver h1 (List.length_eq_zero_iff.1 h2)
  have hadd := addLadder_ok (env := env) (l := l) (vs := b) (s := {}) hbn hvrf (fun _ _ => rfl)
  rw [List.append_nil] at hadd
  -- the retained entries
  have hlast : ∀ k, getLast state = some k → 0 < k ∧ k < us.length := by
    intro k hk
    cases state with
    | none => cases hk
    | some s =>
      simp only [getLast, Option.map_some, Option.some.injEq] at hk
      subst hk
      exact ⟨hst.1, hst.2.1⟩
  have hlast' : ∀ k, getLast state = some k → 0 < k ∧ k ≤ us.length := fun k hk => ⟨(hlast k hk).1, (hlast k hk).2.le⟩
  obtain ⟨fk, hfk⟩ := retained_exists (n := us.length) (by omega) hlast'
  have hload := loadRetained_ok (env := env) (st := t.db) (E := entryAt env.cs us) hh.entry hh.times hfk
  obtain ⟨f, hf, -⟩ := frontier_spine hpos (by omega : us.length < 2 ^ 64)
  obtain ⟨f', hf', hfs, -⟩ := frontier_spine hpos (by omega : us.length < 2 ^ 64)
  rw [hf] at hf'
  cases hf'
  -- the exchange
  have hcov' : (∀ k, getLast state = some k → k - 1 ∉ f ∧ ∃ fk', frontier k = .ok fk' ∧
      ∀ x ∈ fk', x ∈ (retainedTables ({ versions := ladderTable (fun v => (vrfOf env l v).1) (fun _ => none) b } : Produced)
        (entryAt env.cs us) [] fk).timestamps.map Prod.fst) ∨
      ∀ tr, Alg.Runs (searchProg env.cfg version target us.length) tr
          (Prog.eval (honestOf env cs us l) (searchProg env.cfg version target us.length)) →
        AgreesWith tr (honestOf env cs us l) → ∀ y ∈ f, Inspected tr y := by
    rcases hcov with h | ⟨hv, x, hx⟩
    · left
      intro k hk
      refine ⟨h k hk f hf, fk, ?_, fun x hx => (retainedTables_keys _ _ _ _ x).2 hx⟩
      have := hfk.frontier
      rw [hk] at this
      exact this
    · right
      intro tr htr ha y hy
      rw [hr, hx] at htr
      unfold searchProg at htr
      rw [if_pos hv] at htr
      exact greatestVersionSearch_covers hpos htr ha y ((hfs y).1 hy)
  have hnP : ∀ k, aud.map (·.treeSize) = some k → 0 < k ∧ k ≤ us.length := by
    intro k hk
    cases aud with
    | none => cases hk
    | some a =>
      simp only [Option.map_some, Option.some.injEq] at hk
      subst hk
      exact haud a rfl
  have hex : ∀ now, InWindow env.cfg now (entryAt env.cs us (us.length - 1)).timestamp → _ := fun now hw =>
    exchange (nP := aud.map (·.treeSize)) hh (by rw [List.length_map]; omega) hlab hfit
      (retainedTables_fresh hh.times hfk.nodup hfk.lt
        (s := ({ versions := ladderTable (fun v => (vrfOf env l v).1) (fun _ => none) b } : Produced)) [] rfl rfl rfl)
      (ladderTable_table (fun v _ => .inl rfl)) hw hlast' hnP
      (run_about hb2 hb0 hbt (.bind (.of_asks (updateView_asks_lt hpos (by omega) hlast'))
        (fun _ => (searchProg_about (by omega)).total)) _ (by intro need hneed; cases hneed)) hf hcov'
  obtain ⟨p1, p2, proof, p3, e1, e2, e3, e4, e5⟩ := hex nowC hwC
  obtain ⟨p1', -, -, -, e1', -⟩ := hex nowS hwS
  have hp1 : p1' = p1 := by
    have := updateView_state_now (Produced.handle (serverDB env t.db) ((versionsOf l cs).map Version.pos))
      (retainedTables ({ versions := ladderTable (fun v => (vrfOf env l v).1) (fun _ => none) b } : Produced)
        (entryAt env.cs us) [] fk) env.cfg nowC nowS us.length (getLast state)
    rw [e1, e1'] at this
    exact this.symm
  subst hp1
  have hrr : Prog.eval (honest (fun x => (entryAt env.cs us x).timestamp) (greatestAt ((versionsOf l cs).map Version.pos)) (fun _ _ => true))
      (searchProg env.cfg version target us.length) = r := hr
  rw [hrr] at e2 e5
  -- the server
  have hth : Server.fullTreeHead { t with auditor := aud } (getLast state) =
      .ok ⟨⟨some th, aud⟩, us.length, aud.map (·.treeSize), getLast state⟩ := by
    unfold Server.fullTreeHead
    simp only [hhead]
    cases hgl : getLast state with
    | none => simp only [hths]; rfl
    | some k =>
      have := (hlast k hgl).2
      simp only
      rw [if_neg (by omega), if_neg (by omega), hths]
      rfl
  have hrun : ∀ p, p1'.run (handleFor env { t with auditor := aud } ((versionsOf l cs).map Version.pos))
      (searchProg env.cfg version target us.length) = (r, p) →
      runSearch env (handleFor env { t with auditor := aud } ((versionsOf l cs).map Version.pos)) version
        ((versionsOf l cs).map Version.pos) us.length p1' = answered p r := by
    intro p hp
    rw [runSearch_eq, ← htarget, hp]
    cases r <;> rfl
  obtain ⟨body, hbody, hcom⟩ := stored_commitment hinv hl target
  refine ⟨th, ⟨⟨some th, aud⟩, if version = none then some target else none, (storedOf env (versionsOf l cs) target).opening,
    (storedOf env (versionsOf l cs) target).value, b.map (fun v => ⟨(vrfOf env l v).2, if v = target then none else getCommitment p3.state v⟩),
    proof⟩, hhead, hths, ?_, rfl, rfl, rfl, rfl, ?_⟩
  · have hgv : Server.getVersion env t.tx l (searchTarget version ((versionsOf l cs).map Version.pos)) =
        .ok (storedOf env (versionsOf l cs) target) := by
      rw [htx, hinv.getVersion, ← htarget]
      rfl
    have huv : Server.updateView env nowS { t with auditor := aud } ((versionsOf l cs).map Version.pos) (getLast state)
        (newProvider { versions := ladderTable (fun v => (vrfOf env l v).1) (fun _ => none) b }) = .ok p1' := by
      unfold Server.updateView handleFor
      simp only [hhead, htx, hload, G.ok_bind, hths]
      unfold runOn
      rw [e1']
      rfl
    have hout : outputOf env { t with auditor := aud } ((versionsOf l cs).map Version.pos)
        ⟨⟨some th, aud⟩, us.length, aud.map (·.treeSize), getLast state⟩ p2 = .ok (proof, p3) := by
      unfold outputOf
      simp only [htx]
      rw [e3]
    have hsearch := hrun p2 (by unfold handleFor; simp only [htx]; exact e2)
    have hpop : populate version ((versionsOf l cs).map Version.pos) p3.state b (b.map (fun v => ⟨(vrfOf env l v).2, none⟩)) =
        b.map (fun v => ⟨(vrfOf env l v).2, if v = target then none else getCommitment p3.state v⟩) := by
      unfold populate
      rw [zip_map_self, List.map_map]
      refine List.map_congr_left (fun v _ => ?_)
      simp only [Function.comp]
      rw [populates_eq (by rw [List.length_map]; exact hcount) hiver, ← htarget]
      by_cases hvt : v = target
      · rw [if_neg (by simpa using hvt), if_pos hvt]
      · rw [if_pos (by simpa using hvt), if_neg hvt]
    unfold Server.search searchRequest
    simp only
    rw [hth, G.ok_bind, hindex, G.ok_bind]
    simp only
    rw [hladder, G.ok_bind, hgv, G.ok_bind, hadd, G.ok_bind]
    simp only
    rw [huv, G.ok_bind, hsearch]
    have hend : ∀ x : G (Provider Produced), x = .ok p2 → (do
        let p ← x
        let __x ← outputOf env { t with auditor := aud } ((versionsOf l cs).map Version.pos)
          ⟨⟨some th, aud⟩, us.length, aud.map (·.treeSize), getLast state⟩ p
        pure (⟨⟨some th, aud⟩, match version with
          | none => some (searchTarget version ((versionsOf l cs).map Version.pos))
          | some _ => none, (storedOf env (versionsOf l cs) target).opening, (storedOf env (versionsOf l cs) target).value,
          populate version ((versionsOf l cs).map Version.pos) __x.2.state b (b.map (fun v => ⟨(vrfOf env l v).2, none⟩)), __x.1⟩ :
            SearchResponse) : G SearchResponse) = .ok
        ⟨⟨some th, aud⟩, if version = none then some target else none, (storedOf env (versionsOf l cs) target).opening,
          (storedOf env (versionsOf l cs) target).value, b.map (fun v => ⟨(vrfOf env l v).2, if v = target then none else getCommitment p3.state v⟩),
          proof⟩ := by
      rintro x rfl
      rw [G.ok_bind, hout, G.ok_bind]
      simp only [hpop, ← htarget]
      cases version <;> rfl
    rcases r with e | x
    · unfold answered
      simp only
      by_cases he : e = .err errLabelNotFound
      · rw [if_pos he, if_pos he]
        exact hend _ rfl
      · rw [if_neg he, if_neg he]
        rfl
    · exact hend _ rfl
  · have hp3 : ∀ v ∈ b, (if v = target then some (comOf env l (versionsOf l cs) target) else getCommitment p3.state v) = none ∨
        (if v = target then some (comOf env l (versionsOf l cs) target) else getCommitment p3.state v) =
          some (comOf env l (versionsOf l cs) v) := by
      intro v hv
      by_cases hvt : v = target
      · subst hvt; right; rw [if_pos rfl]
      · rw [if_neg hvt]
        obtain ⟨k, hk⟩ := e4.1 v hv
        have := (e4.2 v k hk).2.2
        unfold getCommitment
        rw [hk]
        exact this
    obtain ⟨full, hrp, hfull⟩ := retainedProvider_ok hh.times hst hfk proof
    obtain ⟨q1, q2, c1, c2, result, q3, c3, c4, c5, c6⟩ := e5 full
      (ladderTable (fun v => (vrfOf env l v).1)
        (fun v => if v = target then some (comOf env l (versionsOf l cs) target) else getCommitment p3.state v) b)
      (ladderTable_table hp3) (by
        intro v k hk hkc
        have hvb := (e4.2 v k hk).1
        refine ⟨_, by rw [ladderTable_lookup, if_pos hvb], ?_⟩
        by_cases hvt : v = target
        · simp only [hvt, if_true]
        · simp only [hvt, if_false, getCommitment, hk]
          exact hkc) (by
        intro k hk
        rw [hfull k hk, leavesOf_entryAt]
        rfl)
    rw [leavesOf_entryAt] at c4 c5
    have hnv := newVerifier_eq (last := getLast state) (th := th) (aud := aud) hrp
    rw [hths] at hnv
    have hladderC : ∀ v ∈ b, ladderCommitment [(target, comOf env l (versionsOf l cs) target)] v
        (⟨(vrfOf env l v).2, if v = target then none else getCommitment p3.state v⟩ : BinaryLadderStep) =
        .ok (if v = target then some (comOf env l (versionsOf l cs) target) else getCommitment p3.state v) := by
      intro v _
      unfold ladderCommitment
      by_cases hvt : v = target
      · subst hvt
        simp
      · rw [List.lookup_cons, (by simpa using hvt : (v == target) = false)]
        simp [hvt]
    have hps := processSteps_ok (env := cenv) (l := l) (manual := [(target, comOf env l (versionsOf l cs) target)])
      (out := fun v => (vrfOf env l v).1)
      (C := fun v => if v = target then some (comOf env l (versionsOf l cs) target) else getCommitment p3.state v)
      (f := fun v => (⟨(vrfOf env l v).2, if v = target then none else getCommitment p3.state v⟩ : BinaryLadderStep))
      (w := ⟨state, ⟨some th, aud⟩, retainedTables ⟨proof, [], {}⟩ (entryAt env.cs us) full fk, us.length, aud.map (·.treeSize),
        getLast state⟩) hbn (by
        intro v _
        obtain ⟨input, h1, -, h3⟩ := computeVrf_ok (env := env) hl v
        refine ⟨input, h1, ?_⟩
        rw [h3]
        exact hc.vrf input) (by
        intro v _
        obtain ⟨input, h1, -, h3⟩ := computeVrf_ok (env := env) hl v
        rw [h3, hc.cs]
        exact hc.vrfLen input) hladderC (by
        intro v hv c hcv
        rw [hc.cs]
        rcases hp3 v hv with h | h
        · rw [h] at hcv; cases hcv
        · rw [h] at hcv
          cases hcv
          exact comOf_len hcs l _ v) (by intro v _; rfl)
    rw [show (retainedTables (⟨proof, [], {}⟩ : Received) (entryAt env.cs us) full fk).state.versions = [] from rfl, List.append_nil] at hps
    have hcc : computeCommitment cenv (storedOf env (versionsOf l cs) target).opening l target (storedOf env (versionsOf l cs) target).value =
        .ok (comOf env l (versionsOf l cs) target) := by
      unfold computeCommitment
      rw [hbody, G.ok_bind, hc.cs, hcom]
      rfl
    have hto : ∀ res : SearchResponse, res.version = (if version = none then some target else none) →
        targetOf (searchRequest state l version) res = .ok target := by
      intro res hres
      unfold targetOf searchRequest
      cases version with
      | none => simp only [hres]; rfl
      | some v => simp only [htarget, searchTarget]; rfl
    have hpl : ∀ w, processLadder cenv l (b.map (fun v => (⟨(vrfOf env l v).2, if v = target then none else getCommitment p3.state v⟩ :
        BinaryLadderStep))) b [(target, comOf env l (versionsOf l cs) target)] w = processSteps cenv l
          [(target, comOf env l (versionsOf l cs) target)] (b.map (fun v => (v, (⟨(vrfOf env l v).2, if v = target then none else
            getCommitment p3.state v⟩ : BinaryLadderStep)))) w := by
      intro w
      unfold processLadder
      rw [if_neg (by simp), zip_map_self]
    have hcheck : ∀ res : SearchResponse, res.fullTreeHead = ⟨some th, aud⟩ → res.search = proof →
        res.version = (if version = none then some target else none) → res.opening = (storedOf env (versionsOf l cs) target).opening →
        res.value = (storedOf env (versionsOf l cs) target).value →
        res.binaryLadder = b.map (fun v => (⟨(vrfOf env l v).2, if v = target then none else getCommitment p3.state v⟩ : BinaryLadderStep)) →
        checkedSearch cenv nowC state (searchRequest state l version) res = (do
          let terminal ← r
          let root ← Log.root env.cs us.length result.fullSubtrees
          let rootP ← auditorRoot cenv (aud.map (·.treeSize)) result.additional
          pure (terminal, ⟨state, ⟨some th, aud⟩, q3, us.length, aud.map (·.treeSize), getLast state⟩, result, root, rootP)) := by
      intro res k1 k2 k3 k4 k5 k6
      unfold checkedSearch
      rw [hto res k3, k1, k2, k4, k5, k6]
      rw [show (searchRequest state l version).last = getLast state from rfl, hnv, G.ok_bind, G.ok_bind,
        show (searchRequest state l version).label = l from rfl, hleaf, G.ok_bind, hb1, G.ok_bind, hcc, G.ok_bind, hpl, hps, G.ok_bind]
      unfold Verifier.updateView Verifier.run
      rw [hc.cs, hc.cfg]
      simp only
      have c1' : Provider.run (Received.handle env.cs) (Alg.updateView env.cfg nowC us.length (getLast state))
          { (retainedTables (⟨proof, [], {}⟩ : Received) (entryAt env.cs us) full fk) with
            state := { (retainedTables (⟨proof, [], {}⟩ : Received) (entryAt env.cs us) full fk).state with
              versions := ladderTable (fun v => (vrfOf env l v).1)
                (fun v => if v = target then some (comOf env l (versionsOf l cs) target) else getCommitment p3.state v) b } } =
          (.ok (), q1) := c1
      rw [c1']
      simp only [G.ok_bind, G.pure_eq]
      have c2' : Provider.run (Received.handle env.cs) (if (searchRequest state l version).version = none then
          greatestVersionSearch env.cfg target us.length else fixedVersionSearch env.cfg target us.length) q1 = (r, q2) := c2
      rw [c2']
      rcases r with e | x
      · rfl
      · simp only [G.ok_bind]
        rw [c3]
    refine ⟨?_, ?_⟩
    · rintro e rfl
      rw [hcheck _ rfl rfl rfl rfl rfl rfl]
      rfl
    · rintro x rfl
      rw [hcheck _ rfl rfl rfl rfl rfl rfl]
      have hroot : Log.root env.cs us.length result.fullSubtrees = .ok (LogSpec.rootHash env.cs.H (logLeaves env.cs us)) := by
        have := root_take hcs (us := us) hpos (le_refl _) (by omega)
        rw [List.take_of_length_le (by rw [logLeaves_len])] at this
        rw [c4]
        exact this
      have hkeeps : Keeps env us us.length result.fullSubtrees result.logEntries :=
        ⟨by rw [c4, List.take_of_length_le (by rw [logLeaves_len])]; rfl, f, hf, c6⟩
      have hrootP : ∃ rootP, auditorRoot cenv (aud.map (·.treeSize)) result.additional = .ok rootP ∧
          ∀ a, aud = some a → rootP = LogSpec.rootHash env.cs.H ((logLeaves env.cs us).take a.treeSize) := by
        cases aud with
        | none => exact ⟨[], rfl, by simp⟩
        | some a =>
          obtain ⟨h1, h2⟩ := haud a rfl
          refine ⟨LogSpec.rootHash env.cs.H ((logLeaves env.cs us).take a.treeSize), ?_, ?_⟩
          · simp only [auditorRoot, Option.map_some, hc.cs]
            rw [c5 a.treeSize rfl]
            exact root_take hcs h1 h2 (by omega)
          · intro a' ha'
            cases ha'
            rfl
      obtain ⟨rootP, g1, g2⟩ := hrootP
      refine ⟨⟨state, ⟨some th, aud⟩, q3, us.length, aud.map (·.treeSize), getLast state⟩, result, rootP, ?_, rfl, rfl, rfl, hkeeps, g2⟩
      rw [G.ok_bind, hroot, G.ok_bind, g1, G.ok_bind]
      rfl

end

end Katie.Server
