import Verif.Lemmas.OneAnswer
import Verif.Lemmas.InitSound
import Verif.Props.C60_SearchSound
import Verif.Props.C50_C52_Crypto

/-
C79: one tree head, one answer.

The log is not that of an honest server here: its entries are any timestamps and any maps, so versions may be missing,
or be removed, and timestamps may decrease.  Whatever it is, two clients that accept an answer to the same search for
the same tree head accept the same answer.
-/

namespace Katie.Props
open Katie Katie.Wire Katie.Alg Katie.Ladder Katie.Server Katie.Client Katie.CommittedSpec Katie.SearchTree Katie.SearchSpec

/-- A client whose state is right for the log `W` accepts the response `res` to its search `req`: for version `target`,
with the commitment `com`, at log entry `terminal`.  The last condition is what the verifier does not check (C10, C11). -/
structure AcceptsSearch (env : CEnv) (W : List Content) (now : Nat) (s : ClientState) (req : SearchRequest) (res : SearchResponse)
    (target : Nat) (com : Bytes) (terminal : Nat) : Prop where
  size : s.treeHead.treeSize = W.length
  retains : Retains env.cs W s.fullSubtrees s.logEntries
  last : req.last = some s.treeHead.treeSize
  wire : FromWire env.cs res.search
  small : target < 2 ^ 32
  asked : AnswerFor req res target
  commitment : computeCommitment env res.opening req.label target res.value = .ok com
  verified : (verifySearch env now (some s) req res).map (·.1) = .ok terminal
  clean : ∀ e ∈ searchEvals env now (some s) req res, Consistent e.1 e.2

/-- what a client that accepts has seen of the log -/
structure Saw (env : CEnv) (W : List Content) (out : Nat → Bytes) (greatest : Bool) (target : Nat) (com : Bytes) (terminal : Nat)
    (Vs : Versions) (proofs : List Prefix.Proof) (E : List (List Prefix.Entry × Prefix.Proof)) (M : List (Nat × Nat))
    (roots : Nat → Option Bytes) (tr : List Ev) (z : Tracker) : Prop where
  pos : 0 < W.length
  told : Told env.cs Vs proofs E M roots (timeAt W) (presentAt W out)
  facts : TFacts env.cs Vs proofs E M roots {} tr z
  runs : Runs (if greatest then greatestVersionSearch env.cfg target W.length else fixedVersionSearch env.cfg target W.length)
    tr (.ok terminal)
  parts : greatest = true → ∃ dle tr1 tr2, tr = tr1 ++ tr2 ∧ Runs (rightmostDistinguished env.cfg W.length) tr1 (.ok dle) ∧
    Runs (greatestLoop target W.length W.length (dle.getD (root W.length)) none) tr2 (.ok terminal)
  committed : Committed W out target com terminal

theorem rightmostDistinguished_ts {cfg : Config} {n : Nat} (h0 : 0 < n) {tr : List Ev} {r : G (Option Nat)}
    (h : Runs (rightmostDistinguished cfg n) tr r) : ∀ e ∈ tr, ∃ x, e.q = .ts x := fun e he => by
  obtain ⟨x, hx, -⟩ := (rightmostDistinguished_asks (P := fun _ => True) h0 (fun _ _ => trivial) trivial).runs h e he
  exact ⟨x, hx⟩

/-- A client that accepts has seen the log. -/
theorem AcceptsSearch.saw {env : CEnv} {W : List Content} {out : Nat → Bytes} {now : Nat} {s : ClientState} {req : SearchRequest}
    {res : SearchResponse} {target terminal : Nat} {com : Bytes} (hcs : env.cs.Good) (hW : WellFormed env.cs W)
    (hvrf : ∀ v i o pr, v < 2 ^ 32 → vrfInput req.label v = .ok i → env.vrfVerify i pr = .ok o → o = out v)
    (hA : AcceptsSearch env W now s req res target com terminal) :
    (∃ Vs proofs E M roots tr z, Saw env W out req.version.isNone target com terminal Vs proofs E M roots tr z) ∨
    HashBroken env.cs (logStrings env.cs W) (searchStrings env now (some s) req res) := by
  obtain ⟨hsize, hret, hlast, hwire, h32, htg, hcom, hver, hclean⟩ := hA
  obtain ⟨⟨terminal', updated, v⟩, h, hter⟩ : ∃ q, verifySearch env now (some s) req res = .ok q ∧ q.1 = terminal := by
    cases hq : verifySearch env now (some s) req res with
    | error e => rw [hq] at hver; cases hver
    | ok q => rw [hq] at hver; exact ⟨q, rfl, Except.ok.inj hver⟩
  simp only at hter
  subst hter
  clear hver
  unfold verifySearch at h
  obtain ⟨v0, h0, h⟩ := G.bind_eq_ok.1 h
  rw [targetOf_iff.2 htg, G.ok_bind] at h
  obtain ⟨-, -, h⟩ := G.bind_eq_ok.1 h
  obtain ⟨vers, hl, h⟩ := G.bind_eq_ok.1 h
  rw [hcom, G.ok_bind] at h
  obtain ⟨v1, h1, h⟩ := G.bind_eq_ok.1 h
  obtain ⟨v2, h2, h⟩ := G.bind_eq_ok.1 h
  obtain ⟨⟨terminal2, v3⟩, h3, h⟩ := G.bind_eq_ok.1 h
  obtain ⟨⟨updated', v4⟩, h4, h⟩ := G.bind_eq_ok.1 h
  obtain ⟨rfl, rfl, rfl⟩ : terminal' = terminal2 ∧ updated' = updated ∧ v4 = v := by
    have := Except.ok.inj h; simp only [Prod.mk.injEq] at this; exact ⟨this.1.symm, this.2⟩
  clear h
  obtain ⟨⟨Vs, b1⟩, -⟩ := processLadder_versions h1
  rw [hlast] at h0
  obtain ⟨hnone, hn, hmn, result, p, hf, hroot, -⟩ :=
    same_head hcs hW hsize hret h0 (processLadder_frame h1) b1 h2 h3 h4
  have hst : EntriesOk env.cs W (some s) := by
    intro s' hs' e he
    cases hs'
    exact hret.entries e he
  obtain ⟨-, hR, -⟩ := setup hW hst h0 h1 h2
  have hn2 : v2.n = W.length := by rw [← (run_frame h3).1.n]; exact hn
  obtain ⟨hpos, hmax⟩ := logRoot_size hroot
  have hpos' : 0 < W.length := by rw [← hn]; exact hpos
  have h64 : W.length < 2 ^ 64 := by rw [← hn]; unfold LogMath.maxTreeSize at hmax; omega
  have hsteps : searchSteps env now (some s) req res = .ok (if req.version = none then
      greatestVersionSearch env.cfg target v2.n else fixedVersionSearch env.cfg target v2.n, v2, v3) := by
    unfold searchSteps
    simp only [hlast, h0, targetOf_iff.2 htg, hl, hcom, h1, h2, h3, G.ok_bind, G.pure_eq]
  have hev : searchEvals env now (some s) req res = Provider.evals env.cs (if req.version = none then
      greatestVersionSearch env.cfg target v2.n else fixedVersionSearch env.cfg target v2.n) v2.p := by
    unfold searchEvals
    rw [hsteps]
  have hstr : searchStrings env now (some s) req res = finishStrings env.cs v3.n v3.nP v3.m v3.p ++
      proofStrings env.cs (searchEvals env now (some s) req res) := by
    unfold searchStrings
    rw [hsteps]
  rw [hstr]
  rw [hev] at hclean ⊢
  have hprog : (if req.version = none then greatestVersionSearch env.cfg target v2.n else fixedVersionSearch env.cfg target v2.n) =
      (if req.version.isNone then greatestVersionSearch env.cfg target W.length
        else fixedVersionSearch env.cfg target W.length) := by
    rw [hn2]
    simp only [Option.isNone_iff_eq_none]
  rw [hprog] at h3 hclean ⊢
  clear hprog hev hstr hsteps
  have hr := (run_frame h3).2
  obtain ⟨g3, m3, hruns, -⟩ := run_spec (Received.handle env.cs) (if req.version.isNone then
    greatestVersionSearch env.cfg target W.length else fixedVersionSearch env.cfg target W.length) v2.p hR.ts
  rw [hr] at g3 m3 hruns
  rcases after_any hcs hW hwire hR.toBegun (fun v k hk => by
    obtain ⟨k1, i, step, k2, k3, -⟩ := hR.known v k hk
    exact ⟨searchBinaryLadder_lt hl v k1, hvrf v i _ _ (searchBinaryLadder_lt hl v k1) k2 k3⟩) hclean h3 hn hmn hf hroot with
    ⟨hL, hT, -, hC⟩ | hB
  swap
  · exact Or.inr hB
  left
  have key : (∀ e ∈ v2.p.trace (Received.handle env.cs) (if req.version.isNone then
      greatestVersionSearch env.cfg target W.length else fixedVersionSearch env.cfg target W.length), ∃ a, e.a = .ok a) ∧
      (req.version.isNone = true → ∃ dle tr1 tr2, v2.p.trace (Received.handle env.cs) (if req.version.isNone then
        greatestVersionSearch env.cfg target W.length else fixedVersionSearch env.cfg target W.length) = tr1 ++ tr2 ∧
        Runs (rightmostDistinguished env.cfg W.length) tr1 (.ok dle) ∧
        Runs (greatestLoop target W.length W.length (dle.getD (root W.length)) none) tr2 (.ok terminal')) := by
    by_cases hg : req.version.isNone = true
    · rw [if_pos hg] at hr ⊢
      obtain ⟨f, hf1, hf2⟩ := finish_frontier m3 hf
      obtain ⟨f', hf3, hf4, -, -, hf5⟩ := frontier_spine hpos' h64
      rw [hn, hf3] at hf1
      have hff := Except.ok.inj hf1
      subst hff
      obtain ⟨hok, hparts⟩ := greatest_allOk (Received.handle env.cs) (cfg := env.cfg) (ver := target) (r := terminal') hpos' hR.ts
        (by rw [hr]) (by rw [hr]; exact fun y hy => hf2 y ((hf4 y).2 hy)) (by rw [hr]; exact hf2 _ hf5)
      exact ⟨hok, fun _ => hparts⟩
    · refine ⟨?_, fun h => absurd h hg⟩
      rw [if_neg hg] at hruns ⊢
      exact (fixedVersionSearch_noCatch (cfg := env.cfg) (ver := target) (n := W.length)).runs hruns
  obtain ⟨hok, hparts⟩ := key
  obtain ⟨z, hfacts⟩ := client_tfacts (cs := env.cs) _ v2.p hR.ts hR.inv hR.times hok v3.p
    (by rw [hr]; exact Grows.refl _) (fun e he => he)
  rw [hR.tracker] at hfacts
  have hshown : terminal' ∈ v3.p.timestamps.map Prod.fst ∧ Shown env.cs v2.p.state.versions res.search.prefixProofs
      (Provider.evals env.cs (if req.version.isNone then greatestVersionSearch env.cfg target W.length
        else fixedVersionSearch env.cfg target W.length) v2.p) (fun x => v3.p.prefixTrees.lookup x) terminal' target true := by
    by_cases hg : req.version.isNone = true
    · obtain ⟨dle, tr1, tr2, k1, k2, k3⟩ := hparts hg
      have hfacts' := hfacts
      rw [k1] at hfacts'
      obtain ⟨y, y1, y2⟩ := hfacts'.split
      obtain ⟨lo, anc, l1, l2⟩ := rightmostDistinguished_frontier hpos' k2
      rw [← l2] at k3
      have hy : y = {} := y1.ts_only (rightmostDistinguished_ts hpos' k2)
      subst hy
      exact greatestLoop_shown h32 _ lo anc none {} z tr2 terminal' l1 (by intro _ e he; cases he) (by intro e he; cases he)
        (by intro t ht; cases ht) k3 y2
    · have hruns' := hruns
      rw [if_neg hg] at hruns'
      refine fixedVersionSearch_shown hpos' h32 hruns' (z := z) ?_
      have := hfacts
      rw [if_neg hg] at this ⊢
      exact this
  obtain ⟨-, -, hC'⟩ := hC _ _ _ hshown.1 hshown.2
  obtain ⟨c, k, com', k2, k3, k4, k5⟩ := hC' rfl
  have k6 := (hR.known _ _ k3).com k4
  subst k6
  exact ⟨_, _, _, _, _, _, z, hpos', ⟨hT, fun x v b hx h => (hC x v b hx h).2.1⟩, hfacts, hruns, hparts, ⟨c, k2, k5⟩⟩

theorem Saw.below {env : CEnv} {W : List Content} {out : Nat → Bytes} {t t' : Nat} {com com' : Bytes} {x x' : Nat} {Vs Vs' : Versions}
    {proofs proofs' : List Prefix.Proof} {E E' : List (List Prefix.Entry × Prefix.Proof)} {M M' : List (Nat × Nat)}
    {roots roots' : Nat → Option Bytes} {tr tr' : List Ev} {z z' : Tracker} {b b' : List Nat}
    (h : Saw env W out true t com x Vs proofs E M roots tr z) (h' : Saw env W out true t' com' x' Vs' proofs' E' M' roots' tr' z')
    (h32 : t < 2 ^ 32) (h32' : t' < 2 ^ 32) (hb : baseBinaryLadder t = .ok b) (hb' : baseBinaryLadder t' = .ok b') : ¬ t < t' := by
  intro hlt
  obtain ⟨dle, tr1, tr2, e1, e2, e3⟩ := h.parts rfl
  obtain ⟨dle', tr1', tr2', e1', e2', e3'⟩ := h'.parts rfl
  have f := h.facts
  have f' := h'.facts
  rw [e1] at f
  rw [e1'] at f'
  obtain ⟨y, f1, f2⟩ := f.split
  obtain ⟨y', f1', f2'⟩ := f'.split
  obtain rfl : y = {} := f1.ts_only (rightmostDistinguished_ts h.pos e2)
  obtain rfl : y' = {} := f1'.ts_only (rightmostDistinguished_ts h.pos e2')
  obtain ⟨-, hd⟩ := runs_det h.told h'.told _ e2 e2' f1 f1' (rightmostDistinguished_noStop.runs e2)
  cases hd
  obtain ⟨lo, anc, l1, l2⟩ := rightmostDistinguished_frontier h.pos e2
  rw [← l2] at e3 e3'
  obtain ⟨p, v, q, q', k1, k2, k3, k4, k5⟩ := base_fork hlt h32 hb hb'
  exact greatest_conflict h.told h'.told h32 h32' hb hb' k1 k2 k3 k4 k5 _ lo anc none none {} {} z z' tr2 tr2' x x' l1 Alike.nil
    e3 e3' f2 f2'

theorem AcceptsSearch.ladder {env : CEnv} {W : List Content} {now : Nat} {s : ClientState} {req : SearchRequest}
    {res : SearchResponse} {target terminal : Nat} {com : Bytes} (h : AcceptsSearch env W now s req res target com terminal) :
    ∃ b, baseBinaryLadder target = .ok b := by
  have hv := h.verified
  cases hq : verifySearch env now (some s) req res with
  | error e => rw [hq] at hv; cases hv
  | ok q =>
    unfold verifySearch at hq
    obtain ⟨v0, h0, hq⟩ := G.bind_eq_ok.1 hq
    rw [targetOf_iff.2 h.asked, G.ok_bind] at hq
    obtain ⟨-, -, hq⟩ := G.bind_eq_ok.1 hq
    obtain ⟨vers, hl, -⟩ := G.bind_eq_ok.1 hq
    unfold searchBinaryLadder at hl
    obtain ⟨b, hb, -⟩ := G.bind_eq_ok.1 hl
    exact ⟨b, hb⟩

/-- **C79 (partial).**  Two clients have states that are right for the same log `W`, and the same request: the same
label, and the same version or none.  If both accept a response, they accept the same version, at the same log entry, with
the same commitment and the same value; or two of the strings hashed are a collision.  (What is missing: the last
condition in `AcceptsSearch`.  Without it the claim is false, see `C79_two_answers`.) -/
theorem C79_one_answer_partial {env : CEnv} {W : List Content} (hcs : env.cs.Good) (hW : WellFormed env.cs W)
    (hvrf : ∀ i pr o pr' o', env.vrfVerify i pr = .ok o → env.vrfVerify i pr' = .ok o' → o = o')
    {now now' : Nat} {s s' : ClientState} {req req' : SearchRequest} {res res' : SearchResponse} {t t' x x' : Nat} {com com' : Bytes}
    (hlabel : req.label = req'.label) (hversion : req.version = req'.version)
    (h : AcceptsSearch env W now s req res t com x) (h' : AcceptsSearch env W now' s' req' res' t' com' x')
    (hlen : res.opening.length = res'.opening.length) (hty : res.value.Typed env.cfg) (hty' : res'.value.Typed env.cfg) :
    (t = t' ∧ x = x' ∧ com = com' ∧ (res.value = res'.value ∨
      ∃ b b', commitmentValue req.label t res.value = .ok b ∧ commitmentValue req.label t res'.value = .ok b' ∧
        LogSpec.Collides env.cs.H (hmacInputs env.cs.H Commit.fixedBytes (res.opening ++ b))
          (hmacInputs env.cs.H Commit.fixedBytes (res'.opening ++ b')))) ∨
    HashBroken env.cs (logStrings env.cs W) (searchStrings env now (some s) req res) ∨
    HashBroken env.cs (logStrings env.cs W) (searchStrings env now' (some s') req' res') := by
  classical
  -- the VRF outputs of the label
  obtain ⟨out, hout⟩ : ∃ out : Nat → Bytes, ∀ v i o pr, v < 2 ^ 32 → vrfInput req.label v = .ok i →
      env.vrfVerify i pr = .ok o → o = out v := by
    refine ⟨fun v => if h : ∃ o i pr, vrfInput req.label v = .ok i ∧ env.vrfVerify i pr = .ok o then h.choose else [], ?_⟩
    intro v i o pr _ hi ho
    have hex : ∃ o i pr, vrfInput req.label v = .ok i ∧ env.vrfVerify i pr = .ok o := ⟨o, i, pr, hi, ho⟩
    dsimp only
    rw [dif_pos hex]
    obtain ⟨i', pr', hi', ho'⟩ := hex.choose_spec
    rw [hi] at hi'
    cases hi'
    exact hvrf i pr o pr' _ ho ho'
  rcases h.saw hcs hW hout with ⟨Vs, proofs, E, M, roots, tr, z, S⟩ | hB
  swap
  · exact Or.inr (Or.inl hB)
  rcases h'.saw hcs hW (hlabel ▸ hout) with ⟨Vs', proofs', E', M', roots', tr', z', S'⟩ | hB
  swap
  · exact Or.inr (Or.inr hB)
  left
  rw [← hversion] at S'
  have ht : t = t' := by
    by_cases hv : req.version = none
    · obtain ⟨b, hb⟩ := h.ladder
      obtain ⟨b', hb'⟩ := h'.ladder
      rw [hv] at S S'
      have n1 := S.below S' h.small h'.small hb hb'
      have n2 := S'.below S h'.small h.small hb' hb
      omega
    · obtain ⟨v, hv⟩ := Option.ne_none_iff_exists'.1 hv
      have e := h.asked
      have e' := h'.asked
      unfold AnswerFor at e e'
      rw [← hversion, hv] at e'
      rw [hv] at e
      simp only [Option.some.injEq, reduceCtorEq, false_and, or_false] at e e'
      omega
  subst ht
  have hx : x = x' := by
    have hns : ∀ e ∈ tr, e.q.isStop = false := by
      have hr := S.runs
      by_cases hg : req.version.isNone = true
      · rw [if_pos hg] at hr; exact greatestVersionSearch_noStop.runs hr
      · rw [if_neg hg] at hr; exact fixedVersionSearch_noStop.runs hr
    exact Except.ok.inj (runs_det S.told S'.told _ S.runs S'.runs S.facts S'.facts hns).2
  subst hx
  have hcom : com = com' := by
    obtain ⟨c, c1, c2⟩ := S.committed
    obtain ⟨c', c1', c2'⟩ := S'.committed
    rw [c1] at c1'
    cases c1'
    have hd := (hW.maps c (List.mem_of_getElem? c1)).distinct
    have := List.inj_on_of_nodup_map hd c2 c2' rfl
    exact (Prod.mk.inj this).2
  refine ⟨rfl, rfl, hcom, ?_⟩
  have e := h.commitment
  have e' := h'.commitment
  rw [← hlabel] at e'
  unfold computeCommitment at e e'
  obtain ⟨b, hb, e⟩ := G.bind_eq_ok.1 e
  obtain ⟨b', hb', e'⟩ := G.bind_eq_ok.1 e'
  have e1 := Except.ok.inj e
  have e2 := Except.ok.inj e'
  rcases C52_binds_label_version_value env.cs env.cfg res.opening res'.opening com b b' hlen req.label req.label t t h.small h.small
    res.value res'.value hty hty' hb hb' (by rw [← e1]; exact C52_opens _ _ _) (by rw [hcom, ← e2]; exact C52_opens _ _ _) with
    ⟨-, -, k⟩ | k
  · exact Or.inl k
  · exact Or.inr ⟨b, b', hb, hb', k⟩

/-! ### a concrete case, and what happens without the proviso -/

/-- a log that no honest server has: timestamps decrease, and version 3 is there before the other versions, and gone when
they are there -/
def oddLog : List Content := [⟨9, [([0x10], [4])]⟩, ⟨6, [([0x80], [167]), ([0x40], [156]), ([0xC0], [5])]⟩]

/-- the state of a client that knows the log -/
def oddState : ClientState := ⟨⟨2, [0]⟩, none, [[12]], [(1, ⟨6, [156]⟩)]⟩

/-- the answer `soundRes` with other VRF proofs -/
def otherRes : SearchResponse := { soundRes with binaryLadder := [⟨[1], some [167]⟩, ⟨[2], none⟩, ⟨[3], none⟩, ⟨[4], none⟩] }

theorem odd_wellFormed : WellFormed soundClient.cs oddLog := by
  refine ⟨?_, by decide⟩
  intro c hc
  simp only [oddLog, List.mem_cons, List.not_mem_nil, or_false] at hc
  rcases hc with rfl | rfl
  · exact ⟨by decide, by decide⟩
  · exact ⟨by decide, by decide⟩

theorem odd_retains : Retains toySuite oddLog oddState.fullSubtrees oddState.logEntries := by
  refine ⟨by decide +kernel, ?_⟩
  intro e he
  obtain rfl := List.mem_singleton.1 he
  exact ⟨_, rfl, by decide +kernel⟩

theorem sound_unique : ∀ i pr o pr' o', soundClient.vrfVerify i pr = .ok o → soundClient.vrfVerify i pr' = .ok o' → o = o' := by
  intro i pr o pr' o' h h'
  cases h
  cases h'
  rfl

theorem odd_accepts (res : SearchResponse) (h : res = soundRes ∨ res = otherRes) :
    AcceptsSearch soundClient oddLog 6 oddState soundReq res 1 [156] 1 := by
  have hev : searchEvals soundClient 6 (some oddState) soundReq res =
      [([⟨[0x80], [167]⟩, ⟨[0x40], [156]⟩, ⟨[0x10], []⟩, ⟨[0x20], []⟩], ⟨[.inclusion 2, .inclusion 1,
        .nonInclusionLeaf [0x40] [156] 1, .nonInclusionLeaf [0x40] [156] 1], [[33]]⟩)] := by
    rcases h with rfl | rfl <;> decide +kernel
  refine ⟨rfl, odd_retains, rfl, ?_, by decide, ?_, ?_, ?_, ?_⟩
  · have hs : res.search = soundRes.search := by rcases h with rfl | rfl <;> rfl
    rw [hs]
    refine ⟨by decide, ?_⟩
    intro pf hpf
    obtain rfl := List.mem_singleton.1 hpf
    refine ⟨by decide, ?_⟩
    intro v c d h
    simp at h
    obtain ⟨rfl, rfl, rfl⟩ := h
    decide
  · rcases h with rfl | rfl <;> exact Or.inr ⟨rfl, rfl⟩
  · rcases h with rfl | rfl <;> decide +kernel
  · rcases h with rfl | rfl <;> decide +kernel
  · rw [hev]
    intro e he
    obtain rfl := List.mem_singleton.1 he
    intro e r her
    simp only [List.zip_cons_cons, List.zip_nil_left, List.mem_cons, List.not_mem_nil, or_false, Prod.mk.injEq] at her
    rcases her with ⟨rfl, rfl⟩ | ⟨rfl, rfl⟩ | ⟨rfl, rfl⟩ | ⟨rfl, rfl⟩ <;> simp [Prefix.Res.isInclusion]

/-- The hypotheses of `C79_one_answer_partial` are met by two different responses for a log that no honest server has, and
no strings collide. -/
example : soundClient.cs.Good ∧ WellFormed soundClient.cs oddLog ∧ soundRes ≠ otherRes ∧
    AcceptsSearch soundClient oddLog 6 oddState soundReq soundRes 1 [156] 1 ∧
    AcceptsSearch soundClient oddLog 6 oddState soundReq otherRes 1 [156] 1 ∧
    soundRes.value.Typed soundClient.cfg ∧
    ¬ HashBroken toySuite (logStrings toySuite oddLog) (searchStrings soundClient 6 (some oddState) soundReq soundRes) := by
  refine ⟨toySuite_good, odd_wellFormed, by decide, odd_accepts _ (.inl rfl), odd_accepts _ (.inr rfl), ?_, ?_⟩
  · show SuffixTyped _ _
    unfold SuffixTyped
    decide
  have h : searchStrings soundClient 6 (some oddState) soundReq soundRes =
      [[3, 56, 15], [2, 64, 156], [3, 3, 33], [2, 128, 167]] := by decide +kernel
  have h' : logStrings toySuite oddLog = [[0, 209, 0, 84], [0, 0, 0, 0, 0, 0, 0, 9, 16], [0, 0, 0, 0, 0, 0, 0, 6, 156],
    [2, 16, 4], [3, 56, 15], [2, 64, 156], [3, 3, 33], [2, 128, 167], [2, 192, 5]] := by decide +kernel
  rw [h, h']
  unfold HashBroken LogSpec.Collides PrefixSpec.ZeroDigest
  decide +kernel

/-- **C79 is false without the proviso.**  For the same tree head and from the same state, a client accepts version 1, and
a client accepts version 0, as the greatest version of the label; no strings collide. -/
theorem C79_two_answers :
    (verifySearch soundClient 6 (some soundState) soundReq soundRes).toOption.map (·.1) = some 1 ∧
    (verifySearch soundClient 6 (some soundState) soundReq staleRes).toOption.map (·.1) = some 1 ∧
    AnswerFor soundReq soundRes 1 ∧ AnswerFor soundReq staleRes 0 ∧
    soundState.treeHead.treeSize = soundLog.length ∧ Retains toySuite soundLog soundState.fullSubtrees soundState.logEntries ∧
    ¬ HashBroken toySuite (logStrings toySuite soundLog) (searchStrings soundClient 6 (some soundState) soundReq soundRes) ∧
    ¬ HashBroken toySuite (logStrings toySuite soundLog) (searchStrings soundClient 6 (some soundState) soundReq staleRes) := by
  refine ⟨by decide +kernel, by decide +kernel, Or.inr ⟨rfl, rfl⟩, Or.inr ⟨rfl, rfl⟩, rfl, sound_retains, ?_, C60_stale_accepted.2.2.2.2⟩
  have h : searchStrings soundClient 6 (some soundState) soundReq soundRes =
      [[3, 56, 15], [2, 64, 156], [3, 3, 33], [2, 128, 167]] := by decide +kernel
  rw [h, soundLog_strings]
  unfold HashBroken LogSpec.Collides PrefixSpec.ZeroDigest
  decide +kernel

end Katie.Props
