import Verif.Props.C97_OneValue
import Verif.Lemmas.Fresh

/-
C102: in an audited log the greatest version does not go back.

As in C97 the clients may have tree heads of different logs; they accept heads of the same auditor.  Nothing is assumed about which
versions of the label the logs contain.
-/

namespace Katie.Props
open Katie Katie.Wire Katie.Alg Katie.Audit Katie.AuditSpec Katie.SearchSpec Katie.Client Katie.CommittedSpec
  Katie.Ladder Katie.SearchTree

/-- What a client has found shows about the other versions of the label: of each version of the ladder up to the target, this version or
an earlier, greater one of the ladder is in the log, in the entry found or to its left; and when it has searched for the greatest version,
the greater ones of the ladder are not in the last entry. -/
theorem finds_saw {env : CEnv} {W : List Content} {label : Bytes} {a : AuditorTreeHead} {greatest : Bool} {target : Nat}
    {opening : Bytes} {value : UpdateValue} {com : Bytes} {terminal : Nat} {S : List Bytes} {out : Nat → Bytes} (hcs : env.cs.Good)
    (hW : WellFormed env.cs W)
    (hvrf : ∀ v i o pr, v < 2 ^ 32 → vrfInput label v = .ok i → env.vrfVerify i pr = .ok o → o = out v)
    (h : FindsBy env W label a greatest target opening value com terminal S) :
    (target < 2 ^ 32 ∧ 0 < W.length ∧ (∃ l, baseBinaryLadder target = .ok l) ∧
      (∀ p v q, baseBinaryLadder target = .ok (p ++ v :: q) → v ≤ target →
        ∃ y z com, y ≤ terminal ∧ (z = v ∨ (z ∈ p ∧ target < z)) ∧ Committed W out z com y ∧
          ∃ i pr, vrfInput label z = .ok i ∧ env.vrfVerify i pr = .ok (out z)) ∧
      (greatest = true → ∀ l, baseBinaryLadder target = .ok l → ∀ u ∈ l, target < u →
        presentAt W out (W.length - 1) u = false)) ∨
    HashBroken env.cs (logStrings env.cs W) S := by
  obtain ⟨-, hth, hsz, -, hst, hwire, h32, h0, hl, hcom, h1, h2, h3, hclean, hf, hroot, -, -⟩ := h
  rename_i now state fth proof v0 v1 v2 v3 w result p rootP th b rest ladder vers
  obtain ⟨e1, e2, e3, e4, e5, e6⟩ := newVerifier_ok h0
  have hn0 : v0.n = th.treeSize := by
    unfold treeSizeOf at e5
    rw [hth] at e5
    exact (Except.ok.inj e5).symm
  obtain ⟨f02, hR, -⟩ := setup hW hst h0 h1 h2
  have f23 := (run_frame h3).1
  have f01 := processLadder_frame h1
  have hn2 : v2.n = W.length := by rw [f02.n, hn0, hsz]
  have hn : v3.n = W.length := by rw [f23.n, hn2]
  have hmn : ∀ k ∈ v3.m, k ≤ v3.n := by
    intro k hk
    have f12 := (updateView_frame h2).1
    have := updateView_size h2 k (by rw [(f12.trans f23).m] at hk; exact hk)
    rw [f01.n, hn0, hsz] at this
    rw [hn]
    exact this
  obtain ⟨hpos, hmax⟩ := logRoot_size hroot
  have hpos' : 0 < W.length := by rw [← hn]; exact hpos
  have h64 : W.length < 2 ^ 64 := by rw [← hn]; unfold LogMath.maxTreeSize at hmax; omega
  rw [hn2] at h3 hclean ⊢
  unfold searchAlg at h3 hclean ⊢
  have hr := (run_frame h3).2
  obtain ⟨g3, m3, hruns, -⟩ := run_spec (Received.handle env.cs) (if greatest then
    greatestVersionSearch env.cfg target W.length else fixedVersionSearch env.cfg target W.length) v2.p hR.ts
  rw [hr] at g3 m3 hruns
  rcases after_any hcs hW hwire hR.toBegun (fun v k hk => by
    obtain ⟨k1, i, step, k2, k3, -⟩ := hR.known v k hk
    exact ⟨searchBinaryLadder_lt hl v k1, hvrf v i _ _ (searchBinaryLadder_lt hl v k1) k2 k3⟩) hclean h3 hn hmn hf hroot with
    ⟨hL, hT, -, hC⟩ | hB
  swap
  · exact Or.inr hB
  left
  have key : (∀ e ∈ v2.p.trace (Received.handle env.cs) (if greatest then
      greatestVersionSearch env.cfg target W.length else fixedVersionSearch env.cfg target W.length), ∃ a, e.a = .ok a) ∧
      (greatest = true → ∃ dle tr1 tr2, v2.p.trace (Received.handle env.cs) (if greatest then
        greatestVersionSearch env.cfg target W.length else fixedVersionSearch env.cfg target W.length) = tr1 ++ tr2 ∧
        Runs (rightmostDistinguished env.cfg W.length) tr1 (.ok dle) ∧
        Runs (greatestLoop target W.length W.length (dle.getD (root W.length)) none) tr2 (.ok terminal)) := by
    by_cases hg : greatest = true
    · rw [if_pos hg] at hr ⊢
      obtain ⟨f, hf1, hf2⟩ := finish_frontier m3 hf
      obtain ⟨f', hf3, hf4, -, -, hf5⟩ := frontier_spine hpos' h64
      rw [hn, hf3] at hf1
      have hff := Except.ok.inj hf1
      subst hff
      obtain ⟨hok, hparts⟩ := greatest_allOk (Received.handle env.cs) (cfg := env.cfg) (ver := target) (r := terminal) hpos' hR.ts
        (by rw [hr]) (by rw [hr]; exact fun y hy => hf2 y ((hf4 y).2 hy)) (by rw [hr]; exact hf2 _ hf5)
      exact ⟨hok, fun _ => hparts⟩
    · refine ⟨?_, fun h => absurd h hg⟩
      rw [if_neg hg] at hruns ⊢
      exact (fixedVersionSearch_noCatch (cfg := env.cfg) (ver := target) (n := W.length)).runs hruns
  obtain ⟨hok, hparts⟩ := key
  obtain ⟨z, hfacts⟩ := client_tfacts (cs := env.cs) _ v2.p hR.ts hR.inv hR.times hok v3.p
    (by rw [hr]; exact Grows.refl _) (fun e he => he)
  rw [hR.tracker] at hfacts
  have hlow : ∀ {p v q}, baseBinaryLadder target = .ok (p ++ v :: q) → v ≤ target →
      Low env.cs v2.p.state.versions proof.prefixProofs
      (Provider.evals env.cs (if greatest then greatestVersionSearch env.cfg target W.length
        else fixedVersionSearch env.cfg target W.length) v2.p) v3.p.timestamps
        (fun x => v3.p.prefixTrees.lookup x) target p v terminal := by
    intro p v q hb hv
    by_cases hg : greatest = true
    · obtain ⟨dle, tr1, tr2, k1, k2, k3⟩ := hparts hg
      have hfacts' := hfacts
      rw [k1] at hfacts'
      obtain ⟨y, y1, y2⟩ := hfacts'.split
      obtain ⟨lo, anc, l1, l2⟩ := rightmostDistinguished_frontier hpos' k2
      rw [← l2] at k3
      have hy : y = {} := y1.ts_only (rightmostDistinguished_ts hpos' k2)
      subst hy
      exact (greatestLoop_low hb _ lo anc none {} z tr2 terminal l1 (by intro e he; cases he) (by intro e he; cases he)
        (by intro _ _ t ht; cases ht) k3 y2).1 rfl hv
    · have hruns' := hruns
      rw [if_neg hg] at hruns'
      refine fixedVersionSearch_low hb hv hpos' hruns' (z := z) ?_
      have := hfacts
      rw [if_neg hg] at this ⊢
      exact this
  obtain ⟨l0, hl0⟩ : ∃ l, baseBinaryLadder target = .ok l := by
    unfold searchBinaryLadder at hl
    obtain ⟨l, hl, -⟩ := G.bind_eq_ok.1 hl
    exact ⟨l, hl⟩
  refine ⟨h32, hpos', ⟨l0, hl0⟩, ?_, ?_⟩
  · intro pp v q hb hv
    obtain ⟨y, u, k1, k2, k3, k4⟩ := hlow hb hv
    obtain ⟨u32, -, hC'⟩ := hC _ _ _ k3 k4
    obtain ⟨c, k, com', j1, j2, -, j4⟩ := hC' rfl
    obtain ⟨-, i, step, i1, i2, -⟩ := hR.known _ _ j2
    have i3 := hvrf _ i _ _ u32 i1 i2
    exact ⟨y, u, com', k1, k2, ⟨c, j1, j4⟩, i, _, i1, by rw [← i3]; exact i2⟩
  · intro hg l hb u hu hlt
    obtain ⟨dle, tr1, tr2, k1, k2, k3⟩ := hparts hg
    have hfacts' := hfacts
    rw [k1] at hfacts'
    obtain ⟨y, y1, y2⟩ := hfacts'.split
    obtain ⟨lo, anc, l1, l2⟩ := rightmostDistinguished_frontier hpos' k2
    rw [← l2] at k3
    have hy : y = {} := y1.ts_only (rightmostDistinguished_ts hpos' k2)
    subst hy
    obtain ⟨-, m1, m2⟩ := greatestLoop_low (p := []) (v := target + 1) (q := []) hb _ lo anc none {} z tr2 terminal l1
      (by intro e he; cases he) (by intro e he; cases he) (by intro _ _ t ht; cases ht) k3 y2
    exact (hC _ _ _ m1 (m2 u hu hlt)).2.1.symm

/-- **C102 (partial).**  Let the auditor be as in C95 and C97.  A client finds version `t` of a label (with either kind of search) at
entry `x`, which the auditor has audited.  Another client, whose tree head may be for a different log, is told that `t'` is the greatest
version, in a log that contains an entry `x` and all of which is covered by the auditor's head.  If no update that the auditor has
accepted removes a version of the label, then `t ≤ t'`: the answer is not older than what the first client has found; or two strings
that were hashed, by the clients, for their logs, or by the auditor, collide (or one has the digest 0).
(What is missing: the condition `Consistent` in `FindsBy`, as in C97.) -/
theorem C102_fresh_partial {env : CEnv} (hcs : env.cs.Good) (hcfg : ConfigTyped env.cfg)
    (hvrf : ∀ i pr o pr' o', env.vrfVerify i pr = .ok o → env.vrfVerify i pr' = .ok o' → o = o')
    {key : Bytes} {sign : Bytes → G Bytes} {us kept : List AuditorUpdate} {hs : List AuditorTreeHead} {au : Auditor}
    (hex : DurableExec env.cs env.cfg key sign (UpdateOk env.cs) us kept hs au) (hun : Unforged env sign hs) (label : Bytes) :
    ∃ A, Chain env.cs A ∧ updates A = us ∧ ∀ (W W' : List Content) (a a' : AuditorTreeHead) (t t' x x' : Nat)
      (o o' com com' : Bytes) (val val' : UpdateValue) (S S' : List Bytes),
      WellFormed env.cs W → WellFormed env.cs W' →
      Finds env W label a t o val com x S → FindsBy env W' label a' true t' o' val' com' x' S' →
      x < a.treeSize → x < W'.length → W'.length ≤ a'.treeSize →
      (∀ v i pr out, vrfInput label v = .ok i → env.vrfVerify i pr = .ok out → Keeps us out 0 (W'.length - 1)) →
      t ≤ t' ∨
      HashBroken env.cs (clientStrings env.cs A W a S ++ clientStrings env.cs A W' a' S' ++ stepStrings env.cs A)
        (clientStrings env.cs A W a S ++ clientStrings env.cs A W' a' S' ++ stepStrings env.cs A) := by
  obtain ⟨A, hA, hup, hall⟩ := C95_audited hcs hcfg hex
  refine ⟨A, hA, hup, ?_⟩
  intro W W' a a' t t' x x' o o' com com' val val' S S' hW hW' hf hf' hx hxW hcov hkeep
  obtain ⟨out, hout⟩ := vrf_outputs hvrf label
  have times : ∀ V, WellFormed env.cs V → ∀ e ∈ V.map (Content.entry env.cs), e.timestamp < 2 ^ 64 := by
    intro V hV e he
    obtain ⟨c, hc, rfl⟩ := List.mem_map.1 he
    exact hV.times c hc
  -- all strings
  generalize hTT : clientStrings env.cs A W a S ++ clientStrings env.cs A W' a' S' ++ stepStrings env.cs A = TT
  have sub : ∀ s, s ∈ clientStrings env.cs A W a S ∨ s ∈ clientStrings env.cs A W' a' S' ∨ s ∈ stepStrings env.cs A →
      s ∈ TT := by
    intro s hs
    rw [← hTT, List.mem_append, List.mem_append, or_assoc]
    exact hs
  by_cases hB : HashBroken env.cs TT TT
  · exact Or.inr hB
  left
  have same : ∀ (V : List Content) (b : AuditorTreeHead) (t : Nat) (com : Bytes) (val : UpdateValue) (o : Bytes) (x : Nat)
      (R : List Bytes), WellFormed env.cs V → Finds env V label b t o val com x R →
      (∀ s ∈ clientStrings env.cs A V b R, s ∈ TT) →
      (V.map (Content.entry env.cs)).take b.treeSize = log (A.take b.treeSize) := by
    intro V b t com val o x R hV hF hsub
    obtain ⟨R', hP, hR'⟩ := finds_passed hF
    rcases hall env _ b R' rfl rfl hun (times V hV) hP with ⟨-, -, -, -, k⟩ | k
    · exact k
    · refine absurd (HashBroken.mono (Or.inl k) (fun s hs => hsub s ((mem_clientStrings ..).2 ?_))
        (fun s hs => hsub s ((mem_clientStrings ..).2 ?_))) hB
      · rcases List.mem_append.1 hs with hs | hs
        · exact Or.inr (Or.inr (Or.inl hs))
        · exact Or.inr (Or.inr (Or.inr (Or.inl hs)))
      · rcases List.mem_append.1 hs with hs | hs
        · exact Or.inl (hR' s hs)
        · exact Or.inr (Or.inr (Or.inr (Or.inr hs)))
  have p1 := same W a t com val o x S hW hf (fun s hs => sub s (Or.inl hs))
  have q1 := same W' a' t' com' val' o' x' S' hW' ⟨_, hf'⟩ (fun s hs => sub s (Or.inr (Or.inl hs)))
  obtain ⟨g, hf⟩ := hf
  rcases finds_saw hcs hW hout hf with ⟨-, -, ⟨l, hl⟩, hlow, -⟩ | k
  swap
  · exact absurd (HashBroken.mono k (fun s hs => sub s (Or.inl ((mem_clientStrings ..).2 (Or.inr (Or.inl hs)))))
        (fun s hs => sub s (Or.inl ((mem_clientStrings ..).2 (Or.inl hs))))) hB
  rcases finds_saw hcs hW' hout hf' with ⟨h32, hpos, ⟨l', hl'⟩, -, hlast⟩ | k
  swap
  · exact absurd (HashBroken.mono k (fun s hs => sub s (Or.inr (Or.inl ((mem_clientStrings ..).2 (Or.inr (Or.inl hs))))))
        (fun s hs => sub s (Or.inr (Or.inl ((mem_clientStrings ..).2 (Or.inl hs)))))) hB
  by_contra hlt
  have hlt : t' < t := by omega
  -- the version where the ladders part
  obtain ⟨p, v, q, q', e1, e2, e3, e4, e5⟩ := base_fork hlt h32 hl' hl
  obtain ⟨y, z, com1, hy, hz, ⟨c, c1, c2⟩, i, pr, i1, i2⟩ := hlow p v q' (e2 ▸ hl) e5
  have hzl : z ∈ l' ∧ t' < z := by
    rw [e1]
    rcases hz with rfl | ⟨h1, h2⟩
    · exact ⟨by simp, e4⟩
    · exact ⟨by simp [h1], by omega⟩
  have habs := hlast rfl l' hl' z hzl.1 hzl.2
  -- the entry in the other log
  obtain ⟨d, hd⟩ : ∃ d, W'[y]? = some d := ⟨_, List.getElem?_eq_getElem (by omega)⟩
  have hmem : (out z, com1) ∈ d.map := by
    obtain ⟨r, r1, r2⟩ := audited_entry p1 (by omega) c1
    obtain ⟨r', r1', r2'⟩ := audited_entry q1 (by omega) hd
    rw [r1] at r1'
    cases r1'
    have hroots : PrefixSpec.rootHash env.cs.H env.cs.hashSize c.map = PrefixSpec.rootHash env.cs.H env.cs.hashSize d.map := by
      have := r2.symm.trans r2'
      exact congrArg LogEntry.prefixTree this
    rcases C07_root_injective hcs _ _ (hW.maps _ (List.mem_of_getElem? c1)) (hW'.maps _ (List.mem_of_getElem? hd)) hroots with k | k
    · exact (k _).1 c2
    · refine absurd (HashBroken.mono (A := PrefixSpec.rootInputs env.cs.H env.cs.hashSize c.map)
        (B := PrefixSpec.rootInputs env.cs.H env.cs.hashSize d.map) k ?_ ?_) hB
      · exact fun s hs => sub s (Or.inl ((mem_clientStrings ..).2 (Or.inr (Or.inl (mem_logStrings c1 hs)))))
      · exact fun s hs => sub s (Or.inr (Or.inl ((mem_clientStrings ..).2 (Or.inr (Or.inl (mem_logStrings hd hs))))))
  have hk : Keeps us (out z) y (y + (W'.length - 1 - y)) := by
    intro w u h1 h2
    exact hkeep z i pr _ i1 i2 w u (by omega) (by omega)
  rcases audited_keeps hcs hA (fun u hu => (durable_updates hcs hex).1.1 u (hup ▸ hu)) hW' q1
      hd hmem (W'.length - 1 - y) (by omega) (by omega) (hup ▸ hk) with ⟨e, k1, k2⟩ | k
  · rw [show y + (W'.length - 1 - y) = W'.length - 1 by omega] at k1
    unfold presentAt at habs
    rw [k1] at habs
    simp at habs
    exact habs _ k2
  · have hs : ∀ s ∈ logStrings env.cs W' ++ stepStrings env.cs A, s ∈ TT := by
      intro s hs
      rcases List.mem_append.1 hs with hs | hs
      · exact sub s (Or.inr (Or.inl ((mem_clientStrings ..).2 (Or.inr (Or.inl hs)))))
      · exact sub s (Or.inr (Or.inr hs))
    exact absurd (HashBroken.mono k hs hs) hB

/-- **C102 (partial), two clients with logs of the same size.**  Two clients that are both told the greatest version, in logs of the same
size which the auditor's heads cover, are told the same version. -/
theorem C102_same_partial {env : CEnv} (hcs : env.cs.Good) (hcfg : ConfigTyped env.cfg)
    (hvrf : ∀ i pr o pr' o', env.vrfVerify i pr = .ok o → env.vrfVerify i pr' = .ok o' → o = o')
    {key : Bytes} {sign : Bytes → G Bytes} {us kept : List AuditorUpdate} {hs : List AuditorTreeHead} {au : Auditor}
    (hex : DurableExec env.cs env.cfg key sign (UpdateOk env.cs) us kept hs au) (hun : Unforged env sign hs) (label : Bytes) :
    ∃ A, Chain env.cs A ∧ updates A = us ∧ ∀ (W W' : List Content) (a a' : AuditorTreeHead) (t t' x x' : Nat)
      (o o' com com' : Bytes) (val val' : UpdateValue) (S S' : List Bytes),
      WellFormed env.cs W → WellFormed env.cs W' → W.length = W'.length →
      FindsBy env W label a true t o val com x S → FindsBy env W' label a' true t' o' val' com' x' S' →
      W.length ≤ a.treeSize → W'.length ≤ a'.treeSize →
      (∀ v i pr out, vrfInput label v = .ok i → env.vrfVerify i pr = .ok out → Keeps us out 0 (W.length - 1)) →
      t = t' ∨
      HashBroken env.cs (clientStrings env.cs A W a S ++ clientStrings env.cs A W' a' S' ++ stepStrings env.cs A)
        (clientStrings env.cs A W a S ++ clientStrings env.cs A W' a' S' ++ stepStrings env.cs A) := by
  obtain ⟨A, hA, hup, hall⟩ := C102_fresh_partial hcs hcfg hvrf hex hun label
  refine ⟨A, hA, hup, ?_⟩
  intro W W' a a' t t' x x' o o' com com' val val' S S' hW hW' hlen hf hf' hc hc' hkeep
  obtain ⟨out, hout⟩ := vrf_outputs hvrf label
  by_cases hB : HashBroken env.cs (clientStrings env.cs A W a S ++ clientStrings env.cs A W' a' S' ++ stepStrings env.cs A)
      (clientStrings env.cs A W a S ++ clientStrings env.cs A W' a' S' ++ stepStrings env.cs A)
  · exact Or.inr hB
  left
  have mem : ∀ s, s ∈ clientStrings env.cs A W a S ∨ s ∈ clientStrings env.cs A W' a' S' ∨ s ∈ stepStrings env.cs A →
      s ∈ clientStrings env.cs A W a S ++ clientStrings env.cs A W' a' S' ++ stepStrings env.cs A := by
    intro s hs
    rw [List.mem_append, List.mem_append, or_assoc]
    exact hs
  have hx : x < W.length := by
    rcases finds_committed hcs hW hout ⟨_, hf⟩ with ⟨⟨c, hc, -⟩, -⟩ | k
    · exact (List.getElem?_eq_some_iff.1 hc).1
    · exact absurd (HashBroken.mono k (fun s hs => mem s (Or.inl ((mem_clientStrings ..).2 (Or.inr (Or.inl hs)))))
        (fun s hs => mem s (Or.inl ((mem_clientStrings ..).2 (Or.inl hs))))) hB
  have hx' : x' < W'.length := by
    rcases finds_committed hcs hW' hout ⟨_, hf'⟩ with ⟨⟨c, hc, -⟩, -⟩ | k
    · exact (List.getElem?_eq_some_iff.1 hc).1
    · exact absurd (HashBroken.mono k (fun s hs => mem s (Or.inr (Or.inl ((mem_clientStrings ..).2 (Or.inr (Or.inl hs))))))
        (fun s hs => mem s (Or.inr (Or.inl ((mem_clientStrings ..).2 (Or.inl hs)))))) hB
  rcases hall W W' a a' t t' x x' o o' com com' val val' S S' hW hW' ⟨_, hf⟩ hf' (by omega) (by omega) hc'
    (hlen ▸ hkeep) with k1 | k
  swap
  · exact absurd k hB
  rcases hall W' W a' a t' t x' x o' o com' com val' val S' S hW' hW ⟨_, hf'⟩ hf (by omega) (by omega) hc hkeep with k2 | k
  swap
  · have swap : ∀ s ∈ clientStrings env.cs A W' a' S' ++ clientStrings env.cs A W a S ++ stepStrings env.cs A,
        s ∈ clientStrings env.cs A W a S ++ clientStrings env.cs A W' a' S' ++ stepStrings env.cs A := by
      intro s hs
      rw [List.mem_append, List.mem_append, or_assoc] at hs
      rcases hs with hs | hs | hs
      · exact mem s (Or.inr (Or.inl hs))
      · exact mem s (Or.inl hs)
      · exact mem s (Or.inr (Or.inr hs))
    exact absurd (HashBroken.mono k swap swap) hB
  omega

/-- the hypotheses hold for the auditor and the clients of C97: one finds version 0 in a log of one entry, the other is told that
version 0 is the greatest version in a log of two entries -/
example : ∃ us kept hs au S S', DurableExec toySuite auditedEnv.cfg [1] .ok (UpdateOk toySuite) us kept hs au ∧
    Unforged oneClient .ok hs ∧ WellFormed toySuite oneLog ∧ WellFormed toySuite oneLog' ∧
    Finds oneClient oneLog [20] ⟨5, 1, auditedTbs⟩ 0 [9] ⟨[2], none⟩ [134] 0 S ∧
    FindsBy oneClient oneLog' [20] ⟨6, 2, oneTbs⟩ true 0 [9] ⟨[2], none⟩ [134] 1 S' ∧ oneLog'.length = 2 ∧
    ∀ o, Keeps us o 0 (oneLog'.length - 1) := by
  obtain ⟨us, kept, hs, au, S, S', h1, h2, -, -, -, h6, h7, h8, h9, h10⟩ := one_case
  exact ⟨us, kept, hs, au, S, S', h1, h2, h6, h7, h8, h9, rfl, h10⟩

/-- the hypotheses of the second theorem: two clients with the log of two entries -/
example : ∃ us kept hs au S, DurableExec toySuite auditedEnv.cfg [1] .ok (UpdateOk toySuite) us kept hs au ∧
    Unforged oneClient .ok hs ∧ WellFormed toySuite oneLog' ∧
    FindsBy oneClient oneLog' [20] ⟨6, 2, oneTbs⟩ true 0 [9] ⟨[2], none⟩ [134] 1 S ∧ oneLog'.length ≤ 2 ∧
    ∀ o, Keeps us o 0 (oneLog'.length - 1) := by
  obtain ⟨us, kept, hs, au, S, S', h1, h2, -, -, -, h6, h7, h8, h9, h10⟩ := one_case
  exact ⟨us, kept, hs, au, S', h1, h2, h7, h9, le_refl _, h10⟩

end Katie.Props
