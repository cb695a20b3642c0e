import Verif.Props.C103_OwnerLearns

/-
C104: in an audited log the value that a client finds is the one that the owner of the label has.

The owner and the client may have tree heads of different logs; they accept heads of the same auditor.  Nothing is assumed about
which versions of the label the logs contain.
-/

namespace Katie.Props
open Katie Katie.Wire Katie.Alg Katie.Audit Katie.AuditSpec Katie.SearchSpec Katie.Client Katie.CommittedSpec
  Katie.Ladder Katie.SearchTree

/-- Two audited entries, the second not left of the first, which have a version of a label, have the same commitment. -/
theorem audited_same {cs : Log.Suite} (hcs : cs.Good) {A : List Audited} (hA : Chain cs A)
    (hok : ∀ u ∈ updates A, UpdateOk cs u) {W W' : List Content} (hW : WellFormed cs W) (hW' : WellFormed cs W') {n n' : Nat}
    (p1 : (W.map (Content.entry cs)).take n = log (A.take n)) (q1 : (W'.map (Content.entry cs)).take n' = log (A.take n'))
    {out : Nat → Bytes} {t x x' : Nat} {com com' : Bytes} (hc : Committed W out t com x) (hc' : Committed W' out t com' x')
    (hx : x < n) (hx' : x' < n') (hle : x ≤ x') (hkeep : Keeps (updates A) (out t) x x') {TT : List Bytes}
    (s1 : ∀ s ∈ logStrings cs W, s ∈ TT) (s2 : ∀ s ∈ logStrings cs W', s ∈ TT) (s3 : ∀ s ∈ stepStrings cs A, s ∈ TT) :
    com = com' ∨ HashBroken cs TT TT := by
  obtain ⟨c, c1, c2⟩ := hc
  obtain ⟨c', c1', c2'⟩ := hc'
  by_cases hB : HashBroken cs TT TT
  · exact Or.inr hB
  left
  have hlx : x' < W'.length := (List.getElem?_eq_some_iff.1 c1').1
  obtain ⟨d, hd⟩ : ∃ d, W'[x]? = some d := ⟨_, List.getElem?_eq_getElem (by omega)⟩
  have hmem : (out t, com) ∈ d.map := by
    obtain ⟨r, r1, r2⟩ := audited_entry p1 hx c1
    obtain ⟨r', r1', r2'⟩ := audited_entry q1 (by omega) hd
    rw [r1] at r1'
    cases r1'
    have hroots : PrefixSpec.rootHash cs.H cs.hashSize c.map = PrefixSpec.rootHash cs.H cs.hashSize d.map := by
      have := r2.symm.trans r2'
      exact congrArg LogEntry.prefixTree this
    rcases C07_root_injective hcs _ _ (hW.maps _ (List.mem_of_getElem? c1)) (hW'.maps _ (List.mem_of_getElem? hd)) hroots with k | k
    · exact (k _).1 c2
    · exact absurd (HashBroken.mono (A := PrefixSpec.rootInputs cs.H cs.hashSize c.map)
        (B := PrefixSpec.rootInputs cs.H cs.hashSize d.map) k (fun s hs => s1 s (mem_logStrings c1 hs))
        (fun s hs => s2 s (mem_logStrings hd hs))) hB
  obtain ⟨m, rfl⟩ : ∃ m, x' = x + m := ⟨x' - x, by omega⟩
  rcases audited_keeps hcs hA hok hW' q1 hd hmem m hx' hlx hkeep with ⟨e, e1, e2⟩ | k
  · rw [e1] at c1'
    obtain rfl := Option.some.inj c1'
    have := List.inj_on_of_nodup_map (hW'.maps e (List.mem_of_getElem? e1)).distinct e2 c2' rfl
    exact (Prod.mk.inj this).2
  · have hs : ∀ s ∈ logStrings cs W' ++ stepStrings cs A, s ∈ TT := by
      intro s hs
      rcases List.mem_append.1 hs with hs | hs
      · exact s2 s hs
      · exact s3 s hs
    exact absurd (HashBroken.mono k hs hs) hB

/-- The common part: two clients who have passed the checks, and have seen version `k` in the entries `x` and `s`, with commitments of which
`P` and `P'` hold. -/
theorem saw_same {env : CEnv} (hcs : env.cs.Good) (hcfg : ConfigTyped env.cfg)
    {key : Bytes} {sign : Bytes → G Bytes} {us kept : List AuditorUpdate} {hs : List AuditorTreeHead} {au : Auditor}
    (hex : DurableExec env.cs env.cfg key sign (UpdateOk env.cs) us kept hs au) (hun : Unforged env sign hs) (label : Bytes)
    {out : Nat → Bytes} (hout : ∀ v i o pr, v < 2 ^ 32 → vrfInput label v = .ok i → env.vrfVerify i pr = .ok o → o = out v) :
    ∃ A, Chain env.cs A ∧ updates A = us ∧ ∀ (W W' : List Content) (a a' : AuditorTreeHead) (k x s : Nat)
      (P P' : Bytes → Prop) (S S' : List Bytes),
      WellFormed env.cs W → WellFormed env.cs W' →
      (∃ R, Passed env (W.map (Content.entry env.cs)) a R ∧ ∀ s ∈ R, s ∈ S) →
      ((∃ com, P com ∧ Committed W out k com x ∧ ∃ i pr, vrfInput label k = .ok i ∧ env.vrfVerify i pr = .ok (out k)) ∨
        HashBroken env.cs (logStrings env.cs W) S) →
      (∃ R, Passed env (W'.map (Content.entry env.cs)) a' R ∧ ∀ s ∈ R, s ∈ S') →
      ((∃ com', P' com' ∧ Committed W' out k com' s) ∨ HashBroken env.cs (logStrings env.cs W') S') →
      x < a.treeSize → s < a'.treeSize →
      (∀ i pr out, vrfInput label k = .ok i → env.vrfVerify i pr = .ok out → Keeps us out (min x s) (max x s)) →
      (∃ com, P com ∧ P' com) ∨
      HashBroken env.cs (clientStrings env.cs A W a S ++ clientStrings env.cs A W' a' S' ++ stepStrings env.cs A)
        (clientStrings env.cs A W a S ++ clientStrings env.cs A W' a' S' ++ stepStrings env.cs A) := by
  obtain ⟨A, hA, hup, hall⟩ := C95_audited hcs hcfg hex
  refine ⟨A, hA, hup, ?_⟩
  intro W W' a a' k x s P P' S S' hW hW' hpass0 hf hpass hsaw hx hcov hkeep
  have times : ∀ V, WellFormed env.cs V → ∀ e ∈ V.map (Content.entry env.cs), e.timestamp < 2 ^ 64 := by
    intro V hV e he
    obtain ⟨c, hc, rfl⟩ := List.mem_map.1 he
    exact hV.times c hc
  -- all strings
  generalize hTT : clientStrings env.cs A W a S ++ clientStrings env.cs A W' a' S' ++ stepStrings env.cs A = TT
  have sub : ∀ s, s ∈ clientStrings env.cs A W a S ∨ s ∈ clientStrings env.cs A W' a' S' ∨ s ∈ stepStrings env.cs A →
      s ∈ TT := by
    intro s hs
    rw [← hTT, List.mem_append, List.mem_append, or_assoc]
    exact hs
  by_cases hB : HashBroken env.cs TT TT
  · exact Or.inr hB
  left
  have same : ∀ (V : List Content) (b : AuditorTreeHead) (R R' : List Bytes), WellFormed env.cs V →
      Passed env (V.map (Content.entry env.cs)) b R' → (∀ s ∈ R', s ∈ R) → (∀ s ∈ clientStrings env.cs A V b R, s ∈ TT) →
      (V.map (Content.entry env.cs)).take b.treeSize = log (A.take b.treeSize) := by
    intro V b R R' hV hP hR' hsub
    rcases hall env _ b R' rfl rfl hun (times V hV) hP with ⟨-, -, -, -, k⟩ | k
    · exact k
    · refine absurd (HashBroken.mono (Or.inl k) (fun s hs => hsub s ((mem_clientStrings ..).2 ?_))
        (fun s hs => hsub s ((mem_clientStrings ..).2 ?_))) hB
      · rcases List.mem_append.1 hs with hs | hs
        · exact Or.inr (Or.inr (Or.inl hs))
        · exact Or.inr (Or.inr (Or.inr (Or.inl hs)))
      · rcases List.mem_append.1 hs with hs | hs
        · exact Or.inl (hR' s hs)
        · exact Or.inr (Or.inr (Or.inr (Or.inr hs)))
  obtain ⟨R1, hP1, hR1⟩ := hpass0
  have p1 := same W a S R1 hW hP1 hR1 (fun s hs => sub s (Or.inl hs))
  obtain ⟨R2, hP2, hR2⟩ := hpass
  have q1 := same W' a' S' R2 hW' hP2 hR2 (fun s hs => sub s (Or.inr (Or.inl hs)))
  rcases hf with ⟨com, hP, hc, i, pr, i1, i2⟩ | kB
  swap
  · exact absurd (HashBroken.mono kB (fun s hs => sub s (Or.inl ((mem_clientStrings ..).2 (Or.inr (Or.inl hs)))))
        (fun s hs => sub s (Or.inl ((mem_clientStrings ..).2 (Or.inl hs))))) hB
  rcases hsaw with ⟨com', hP', hc'⟩ | kB
  swap
  · exact absurd (HashBroken.mono kB (fun s hs => sub s (Or.inr (Or.inl ((mem_clientStrings ..).2 (Or.inr (Or.inl hs))))))
        (fun s hs => sub s (Or.inr (Or.inl ((mem_clientStrings ..).2 (Or.inl hs)))))) hB
  have hkeep := hkeep i pr _ i1 i2
  rw [← hup] at hkeep
  have hok : ∀ u ∈ updates A, UpdateOk env.cs u := fun u hu => (durable_updates hcs hex).1.1 u (hup ▸ hu)
  have t1 : ∀ s ∈ logStrings env.cs W, s ∈ TT := fun s hs => sub s (Or.inl ((mem_clientStrings ..).2 (Or.inr (Or.inl hs))))
  have t2 : ∀ s ∈ logStrings env.cs W', s ∈ TT :=
    fun s hs => sub s (Or.inr (Or.inl ((mem_clientStrings ..).2 (Or.inr (Or.inl hs)))))
  have t3 : ∀ s ∈ stepStrings env.cs A, s ∈ TT := fun s hs => sub s (Or.inr (Or.inr hs))
  have hcom : com = com' := by
    rcases Nat.le_total x s with hle | hle
    · rw [min_eq_left hle, max_eq_right hle] at hkeep
      rcases audited_same hcs hA hok hW hW' p1 q1 hc hc' hx hcov hle hkeep t1 t2 t3 with h | h
      · exact h
      · exact absurd h hB
    · rw [min_eq_right hle, max_eq_left hle] at hkeep
      rcases audited_same hcs hA hok hW' hW q1 p1 hc' hc hcov hx hle hkeep t2 t1 t3 with h | h
      · exact h.symm
      · exact absurd h hB
  subst hcom
  exact ⟨com, hP, hP'⟩

/-- The same, where the first has found the version with a search. -/
theorem found_same {env : CEnv} (hcs : env.cs.Good) (hcfg : ConfigTyped env.cfg)
    {key : Bytes} {sign : Bytes → G Bytes} {us kept : List AuditorUpdate} {hs : List AuditorTreeHead} {au : Auditor}
    (hex : DurableExec env.cs env.cfg key sign (UpdateOk env.cs) us kept hs au) (hun : Unforged env sign hs) (label : Bytes)
    {out : Nat → Bytes} (hout : ∀ v i o pr, v < 2 ^ 32 → vrfInput label v = .ok i → env.vrfVerify i pr = .ok o → o = out v) :
    ∃ A, Chain env.cs A ∧ updates A = us ∧ ∀ (W W' : List Content) (a a' : AuditorTreeHead) (k x : Nat)
      (opening com : Bytes) (val : UpdateValue) (s : Nat) (P : Bytes → Prop) (S S' : List Bytes),
      WellFormed env.cs W → WellFormed env.cs W' →
      Finds env W label a k opening val com x S →
      (∃ R, Passed env (W'.map (Content.entry env.cs)) a' R ∧ ∀ s ∈ R, s ∈ S') →
      (k < 2 ^ 32 → (∃ com', P com' ∧ Committed W' out k com' s) ∨ HashBroken env.cs (logStrings env.cs W') S') →
      x < a.treeSize → s < a'.treeSize →
      (∀ i pr out, vrfInput label k = .ok i → env.vrfVerify i pr = .ok out → Keeps us out (min x s) (max x s)) →
      (P com ∧ k < 2 ^ 32 ∧ computeCommitment env opening label k val = .ok com) ∨
      HashBroken env.cs (clientStrings env.cs A W a S ++ clientStrings env.cs A W' a' S' ++ stepStrings env.cs A)
        (clientStrings env.cs A W a S ++ clientStrings env.cs A W' a' S' ++ stepStrings env.cs A) := by
  obtain ⟨A, hA, hup, hall⟩ := saw_same hcs hcfg hex hun label hout
  refine ⟨A, hA, hup, ?_⟩
  intro W W' a a' k x opening com val s P S S' hW hW' hf hpass hsaw hx hcov hkeep
  rcases finds_committed hcs hW hout hf with ⟨hc, hv, k32, p5⟩ | kB
  · rcases hall W W' a a' k x s (fun c => c = com) P S S' hW hW' (finds_passed hf) (Or.inl ⟨com, rfl, hc, hv⟩) hpass
      (hsaw k32) hx hcov hkeep with ⟨c, rfl, h⟩ | h
    · exact Or.inl ⟨h, k32, p5⟩
    · exact Or.inr h
  · right
    refine HashBroken.mono kB ?_ ?_ <;> intro s hs <;> rw [List.mem_append, List.mem_append, mem_clientStrings] <;> tauto

/-- **C104 (partial).**  Let the auditor be as in C95 and C97.  The owner of a label checks it, and the monitoring arrives at a new entry,
which is covered by the auditor's head and in which the owner takes `k` for the greatest version.  A client, whose tree head may be for
a different log, finds version `k`, or a smaller version `u` of the ladder for `k` (with either kind of search), at an entry that the
auditor has audited.  If the updates which the auditor has accepted between the two entries do not remove the version, then the commitment that the client has found is one that the owner has
retained for this version; and if the owner has retained only the commitment to its value `val'`, the client has found this value; or
two strings that were hashed collide (or one has the digest 0).  It does not matter which of the two entries is the earlier one.
(What is missing: the condition `Consistent` in `Finds` and `Watches`.  Without it `C60_false_value_accepted` is a counterexample.) -/
theorem C104_owners_value_partial {env : CEnv} (hcs : env.cs.Good) (hcfg : ConfigTyped env.cfg)
    (hvrf : ∀ i pr o pr' o', env.vrfVerify i pr = .ok o → env.vrfVerify i pr' = .ok o' → o = o')
    {key : Bytes} {sign : Bytes → G Bytes} {us kept : List AuditorUpdate} {hs : List AuditorTreeHead} {au : Auditor}
    (hex : DurableExec env.cs env.cfg key sign (UpdateOk env.cs) us kept hs au) (hun : Unforged env sign hs) (label : Bytes) :
    ∃ A, Chain env.cs A ∧ updates A = us ∧ ∀ (W W' : List Content) (a a' : AuditorTreeHead) (k u x : Nat)
      (opening com : Bytes) (val : UpdateValue) (versions : List RetainedVersion) (o o' : Owner) (S S' : List Bytes),
      WellFormed env.cs W → WellFormed env.cs W' →
      Finds env W label a u opening val com x S → Watches env W' label a' versions o o' S' →
      o'.starting ≠ o.starting → o'.verAtStarting = k → k < 2 ^ 32 → InLadder k u → x < a.treeSize → o'.starting < a'.treeSize →
      (∀ i pr out, vrfInput label u = .ok i → env.vrfVerify i pr = .ok out →
        Keeps us out (min x o'.starting) (max x o'.starting)) →
      ((∃ r ∈ versions, r.version = u ∧ r.commitment = some com) ∧
        ∀ (opening' : Bytes) (val' : UpdateValue),
          (∀ r ∈ versions, r.version = u → ∀ c, r.commitment = some c → computeCommitment env opening' label u val' = .ok c) →
          opening.length = opening'.length → val.Typed env.cfg → val'.Typed env.cfg →
          val = val' ∨ ∃ b b', commitmentValue label u val = .ok b ∧ commitmentValue label u val' = .ok b' ∧
            LogSpec.Collides env.cs.H (hmacInputs env.cs.H Commit.fixedBytes (opening ++ b))
              (hmacInputs env.cs.H Commit.fixedBytes (opening' ++ b'))) ∨
      HashBroken env.cs (clientStrings env.cs A W a S ++ clientStrings env.cs A W' a' S' ++ stepStrings env.cs A)
        (clientStrings env.cs A W a S ++ clientStrings env.cs A W' a' S' ++ stepStrings env.cs A) := by
  obtain ⟨out, hout⟩ := vrf_outputs hvrf label
  obtain ⟨A, hA, hup, hall⟩ := found_same hcs hcfg hex hun label hout
  refine ⟨A, hA, hup, ?_⟩
  intro W W' a a' k u x opening com val versions o o' S S' hW hW' hf hw hne hver hk32 hin hx hcov hkeep
  have hsaw : u < 2 ^ 32 → (∃ com', (∃ r ∈ versions, r.version = u ∧ r.commitment = some com') ∧
      Committed W' out u com' o'.starting) ∨ HashBroken env.cs (logStrings env.cs W') S' := by
    intro _
    rcases watches_saw hcs hW' hout hw with (rfl | ⟨-, h⟩) | h
    · exact absurd rfl hne
    · obtain ⟨r, r1, r2, com', r3, hc⟩ := ((h k hver hk32).2 u hin).1
      exact Or.inl ⟨com', ⟨r, r1, r2, r3⟩, hc⟩
    · exact Or.inr h
  rcases hall W W' a a' u x opening com val o'.starting (fun c => ∃ r ∈ versions, r.version = u ∧ r.commitment = some c) S S' hW hW' hf
    (watches_passed hw) hsaw hx hcov hkeep with ⟨⟨r, r1, r2, r3⟩, k32, p5⟩ | h
  · left
    refine ⟨⟨r, r1, r2, r3⟩, ?_⟩
    intro opening' val' hown hlen hty hty'
    have q5 := hown r r1 r2 com r3
    unfold computeCommitment at p5 q5
    obtain ⟨b, hb, p5⟩ := G.bind_eq_ok.1 p5
    obtain ⟨b', hb', q5⟩ := G.bind_eq_ok.1 q5
    have e1 := Except.ok.inj p5
    have e2 := Except.ok.inj q5
    rcases C52_binds_label_version_value env.cs env.cfg opening opening' com b b' hlen label label u u k32 k32
      val val' hty hty' hb hb' (by rw [← e1]; exact C52_opens _ _ _) (by rw [← e2]; exact C52_opens _ _ _) with
      ⟨-, -, h⟩ | h
    · exact Or.inl h
    · exact Or.inr ⟨b, b', hb, hb', h⟩
  · exact Or.inr h

/-- **C104 (partial), the new owner.**  The same for a client that becomes the owner of the label, and starts with version `k`: the
commitment that the response has for version `u` is the one that the client has found. -/
theorem C104_init_value_partial {env : CEnv} (hcs : env.cs.Good) (hcfg : ConfigTyped env.cfg)
    (hvrf : ∀ i pr o pr' o', env.vrfVerify i pr = .ok o → env.vrfVerify i pr' = .ok o' → o = o')
    {key : Bytes} {sign : Bytes → G Bytes} {us kept : List AuditorUpdate} {hs : List AuditorTreeHead} {au : Auditor}
    (hex : DurableExec env.cs env.cfg key sign (UpdateOk env.cs) us kept hs au) (hun : Unforged env sign hs) (label : Bytes) :
    ∃ A, Chain env.cs A ∧ updates A = us ∧ ∀ (W W' : List Content) (a a' : AuditorTreeHead) (k u x : Nat)
      (opening com : Bytes) (val : UpdateValue) (ladder : List Nat) (steps : List BinaryLadderStep) (o : Owner) (S S' : List Bytes),
      WellFormed env.cs W → WellFormed env.cs W' →
      Finds env W label a u opening val com x S → Starts env W' label a' ladder steps o S' →
      o.verAtStarting = k → k < 2 ^ 32 → InLadder k u → x < a.treeSize → o.starting < a'.treeSize →
      (∀ i pr out, vrfInput label u = .ok i → env.vrfVerify i pr = .ok out →
        Keeps us out (min x o.starting) (max x o.starting)) →
      (∃ step, (u, step) ∈ ladder.zip steps ∧ step.commitment = some com) ∨
      HashBroken env.cs (clientStrings env.cs A W a S ++ clientStrings env.cs A W' a' S' ++ stepStrings env.cs A)
        (clientStrings env.cs A W a S ++ clientStrings env.cs A W' a' S' ++ stepStrings env.cs A) := by
  obtain ⟨out, hout⟩ := vrf_outputs hvrf label
  obtain ⟨A, hA, hup, hall⟩ := found_same hcs hcfg hex hun label hout
  refine ⟨A, hA, hup, ?_⟩
  intro W W' a a' k u x opening com val ladder steps o S S' hW hW' hf hw hver hk32 hin hx hcov hkeep
  have hsaw : u < 2 ^ 32 → (∃ com', (∃ step, (u, step) ∈ ladder.zip steps ∧ step.commitment = some com') ∧
      Committed W' out u com' o.starting) ∨ HashBroken env.cs (logStrings env.cs W') S' := by
    intro _
    rcases starts_saw hcs hW' hout hw with ⟨-, h⟩ | h
    · obtain ⟨step, com', r1, r2, hc⟩ := ((h k hver hk32).2 u hin).1
      exact Or.inl ⟨com', ⟨step, r1, r2⟩, hc⟩
    · exact Or.inr h
  rcases hall W W' a a' u x opening com val o.starting (fun c => ∃ step, (u, step) ∈ ladder.zip steps ∧ step.commitment = some c) S S'
    hW hW' hf (starts_passed hw) hsaw hx hcov hkeep with ⟨h, -⟩ | h
  · exact Or.inl h
  · exact Or.inr h

/-- the hypotheses hold for the auditor, the client and the owner of C103; the owner has retained the commitment to the value `[2]`,
with the opening `[9]` -/
example : ∃ us kept hs au S S', DurableExec toySuite auditedEnv.cfg [1] .ok (UpdateOk toySuite) us kept hs au ∧
    Unforged oneClient .ok hs ∧ WellFormed toySuite oneLog ∧ WellFormed toySuite oneLog' ∧
    Finds oneClient oneLog [20] ⟨5, 1, auditedTbs⟩ 0 [9] ⟨[2], none⟩ [134] 0 S ∧
    Watches oneClient oneLog' [20] ⟨6, 2, oneTbs⟩ ownedVersions ⟨0, 0, []⟩ ⟨1, 0, []⟩ S' ∧ (∀ o, Keeps us o 0 1) ∧
    (∀ r ∈ ownedVersions, r.version = 0 → ∀ c, r.commitment = some c →
      computeCommitment oneClient [9] [20] 0 ⟨[2], none⟩ = .ok c) ∧ UpdateValue.Typed auditedEnv.cfg ⟨[2], none⟩ := by
  obtain ⟨us, kept, hs, au, S, S', h1, h2, -, -, -, h6, h7, h8, h9, h10⟩ := one_case
  obtain ⟨S'', h11⟩ := owned_second
  refine ⟨us, kept, hs, au, S, S'', h1, h2, h6, h7, h8, h11, h10, ?_, ?_⟩
  · intro r hr hv c hc
    simp only [ownedVersions, List.mem_cons, List.not_mem_nil, or_false] at hr
    rcases hr with rfl | rfl
    · cases hc
      decide +kernel
    · cases hv
  · simp [UpdateValue.Typed, SuffixTyped, auditedEnv, toyEnv, thirdPartyAuditing, thirdPartyManagement]

/-- versions 0, 1 and 3 are in the ladder for 4, version 2 is not -/
example : InLadder 4 4 ∧ InLadder 4 3 ∧ InLadder 4 1 ∧ InLadder 4 0 ∧ ¬ InLadder 4 2 := by
  have h : baseBinaryLadder 4 = .ok [0, 1, 3, 7, 5, 4] := by decide +kernel
  refine ⟨.inl rfl, .inr ⟨by decide, _, h, by decide⟩, .inr ⟨by decide, _, h, by decide⟩, .inr ⟨by decide, _, h, by decide⟩, ?_⟩
  rintro (h2 | ⟨-, l, hl, h2⟩)
  · cases h2
  · rw [h] at hl
    cases hl
    exact absurd h2 (by decide)

/-- the hypotheses of the second theorem: the client of the first, and one that becomes the owner of the label at entry 1; the step for
version 0 has the commitment that the client has found -/
example : ∃ us kept hs au S S', DurableExec toySuite auditedEnv.cfg [1] .ok (UpdateOk toySuite) us kept hs au ∧
    Unforged oneClient .ok hs ∧ WellFormed toySuite oneLog ∧ WellFormed toySuite oneLog' ∧
    Finds oneClient oneLog [20] ⟨5, 1, auditedTbs⟩ 0 [9] ⟨[2], none⟩ [134] 0 S ∧
    Starts oneClient oneLog' [20] ⟨6, 2, oneTbs⟩ [0, 1] [⟨[], some [134]⟩, ⟨[], none⟩] ⟨1, 0, []⟩ S' ∧ ∀ o, Keeps us o 0 1 := by
  obtain ⟨us, kept, hs, au, S, S', h1, h2, -, -, -, h6, h7, h8, h9, h10⟩ := one_case
  obtain ⟨S'', h11⟩ := start_second
  exact ⟨us, kept, hs, au, S, S'', h1, h2, h6, h7, h8, h11, h10⟩

end Katie.Props
