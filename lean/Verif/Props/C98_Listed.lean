import Verif.Props.C97_OneValue
import Verif.Lemmas.PrefixExact

/-
C98: the contents of an audited log are exactly what the updates shown to the auditor say.
C99: every value that a client accepts was shown to the auditor.
-/

namespace Katie.AuditSpec
open Katie Katie.Wire Katie.Audit

/-- What the updates `us` say about the contents of entry `y`, given those of entry `x` (the pairs `S`): the pair `e` of a VRF output
and a commitment was in `S` and no update after entry `x`, up to entry `y`, has removed it; or the update for an entry after `x`, up
to `y`, has added it, and none after that one has removed it. -/
def Listed (us : List AuditorUpdate) (S : List PrefixSpec.Pair) (x y : Nat) (e : PrefixSpec.Pair) : Prop :=
  (e ∈ S ∧ Keeps us e.1 x y) ∨ ∃ z u, x < z ∧ z ≤ y ∧ us[z]? = some u ∧ (∃ a ∈ u.added, (a.vrf, a.com) = e) ∧ Keeps us e.1 z y

end Katie.AuditSpec

namespace Katie.Props
open Katie Katie.Wire Katie.Alg Katie.Audit Katie.AuditSpec Katie.SearchSpec Katie.Client Katie.CommittedSpec

theorem opens_uncache {cs : Log.Suite} {I : List Bytes} {e : PrefixSpec.Pair} {hs : Nat} (n : Prefix.Node) : ∀ p, n.Sized hs →
    Prefix.Opens cs I (fun _ i => i = none) e p (n.cacheHashes cs) → Prefix.Opens cs I (fun h _ => h = none) e p n := by
  induction n with
  | empty => intro p _ h; exact h
  | leaf v c => intro p _ h; exact h
  | ext h i => intro p _ h; exact h
  | parent l r hh i ihl ihr =>
    intro p hsz h
    obtain ⟨rfl, h1, h2⟩ := hsz
    obtain ⟨h3, h4⟩ := h
    refine ⟨rfl, ?_⟩
    split
    · next hb => rw [if_pos hb] at h4; exact ihr _ h2 h4
    · next hb => rw [if_neg hb] at h4; exact ihl _ h1 h4

/-- Whatever an update is, if its proof leads from the root of the map `S` to the root of the map `T`, then `T` contains exactly what
the update says: what was in `S` and is not removed, and what is added; or hash inputs collide or have an all-zero digest. -/
theorem C98_step {cs : Log.Suite} (hcs : cs.Good) (u : AuditorUpdate) (hu : UpdateOk cs u) {S T : List PrefixSpec.Pair}
    (hS : PrefixSpec.IsMap cs.hashSize S) (hT : PrefixSpec.IsMap cs.hashSize T)
    (hev : Prefix.evaluateBeforeAfter cs u.added u.removed u.proof =
      .ok (PrefixSpec.rootHash cs.H cs.hashSize S, PrefixSpec.rootHash cs.H cs.hashSize T)) {X : List Bytes}
    (hX : ∀ s ∈ verifierInputs cs (u.added ++ u.removed) u.proof ++ afterInputs cs u.added u.removed u.proof ++
      PrefixSpec.rootInputs cs.H cs.hashSize S ++ PrefixSpec.rootInputs cs.H cs.hashSize T, s ∈ X) :
    (∀ e, e ∈ T ↔ e ∈ (batchOf u).apply S) ∨ HashBroken cs X X := by
  by_cases hB : HashBroken cs X X
  · exact Or.inr hB
  left
  have hev0 := hev
  unfold Prefix.evaluateBeforeAfter at hev
  obtain ⟨n, hn, h⟩ := G.bind_eq_ok.mp hev
  obtain ⟨n', hadd, h⟩ := G.bind_eq_ok.mp h
  obtain ⟨hbefore, hafter⟩ := Prod.mk.inj (Except.ok.inj h)
  have hin : verifierInputs cs (u.added ++ u.removed) u.proof = n.inputs cs := by unfold verifierInputs; rw [hn]
  have hin' : afterInputs cs u.added u.removed u.proof = n'.inputs cs := by
    unfold afterInputs; rw [hn]; simp only; rw [hadd]
  have X1 : ∀ s ∈ n.inputs cs, s ∈ X := fun s hs => hX s (by rw [hin]; simp [hs])
  have X2 : ∀ s ∈ n'.inputs cs, s ∈ X := fun s hs => hX s (by rw [hin']; simp [hs])
  have X3 : ∀ s ∈ PrefixSpec.rootInputs cs.H cs.hashSize S, s ∈ X := fun s hs => hX s (by simp [hs])
  have X4 : ∀ s ∈ PrefixSpec.rootInputs cs.H cs.hashSize T, s ∈ X := fun s hs => hX s (by simp [hs])
  have app : ∀ {A B : List Bytes}, (∀ s ∈ A, s ∈ X) → (∀ s ∈ B, s ∈ X) → ∀ s ∈ A ++ B, s ∈ X := by
    intro A B ha hb s hs
    rcases List.mem_append.1 hs with hs | hs
    · exact ha s hs
    · exact hb s hs
  have bad : ∀ {A B : List Bytes}, Prefix.Bad cs A B → (∀ s ∈ A, s ∈ X) → (∀ s ∈ B, s ∈ X) → False :=
    fun h ha hb => hB (Prefix.Bad.mono h ha hb)
  obtain ⟨n1, -, n3, -, -⟩ := Prefix.evaluate_spec (wireProof_of hu) hn
  have wS := (Prefix.wf_root_iff _ _).mpr hS
  have wT := (Prefix.wf_root_iff _ _).mpr hT
  have hids := Prefix.evaluate_noIds hn
  have hfine := Prefix.fine_cacheHashes (cs := cs) n (Prefix.fine_of_sized n n1 hids)
  have hA : Prefix.Here Prefix.Entry.vrf cs.hashSize [] (Prefix.sortBy Prefix.Entry.vrf u.added) :=
    ⟨Prefix.sortBy_sorted _, fun a ha => n3 a (List.mem_append_left _ ((Prefix.sortBy_perm _).mem_iff.mp ha)),
      fun _ _ => Prefix.on_nil _⟩
  have hR : Prefix.Here id cs.hashSize [] (Prefix.sortBy id (u.removed.map Prefix.Entry.vrf)) := by
    refine ⟨Prefix.sortBy_sorted _, fun a ha => ?_, fun _ _ => Prefix.on_nil _⟩
    obtain ⟨x, hx, rfl⟩ := List.mem_map.1 ((Prefix.sortBy_perm _).mem_iff.mp ha)
    exact n3 x (List.mem_append_right _ hx)
  have hlen' := Prefix.addRemove_hashLen hcs _ _ _ _ _ _ (Prefix.hashLen_cacheHashes hcs n (Prefix.hashLen_of_sized n n1)) hadd
  have hroute : Prefix.Routed [] (n.cacheHashes cs) := by
    apply Prefix.routed_cacheHashes
    rcases Prefix.routed_of_hash hcs n [] S X wS n1 (by rw [hbefore, Prefix.trieHash_root]) X3 with h | h
    · exact h
    · exact (bad h X1 (fun _ h => h)).elim
  obtain ⟨s1, s2⟩ := Prefix.addRemove_sized _ _ _ _ _ _ hA.len hadd hfine
  intro e
  rw [PrefixSpec.Batch.apply, List.mem_append, List.mem_filter, decide_eq_true_iff]
  constructor
  · intro he
    rcases Prefix.opens_of_hash hcs (I := PrefixSpec.rootInputs cs.H cs.hashSize T) n' [] T wT he s1 s2
      (by rw [hafter, Prefix.trieHash_root]) (fun _ h => h) with ho | h
    swap
    · exact (bad h X2 X4).elim
    rcases Prefix.opens_addRemove (p := []) _ _ _ _ _ hA hR hadd hroute hfine ho with ⟨x, hx, rfl⟩ | ⟨h1, h2⟩
    · right
      exact List.mem_map.2 ⟨x, (Prefix.sortBy_perm _).mem_iff.mp hx, rfl⟩
    · left
      rcases Prefix.mem_of_opens hcs (J := PrefixSpec.rootInputs cs.H cs.hashSize S) (hT.len e he).1 n [] S wS (by simp)
        (Prefix.hashLen_of_sized n n1) (opens_uncache n [] n1 h2) (by rw [hbefore, Prefix.trieHash_root]) (fun _ h => h) with hm | h
      · exact ⟨hm, fun hr => h1 ((Prefix.sortBy_perm _).mem_iff.mpr hr)⟩
      · exact (bad h (app X1 X4) X3).elim
  · rintro (⟨he, hr⟩ | he)
    · rcases step_keeps hcs u hu hS hT hev0 he hr with h | h
      · exact h
      · refine (bad h ?_ (app X3 X4)).elim
        rw [hin, hin']
        exact app (app X1 X2) X3
    · obtain ⟨x, hx, rfl⟩ := List.mem_map.1 he
      have hx' := (Prefix.sortBy_perm (key := Prefix.Entry.vrf) u.added).mem_iff.mpr hx
      have ho := Prefix.addRemove_adds (I := []) (p := []) _ _ _ _ _ hA hx' hadd
      rcases Prefix.mem_of_opens hcs (J := PrefixSpec.rootInputs cs.H cs.hashSize T) (hA.len x hx') n' [] T wT (by simp) hlen' ho
        (by rw [hafter, Prefix.trieHash_root]) (fun _ h => h) with hm | h
      · exact hm
      · exact (bad h (app X2 (by simp)) X4).elim

theorem keeps_self (us : List AuditorUpdate) (o : Bytes) (x : Nat) : Keeps us o x x := fun z u h1 h2 => by omega

theorem keeps_succ {us : List AuditorUpdate} {o : Bytes} {x y : Nat} {u : AuditorUpdate} (hu : us[y + 1]? = some u) (h : x ≤ y) :
    Keeps us o x (y + 1) ↔ Keeps us o x y ∧ o ∉ u.removed.map (fun e => e.vrf) := by
  constructor
  · intro k
    exact ⟨fun z v h1 h2 => k z v h1 (by omega), k _ u (by omega) (le_refl _) hu⟩
  · rintro ⟨k1, k2⟩ z v h1 h2 hv
    by_cases hz : z = y + 1
    · subst hz
      rw [hu] at hv
      obtain rfl := Option.some.inj hv
      exact k2
    · exact k1 z v h1 (by omega) hv

theorem listed_succ {us : List AuditorUpdate} {S : List PrefixSpec.Pair} {x y : Nat} {e : PrefixSpec.Pair} {u : AuditorUpdate}
    (hu : us[y + 1]? = some u) (h : x ≤ y) :
    Listed us S x (y + 1) e ↔ (Listed us S x y e ∧ e.1 ∉ u.removed.map (fun e => e.vrf)) ∨ ∃ a ∈ u.added, (a.vrf, a.com) = e := by
  unfold Listed
  constructor
  · rintro (⟨h1, h2⟩ | ⟨z, v, h1, h2, h3, h4, h5⟩)
    · obtain ⟨k1, k2⟩ := (keeps_succ hu h).1 h2
      exact Or.inl ⟨Or.inl ⟨h1, k1⟩, k2⟩
    · by_cases hz : z = y + 1
      · subst hz
        rw [hu] at h3
        obtain rfl := Option.some.inj h3
        exact Or.inr h4
      · obtain ⟨k1, k2⟩ := (keeps_succ hu (by omega)).1 h5
        exact Or.inl ⟨Or.inr ⟨z, v, h1, by omega, h3, h4, k1⟩, k2⟩
  · rintro (⟨⟨h1, h2⟩ | ⟨z, v, h1, h2, h3, h4, h5⟩, k⟩ | h1)
    · exact Or.inl ⟨h1, (keeps_succ hu h).2 ⟨h2, k⟩⟩
    · exact Or.inr ⟨z, v, h1, by omega, h3, h4, (keeps_succ hu h2).2 ⟨h5, k⟩⟩
    · exact Or.inr ⟨y + 1, u, by omega, le_refl _, hu, h1, keeps_self _ _ _⟩

/-- In the audited part of a log, the contents of an entry are what the updates say. -/
theorem audited_listed {cs : Log.Suite} (hcs : cs.Good) {A : List Audited} (hA : Chain cs A)
    (hus : ∀ u ∈ updates A, UpdateOk cs u) {W : List Content} (hW : WellFormed cs W) {k : Nat}
    (hk : (W.map (Content.entry cs)).take k = log (A.take k)) {x : Nat} {c : Content} (hc : W[x]? = some c) :
    ∀ d c', x + d < k → W[x + d]? = some c' →
    (∀ e, e ∈ c'.map ↔ Listed (updates A) c.map x (x + d) e) ∨
      HashBroken cs (logStrings cs W ++ stepStrings cs A) (logStrings cs W ++ stepStrings cs A) := by
  intro d
  induction d with
  | zero =>
    intro c' _ hc'
    rw [Nat.add_zero, hc] at hc'
    obtain rfl := Option.some.inj hc'
    left
    intro e
    constructor
    · intro h; exact Or.inl ⟨h, keeps_self _ _ _⟩
    · rintro (⟨h, -⟩ | ⟨z, u, h1, h2, -⟩)
      · exact h
      · omega
  | succ d ih =>
    intro c2 h1 hc2
    have hl := (List.getElem?_eq_some_iff.1 hc2).1
    obtain ⟨c', hc'⟩ : ∃ c', W[x + d]? = some c' := ⟨_, List.getElem?_eq_getElem (by omega)⟩
    rcases ih c' (by omega) hc' with hm | hB
    swap
    · exact Or.inr hB
    obtain ⟨p, hp, hpe⟩ := audited_entry hk (by omega) hc'
    obtain ⟨q, hq, hqe⟩ := audited_entry hk h1 hc2
    have hev := chain_step hA _ _ _ hp hq
    rw [hpe, hqe] at hev
    have hu : (updates A)[x + d + 1]? = some q.update := by
      unfold updates
      rw [List.getElem?_map, show x + d + 1 = x + (d + 1) by omega, hq]
      rfl
    rcases C98_step hcs q.update (hus _ (List.mem_of_getElem? hu)) (hW.maps _ (List.mem_of_getElem? hc'))
      (hW.maps _ (List.mem_of_getElem? hc2)) hev (X := logStrings cs W ++ stepStrings cs A) (by
        intro s hs
        rcases List.mem_append.1 hs with hs | hs
        · rcases List.mem_append.1 hs with hs | hs
          · exact List.mem_append_right _ (mem_stepStrings hq hs)
          · exact List.mem_append_left _ (mem_logStrings hc' hs)
        · exact List.mem_append_left _ (mem_logStrings hc2 hs)) with k | k
    swap
    · exact Or.inr k
    left
    intro e
    rw [k e, show x + (d + 1) = x + d + 1 by omega, listed_succ hu (by omega), ← hm e, PrefixSpec.Batch.apply, List.mem_append,
      List.mem_filter, decide_eq_true_iff]
    unfold batchOf
    simp only [List.mem_map]

/-- **C98.**  Let the auditor be as in C95, with signatures that can not be forged.  In the log of every client that accepts a head
of this auditor, as far as it was audited, the contents of an entry are exactly those that the updates say which the auditor was
shown (`us`), starting from the contents of any earlier entry: nothing was added, changed or removed without being listed, and
nothing is listed that did not happen.  Otherwise two strings that were hashed collide, or one has the digest 0. -/
theorem C98_listed {env : CEnv} (hcs : env.cs.Good) (hcfg : ConfigTyped env.cfg)
    {key : Bytes} {sign : Bytes → G Bytes} {us kept : List AuditorUpdate} {hs : List AuditorTreeHead} {au : Auditor}
    (hex : DurableExec env.cs env.cfg key sign (UpdateOk env.cs) us kept hs au) (hun : Unforged env sign hs) :
    ∃ A, Chain env.cs A ∧ updates A = us ∧ ∀ (W : List Content) (a : AuditorTreeHead) (S : List Bytes) (x y : Nat) (c c' : Content),
      WellFormed env.cs W → Passed env (W.map (Content.entry env.cs)) a S →
      x ≤ y → y < a.treeSize → W[x]? = some c → W[y]? = some c' →
      (∀ e, e ∈ c'.map ↔ Listed us c.map x y e) ∨
      HashBroken env.cs (clientStrings env.cs A W a S ++ stepStrings env.cs A)
        (clientStrings env.cs A W a S ++ stepStrings env.cs A) := by
  obtain ⟨A, hA, hup, hall⟩ := C95_audited hcs hcfg hex
  refine ⟨A, hA, hup, ?_⟩
  intro W a S x y c c' hW hP hxy hy hc hc'
  have times : ∀ e ∈ W.map (Content.entry env.cs), e.timestamp < 2 ^ 64 := by
    intro e he
    obtain ⟨c, hc, rfl⟩ := List.mem_map.1 he
    exact hW.times c hc
  rcases hall env _ a S rfl rfl hun times hP with ⟨-, -, -, -, hk⟩ | k
  swap
  · right
    refine HashBroken.mono (Or.inl k) (fun s hs => List.mem_append_left _ ((mem_clientStrings ..).2 ?_))
      (fun s hs => List.mem_append_left _ ((mem_clientStrings ..).2 ?_))
    · rcases List.mem_append.1 hs with hs | hs
      · exact Or.inr (Or.inr (Or.inl hs))
      · exact Or.inr (Or.inr (Or.inr (Or.inl hs)))
    · rcases List.mem_append.1 hs with hs | hs
      · exact Or.inl hs
      · exact Or.inr (Or.inr (Or.inr (Or.inr hs)))
  obtain ⟨d, rfl⟩ : ∃ d, y = x + d := ⟨y - x, by omega⟩
  rcases audited_listed hcs hA (fun u hu => (durable_updates hcs hex).1.1 u (hup ▸ hu)) hW hk hc d c' hy hc' with h | h
  · left
    rw [hup] at h
    exact h
  · right
    have sub : ∀ s ∈ logStrings env.cs W ++ stepStrings env.cs A, s ∈ clientStrings env.cs A W a S ++ stepStrings env.cs A := by
      intro s hs
      rcases List.mem_append.1 hs with hs | hs
      · exact List.mem_append_left _ ((mem_clientStrings ..).2 (Or.inr (Or.inl hs)))
      · exact List.mem_append_right _ hs
    exact HashBroken.mono h sub sub

/-- **C99 (partial).**  Every value that a client accepts was shown to the auditor: its commitment was in the first entry, or an
update that the auditor has accepted lists it as added, for this label and version; and no later update, up to the entry where the
client has found it, lists it as removed.  (What is missing: the condition `Consistent` in `Finds`, as in C97.) -/
theorem C99_accepted_partial {env : CEnv} (hcs : env.cs.Good) (hcfg : ConfigTyped env.cfg)
    (hvrf : ∀ i pr o pr' o', env.vrfVerify i pr = .ok o → env.vrfVerify i pr' = .ok o' → o = o')
    {key : Bytes} {sign : Bytes → G Bytes} {us kept : List AuditorUpdate} {hs : List AuditorTreeHead} {au : Auditor}
    (hex : DurableExec env.cs env.cfg key sign (UpdateOk env.cs) us kept hs au) (hun : Unforged env sign hs) (label : Bytes) :
    ∃ A, Chain env.cs A ∧ updates A = us ∧ ∀ (W : List Content) (a : AuditorTreeHead) (t x : Nat) (o com : Bytes) (val : UpdateValue)
      (S : List Bytes), WellFormed env.cs W → Finds env W label a t o val com x S → x < a.treeSize →
      (∃ c i pr out, W[0]? = some c ∧ vrfInput label t = .ok i ∧ env.vrfVerify i pr = .ok out ∧
        computeCommitment env o label t val = .ok com ∧ Listed us c.map 0 x (out, com)) ∨
      HashBroken env.cs (clientStrings env.cs A W a S ++ stepStrings env.cs A)
        (clientStrings env.cs A W a S ++ stepStrings env.cs A) := by
  obtain ⟨A, hA, hup, hall⟩ := C98_listed hcs hcfg hex hun
  refine ⟨A, hA, hup, ?_⟩
  intro W a t x o com val S hW hF hx
  obtain ⟨out, hout⟩ := vrf_outputs hvrf label
  rcases finds_committed hcs hW hout hF with ⟨⟨c', hc', hm⟩, ⟨i, pr, h1, h2⟩, -, h3⟩ | k
  swap
  · right
    exact HashBroken.mono k (fun s hs => List.mem_append_left _ ((mem_clientStrings ..).2 (Or.inr (Or.inl hs))))
      (fun s hs => List.mem_append_left _ ((mem_clientStrings ..).2 (Or.inl hs)))
  have hl := (List.getElem?_eq_some_iff.1 hc').1
  obtain ⟨c, hc⟩ : ∃ c, W[0]? = some c := ⟨_, List.getElem?_eq_getElem (by omega)⟩
  obtain ⟨S', hP, hS'⟩ := finds_passed hF
  rcases hall W a S' 0 x c c' hW hP (by omega) hx hc hc' with k | k
  · exact Or.inl ⟨c, i, pr, out t, hc, h1, h2, h3, (k _).1 hm⟩
  · right
    have sub : ∀ s ∈ clientStrings env.cs A W a S' ++ stepStrings env.cs A, s ∈ clientStrings env.cs A W a S ++ stepStrings env.cs A := by
      intro s hs
      rcases List.mem_append.1 hs with hs | hs
      · refine List.mem_append_left _ ((mem_clientStrings ..).2 ?_)
        rcases (mem_clientStrings ..).1 hs with hs | hs
        · exact Or.inl (hS' s hs)
        · exact Or.inr hs
      · exact List.mem_append_right _ hs
    exact HashBroken.mono k sub sub

/-- the hypotheses of the theorems are met in the example of C97; the client has a log of two entries, both audited -/
example : ∃ us kept hs au S, DurableExec toySuite auditedEnv.cfg [1] .ok (UpdateOk toySuite) us kept hs au ∧
    Unforged oneClient .ok hs ∧ us = [toyU1, toyU2] ∧ WellFormed toySuite oneLog' ∧
    Passed oneClient (oneLog'.map (Content.entry toySuite)) ⟨6, 2, oneTbs⟩ S ∧ oneLog'.length = 2 := by
  obtain ⟨us, kept, hs, au, S, S', h1, h2, h3, h4, h5, h6, h7, h8, h9, -⟩ := one_case
  obtain ⟨S'', h, -⟩ := finds_passed ⟨_, h9⟩
  exact ⟨us, kept, hs, au, S'', h1, h2, h3, h7, h, rfl⟩

/-- the change of the second example of C97: entry 1 contains what entry 0 contains, and what the second update adds -/
example : Listed [toyU1, toyU2] (PrefixSpec.contents [batchOf toyU1]) 0 1 ([71], [134]) ∧
    ¬ Listed [toyU1, toyU2] (PrefixSpec.contents [batchOf toyU1]) 0 1 ([71], [135]) := by
  have hu : [toyU1, toyU2][0 + 1]? = some toyU2 := rfl
  rw [listed_succ hu (le_refl _), listed_succ hu (le_refl _)]
  refine ⟨Or.inl ⟨Or.inl ⟨by decide, keeps_self _ _ _⟩, by decide⟩, ?_⟩
  rintro (⟨⟨h, -⟩ | ⟨z, u, h1, h2, -⟩, -⟩ | h)
  · revert h; decide
  · omega
  · revert h; decide

end Katie.Props
