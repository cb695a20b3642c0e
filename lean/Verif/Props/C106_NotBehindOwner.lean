import Verif.Props.C105_OwnersAgree

/-
C106: in an audited log no client is told that a version is the greatest one, if the owner of the label knows of a greater one.

(C103 is the converse: no client finds a version that is greater than the one that the owner knows of.)  The owner and the client may
have tree heads of different logs; they accept heads of the same auditor.
-/

namespace Katie.Props
open Katie Katie.Wire Katie.Alg Katie.Audit Katie.AuditSpec Katie.SearchSpec Katie.Client Katie.CommittedSpec
  Katie.Ladder Katie.SearchTree

theorem findsBy_greatest {env : CEnv} {W : List Content} {label : Bytes} {a : AuditorTreeHead} {t : Nat} {opening : Bytes}
    {val : UpdateValue} {com : Bytes} {x : Nat} {S : List Bytes} {out : Nat → Bytes} (hcs : env.cs.Good) (hW : WellFormed env.cs W)
    (hvrf : ∀ v i o pr, v < 2 ^ 32 → vrfInput label v = .ok i → env.vrfVerify i pr = .ok o → o = out v)
    (hf : FindsBy env W label a true t opening val com x S) :
    SawGreatest W out (W.length - 1) t ∨ HashBroken env.cs (logStrings env.cs W) S := by
  rcases finds_saw hcs hW hvrf hf with ⟨t32, hpos, ⟨l, hl⟩, -, hlast⟩ | k
  · exact Or.inl ⟨by omega, Or.inr ⟨t, l, Int.le_refl _, t32, hl, hlast rfl l hl⟩⟩
  · exact Or.inr k

/-- **C106 (partial).**  Let the auditor be as in C95 and C97.  An owner of a label (whose monitoring has arrived at a new entry, or who has
just become the owner) takes `k` for the greatest version in its entry, which is covered by the auditor's head.  A client, whose tree
head may be for a different log, is told that `t` is the greatest version, in a log that contains an entry in the owner's position and
all of which is covered by a head of the same auditor.  If no update that the auditor has accepted removes a version of the label, then
`k ≤ t`: the answer is not older than what the owner knows of; and if the owner's entry is the last one of the client's log, then both know of the same
version; or two strings that were hashed collide (or one has the digest 0).
(What is missing: the condition `Consistent` in `FindsBy`, `Watches` and `Starts`.  Without it the claim is false, see
`C60_stale_accepted`.) -/
theorem C106_not_behind_partial {env : CEnv} (hcs : env.cs.Good) (hcfg : ConfigTyped env.cfg)
    (hvrf : ∀ i pr o pr' o', env.vrfVerify i pr = .ok o → env.vrfVerify i pr' = .ok o' → o = o')
    {key : Bytes} {sign : Bytes → G Bytes} {us kept : List AuditorUpdate} {hs : List AuditorTreeHead} {au : Auditor}
    (hex : DurableExec env.cs env.cfg key sign (UpdateOk env.cs) us kept hs au) (hun : Unforged env sign hs) (label : Bytes) :
    ∃ A, Chain env.cs A ∧ updates A = us ∧ ∀ (W W' : List Content) (a a' : AuditorTreeHead) (k t x : Nat) (o : Owner)
      (opening com : Bytes) (val : UpdateValue) (S S' : List Bytes),
      WellFormed env.cs W → WellFormed env.cs W' →
      Owns env W label a o S → FindsBy env W' label a' true t opening val com x S' →
      o.verAtStarting = k → k < 2 ^ 32 → o.starting < a.treeSize → o.starting < W'.length → W'.length ≤ a'.treeSize →
      (∀ v i pr out, vrfInput label v = .ok i → env.vrfVerify i pr = .ok out → Keeps us out 0 (W'.length - 1)) →
      (k ≤ t ∧ (o.starting + 1 = W'.length → t = k)) ∨
      HashBroken env.cs (clientStrings env.cs A W a S ++ clientStrings env.cs A W' a' S' ++ stepStrings env.cs A)
        (clientStrings env.cs A W a S ++ clientStrings env.cs A W' a' S' ++ stepStrings env.cs A) := by
  obtain ⟨out, hout⟩ := vrf_outputs hvrf label
  obtain ⟨A, hA, hup, hall⟩ := saw_learns hcs hcfg hex hun label hout
  refine ⟨A, hA, hup, ?_⟩
  intro W W' a a' k t x o opening com val S S' hW hW' ho hf hk hk32 hx hxW hcov hkeep
  have s1 := owns_saw hcs hW hout ho
  have p2 := finds_passed ⟨_, hf⟩
  have h1 := hall W W' a a' k o.starting (W'.length - 1) t S S' hW hW' (owns_passed ho)
    (s1.imp_left fun h => h.2 k hk hk32) p2 (findsBy_greatest hcs hW' hout hf) hx (by omega) (by omega) hkeep
  rcases h1 with h1 | h1
  swap
  · exact Or.inr h1
  by_cases he : o.starting + 1 = W'.length
  swap
  · exact Or.inl ⟨by omega, fun h => absurd h he⟩
  have swap : ∀ s ∈ clientStrings env.cs A W' a' S' ++ clientStrings env.cs A W a S ++ stepStrings env.cs A,
      s ∈ clientStrings env.cs A W a S ++ clientStrings env.cs A W' a' S' ++ stepStrings env.cs A := by
    intro s hs
    simp only [List.mem_append] at hs ⊢
    tauto
  rcases finds_committed hcs hW' hout ⟨_, hf⟩ with ⟨⟨c, hc, -⟩, -⟩ | kB
  swap
  · refine Or.inr (HashBroken.mono kB ?_ ?_) <;> intro s hs <;>
      rw [List.mem_append, List.mem_append, mem_clientStrings, mem_clientStrings] <;> tauto
  have hxl : x < W'.length := (List.getElem?_eq_some_iff.1 hc).1
  have h2 := hall W' W a' a t x o.starting o.verAtStarting S' S hW' hW p2 (finds_low hcs hW' hout ⟨_, hf⟩) (owns_passed ho)
    (s1.imp_left And.left) (by omega) (by omega) hx (by rw [show o.starting = W'.length - 1 by omega]; exact hkeep)
  rcases h2 with h2 | h2
  · exact Or.inl ⟨by omega, fun _ => by omega⟩
  · exact Or.inr (HashBroken.mono h2 swap swap)

/-- the updates determine the history of the auditor -/
theorem chain_unique {cs : Log.Suite} {A B : List Audited} (hA : Chain cs A) (hB : Chain cs B) (h : updates A = updates B) : A = B := by
  induction hA generalizing B with
  | nil =>
    cases hB with
    | nil => rfl
    | snoc => simp [updates] at h
  | snoc h1 h2 h3 h4 ih =>
    cases hB with
    | nil => simp [updates] at h
    | snoc g1 g2 g3 g4 =>
      simp only [updates, List.map_append, List.map_cons, List.map_nil] at h
      obtain ⟨e1, e2⟩ := List.append_inj' h rfl
      obtain rfl := List.cons.inj e2 |>.1
      rw [h3] at g3
      obtain ⟨-, rfl⟩ := Prod.mk.inj (Except.ok.inj g3)
      rw [ih g1 e1]

/-- **C106 (partial), the value.**  If the owner's entry is the last one of the client's log, the client is told the version that the owner
takes for the greatest one, and finds a commitment that the owner has for it: it has retained it, or, if it has just become the owner,
it was in the response. -/
theorem C106_same_value_partial {env : CEnv} (hcs : env.cs.Good) (hcfg : ConfigTyped env.cfg)
    (hvrf : ∀ i pr o pr' o', env.vrfVerify i pr = .ok o → env.vrfVerify i pr' = .ok o' → o = o')
    {key : Bytes} {sign : Bytes → G Bytes} {us kept : List AuditorUpdate} {hs : List AuditorTreeHead} {au : Auditor}
    (hex : DurableExec env.cs env.cfg key sign (UpdateOk env.cs) us kept hs au) (hun : Unforged env sign hs) (label : Bytes) :
    ∃ A, Chain env.cs A ∧ updates A = us ∧ ∀ (W W' : List Content) (a a' : AuditorTreeHead) (k t x : Nat) (o : Owner)
      (K : Nat → Bytes → Prop) (opening com : Bytes) (val : UpdateValue) (S S' : List Bytes),
      WellFormed env.cs W → WellFormed env.cs W' →
      Knows env W label a o K S → FindsBy env W' label a' true t opening val com x S' →
      o.verAtStarting = k → k < 2 ^ 32 → o.starting < a.treeSize → o.starting + 1 = W'.length → W'.length ≤ a'.treeSize →
      (∀ v i pr out, vrfInput label v = .ok i → env.vrfVerify i pr = .ok out → Keeps us out 0 (W'.length - 1)) →
      (t = k ∧ K t com ∧ computeCommitment env opening label t val = .ok com) ∨
      HashBroken env.cs (clientStrings env.cs A W a S ++ clientStrings env.cs A W' a' S' ++ stepStrings env.cs A)
        (clientStrings env.cs A W a S ++ clientStrings env.cs A W' a' S' ++ stepStrings env.cs A) := by
  obtain ⟨out, hout⟩ := vrf_outputs hvrf label
  obtain ⟨A, hA, hup, hall⟩ := C106_not_behind_partial hcs hcfg hvrf hex hun label
  obtain ⟨B, hB, hup', hall'⟩ := saw_same hcs hcfg hex hun label hout
  obtain rfl := chain_unique hA hB (hup.trans hup'.symm)
  refine ⟨A, hA, hup, ?_⟩
  intro W W' a a' k t x o K opening com val S S' hW hW' ho hf hk hk32 hx hend hcov hkeep
  rcases hall W W' a a' k t x o opening com val S S' hW hW' (knows_owns ho) hf hk hk32 hx (by omega) hcov hkeep with
    ⟨-, h⟩ | h
  swap
  · exact Or.inr h
  obtain rfl := h hend
  rcases finds_committed hcs hW' hout ⟨_, hf⟩ with ⟨hc, -, -, p5⟩ | kB
  swap
  · refine Or.inr (HashBroken.mono kB ?_ ?_) <;> intro s hs <;>
      rw [List.mem_append, List.mem_append, mem_clientStrings, mem_clientStrings] <;> tauto
  have hxl : x < W'.length := by
    obtain ⟨c, hc, -⟩ := hc
    exact (List.getElem?_eq_some_iff.1 hc).1
  rcases hall' W W' a a' t o.starting x (K t) (fun c => c = com) S S' hW hW' (owns_passed (knows_owns ho))
    (knows_saw hcs hW hout ho hk hk32 (Or.inl rfl)) (finds_passed ⟨_, hf⟩) (Or.inl ⟨com, rfl, hc⟩) hx (by omega)
    (fun i pr out h1 h2 z u h3 h4 h5 => hkeep t i pr out h1 h2 z u (by omega) (by omega) h5) with ⟨c, h1, rfl⟩ | h
  · exact Or.inl ⟨rfl, h1, p5⟩
  · exact Or.inr h

/-- the hypotheses hold for the auditor of C103, the owner whose monitoring has gone from entry 0 to entry 1, and a client that is told that
version 0 is the greatest one in the log of two entries -/
example : ∃ us kept hs au S S', DurableExec toySuite auditedEnv.cfg [1] .ok (UpdateOk toySuite) us kept hs au ∧
    Unforged oneClient .ok hs ∧ WellFormed toySuite oneLog' ∧
    Owns oneClient oneLog' [20] ⟨6, 2, oneTbs⟩ ⟨1, 0, []⟩ S ∧
    Knows oneClient oneLog' [20] ⟨6, 2, oneTbs⟩ ⟨1, 0, []⟩ (fun u com => ∃ r ∈ ownedVersions, r.version = u ∧ r.commitment = some com) S ∧
    FindsBy oneClient oneLog' [20] ⟨6, 2, oneTbs⟩ true 0 [9] ⟨[2], none⟩ [134] 1 S' ∧ oneLog'.length = 2 ∧
    ∀ o, Keeps us o 0 (oneLog'.length - 1) := by
  obtain ⟨us, kept, hs, au, -, S', h1, h2, -, -, -, -, h7, -, h9, h10⟩ := one_case
  obtain ⟨S, h11⟩ := owned_second
  exact ⟨us, kept, hs, au, S, S', h1, h2, h7, Or.inl ⟨_, _, h11, Nat.one_ne_zero⟩,
    Or.inl ⟨_, _, h11, Nat.one_ne_zero, fun _ _ => Iff.rfl⟩, h9, rfl, h10⟩

end Katie.Props
