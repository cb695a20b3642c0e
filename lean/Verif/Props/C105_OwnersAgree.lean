import Verif.Props.C104_OwnersValue

/-
C105: in an audited log the owners of a label agree about its greatest version.

A label can have several owners (several devices; or an old and a new owner).  They may have tree heads of different logs; they accept
heads of the same auditor.  Nothing is assumed about which versions of the label the logs contain.
-/

namespace Katie.AuditSpec
open Katie Katie.Wire Katie.Alg Katie.Audit Katie.SearchSpec Katie.Client Katie.CommittedSpec

/-- `Owns env W label a o S`: the client is the owner of `label`, with the state `o`, after it has checked the log `W` (with the auditor's
head `a`): either the monitoring has arrived at a new entry, or the client has just become the owner.  It has hashed the strings `S`. -/
def Owns (env : CEnv) (W : List Content) (label : Bytes) (a : AuditorTreeHead) (o : Owner) (S : List Bytes) : Prop :=
  (∃ versions old, Watches env W label a versions old o S ∧ o.starting ≠ old.starting) ∨
  ∃ ladder steps, Starts env W label a ladder steps o S

/-- `Knows env W label a o K S`: the same, and `K u com` says that the owner has the commitment `com` for version `u`: it has retained it, or,
if it has just become the owner, it was in the response. -/
def Knows (env : CEnv) (W : List Content) (label : Bytes) (a : AuditorTreeHead) (o : Owner) (K : Nat → Bytes → Prop)
    (S : List Bytes) : Prop :=
  (∃ versions old, Watches env W label a versions old o S ∧ o.starting ≠ old.starting ∧
    ∀ u com, K u com ↔ ∃ r ∈ versions, r.version = u ∧ r.commitment = some com) ∨
  ∃ ladder steps, Starts env W label a ladder steps o S ∧
    ∀ u com, K u com ↔ ∃ step, (u, step) ∈ ladder.zip steps ∧ step.commitment = some com

end Katie.AuditSpec

namespace Katie.Props
open Katie Katie.Wire Katie.Alg Katie.Audit Katie.AuditSpec Katie.SearchSpec Katie.Client Katie.CommittedSpec
  Katie.Ladder Katie.SearchTree

theorem owns_passed {env : CEnv} {W : List Content} {label : Bytes} {a : AuditorTreeHead} {o : Owner} {S : List Bytes}
    (h : Owns env W label a o S) : ∃ S', Passed env (W.map (Content.entry env.cs)) a S' ∧ ∀ s ∈ S', s ∈ S := by
  rcases h with ⟨_, _, h, -⟩ | ⟨_, _, h⟩
  · exact watches_passed h
  · exact starts_passed h

theorem owns_saw {env : CEnv} {W : List Content} {label : Bytes} {a : AuditorTreeHead} {o : Owner} {S : List Bytes}
    {out : Nat → Bytes} (hcs : env.cs.Good) (hW : WellFormed env.cs W)
    (hvrf : ∀ v i o pr, v < 2 ^ 32 → vrfInput label v = .ok i → env.vrfVerify i pr = .ok o → o = out v)
    (h : Owns env W label a o S) :
    (SawGreatest W out o.starting o.verAtStarting ∧
      ∀ k : Nat, o.verAtStarting = k → k < 2 ^ 32 → SawLow env label W out o.starting k) ∨
    HashBroken env.cs (logStrings env.cs W) S := by
  have low : ∀ k : Nat, k < 2 ^ 32 → (∃ l, baseBinaryLadder k = .ok l) →
      (∀ u, InLadder k u → (∃ com, Committed W out u com o.starting) ∧
        ∃ i pr, vrfInput label u = .ok i ∧ env.vrfVerify i pr = .ok (out u)) → SawLow env label W out o.starting k := by
    intro k h32 hl hc
    refine ⟨h32, hl, ?_⟩
    intro p v q hb hv
    have hin : InLadder k v := by
      rcases Nat.eq_or_lt_of_le hv with e | e
      · exact Or.inl e
      · exact Or.inr ⟨e, _, hb, by simp⟩
    obtain ⟨⟨com, c1⟩, c2⟩ := hc v hin
    exact ⟨o.starting, v, com, Nat.le_refl _, Or.inl rfl, c1, c2⟩
  rcases h with ⟨_, _, h, hne⟩ | ⟨_, _, h⟩
  · rcases watches_saw hcs hW hvrf h with (rfl | ⟨h1, h2⟩) | h
    · exact absurd rfl hne
    · refine Or.inl ⟨h1, fun k hk h32 => low k h32 (h2 k hk h32).1 fun u hu => ?_⟩
      obtain ⟨⟨_, _, _, com, _, c1⟩, c2⟩ := (h2 k hk h32).2 u hu
      exact ⟨⟨com, c1⟩, c2⟩
    · exact Or.inr h
  · rcases starts_saw hcs hW hvrf h with ⟨h1, h2⟩ | h
    · refine Or.inl ⟨h1, fun k hk h32 => low k h32 (h2 k hk h32).1 fun u hu => ?_⟩
      obtain ⟨⟨_, com, _, _, c1⟩, c2⟩ := (h2 k hk h32).2 u hu
      exact ⟨⟨com, c1⟩, c2⟩
    · exact Or.inr h

/-- **C105 (partial).**  Let the auditor be as in C95 and C97.  Two owners of a label, whose tree heads may be for different logs, have
arrived at entries which are covered by the auditor's heads, the second not left of the first.  If no update that the auditor has
accepted removes a version of the label, then the greatest version that the first owner knows of is not greater than the one that the second owner
knows of; and if they are in the same entry, both have the same greatest version; or two strings that were hashed collide (or one has
the digest 0).
(What is missing: the condition `Consistent` in `Watches` and `Starts`.  Without it the claim is false, see `C70_hidden_accepted`.) -/
theorem C105_owners_agree_partial {env : CEnv} (hcs : env.cs.Good) (hcfg : ConfigTyped env.cfg)
    (hvrf : ∀ i pr o pr' o', env.vrfVerify i pr = .ok o → env.vrfVerify i pr' = .ok o' → o = o')
    {key : Bytes} {sign : Bytes → G Bytes} {us kept : List AuditorUpdate} {hs : List AuditorTreeHead} {au : Auditor}
    (hex : DurableExec env.cs env.cfg key sign (UpdateOk env.cs) us kept hs au) (hun : Unforged env sign hs) (label : Bytes) :
    ∃ A, Chain env.cs A ∧ updates A = us ∧ ∀ (W W' : List Content) (a a' : AuditorTreeHead) (k : Nat) (o o' : Owner)
      (S S' : List Bytes),
      WellFormed env.cs W → WellFormed env.cs W' → Owns env W label a o S → Owns env W' label a' o' S' →
      o.verAtStarting = k → k < 2 ^ 32 → o'.verAtStarting < 2 ^ 32 →
      o.starting < a.treeSize → o'.starting < a'.treeSize → o.starting ≤ o'.starting →
      (∀ v i pr out, vrfInput label v = .ok i → env.vrfVerify i pr = .ok out → Keeps us out 0 o'.starting) →
      ((k : Int) ≤ o'.verAtStarting ∧ (o.starting = o'.starting → o'.verAtStarting = k)) ∨
      HashBroken env.cs (clientStrings env.cs A W a S ++ clientStrings env.cs A W' a' S' ++ stepStrings env.cs A)
        (clientStrings env.cs A W a S ++ clientStrings env.cs A W' a' S' ++ stepStrings env.cs A) := by
  obtain ⟨out, hout⟩ := vrf_outputs hvrf label
  obtain ⟨A, hA, hup, hall⟩ := saw_learns hcs hcfg hex hun label hout
  refine ⟨A, hA, hup, ?_⟩
  intro W W' a a' k o o' S S' hW hW' ho ho' hk hk32 hk32' hx hx' hle hkeep
  have s1 := owns_saw hcs hW hout ho
  have s2 := owns_saw hcs hW' hout ho'
  have h1 := hall W W' a a' k o.starting o'.starting o'.verAtStarting S S' hW hW' (owns_passed ho)
    (s1.imp_left fun h => h.2 k hk hk32) (owns_passed ho') (s2.imp_left And.left) hx hle hx' hkeep
  rcases h1 with h1 | h1
  swap
  · exact Or.inr h1
  obtain ⟨k', hk'⟩ : ∃ k' : Nat, o'.verAtStarting = k' := ⟨o'.verAtStarting.toNat, by omega⟩
  by_cases he : o.starting = o'.starting
  swap
  · exact Or.inl ⟨h1, fun h => absurd h he⟩
  have h2 := hall W' W a' a k' o'.starting o.starting o.verAtStarting S' S hW' hW (owns_passed ho')
    (s2.imp_left fun h => h.2 k' hk' (by omega)) (owns_passed ho) (s1.imp_left And.left) hx' (by omega) hx
    (by rw [he]; exact hkeep)
  rcases h2 with h2 | h2
  · exact Or.inl ⟨h1, fun _ => by omega⟩
  · refine Or.inr (HashBroken.mono h2 ?_ ?_) <;>
    · intro s hs
      simp only [List.mem_append] at hs ⊢
      tauto

theorem knows_owns {env : CEnv} {W : List Content} {label : Bytes} {a : AuditorTreeHead} {o : Owner} {K : Nat → Bytes → Prop}
    {S : List Bytes} (h : Knows env W label a o K S) : Owns env W label a o S := by
  rcases h with ⟨_, _, h, hne, -⟩ | ⟨_, _, h, -⟩
  · exact Or.inl ⟨_, _, h, hne⟩
  · exact Or.inr ⟨_, _, h⟩

theorem knows_saw {env : CEnv} {W : List Content} {label : Bytes} {a : AuditorTreeHead} {o : Owner} {K : Nat → Bytes → Prop}
    {S : List Bytes} {out : Nat → Bytes} (hcs : env.cs.Good) (hW : WellFormed env.cs W)
    (hvrf : ∀ v i o pr, v < 2 ^ 32 → vrfInput label v = .ok i → env.vrfVerify i pr = .ok o → o = out v)
    (h : Knows env W label a o K S) {k u : Nat} (hk : o.verAtStarting = k) (h32 : k < 2 ^ 32) (hu : InLadder k u) :
    (∃ com, K u com ∧ Committed W out u com o.starting ∧
      ∃ i pr, vrfInput label u = .ok i ∧ env.vrfVerify i pr = .ok (out u)) ∨ HashBroken env.cs (logStrings env.cs W) S := by
  rcases h with ⟨_, _, h, hne, hK⟩ | ⟨_, _, h, hK⟩
  · rcases watches_saw hcs hW hvrf h with (rfl | ⟨-, h2⟩) | h
    · exact absurd rfl hne
    · obtain ⟨⟨r, r1, r2, com, r3, c1⟩, c2⟩ := (h2 k hk h32).2 u hu
      exact Or.inl ⟨com, (hK _ _).2 ⟨r, r1, r2, r3⟩, c1, c2⟩
    · exact Or.inr h
  · rcases starts_saw hcs hW hvrf h with ⟨-, h2⟩ | h
    · obtain ⟨⟨step, com, r1, r2, c1⟩, c2⟩ := (h2 k hk h32).2 u hu
      exact Or.inl ⟨com, (hK _ _).2 ⟨step, r1, r2⟩, c1, c2⟩
    · exact Or.inr h

/-- **C105 (partial), the values.**  Two owners of a label are as in the first theorem, in any two entries; version `u` is in both their ladders
(it is the greatest version, or a smaller one of the ladder).  If the updates which the auditor has accepted between the two entries do not
remove version `u`, both owners have the same commitment for it; or two strings that were hashed collide (or one has the digest 0). -/
theorem C105_owners_value_partial {env : CEnv} (hcs : env.cs.Good) (hcfg : ConfigTyped env.cfg)
    (hvrf : ∀ i pr o pr' o', env.vrfVerify i pr = .ok o → env.vrfVerify i pr' = .ok o' → o = o')
    {key : Bytes} {sign : Bytes → G Bytes} {us kept : List AuditorUpdate} {hs : List AuditorTreeHead} {au : Auditor}
    (hex : DurableExec env.cs env.cfg key sign (UpdateOk env.cs) us kept hs au) (hun : Unforged env sign hs) (label : Bytes) :
    ∃ A, Chain env.cs A ∧ updates A = us ∧ ∀ (W W' : List Content) (a a' : AuditorTreeHead) (k k' u : Nat) (o o' : Owner)
      (K K' : Nat → Bytes → Prop) (S S' : List Bytes),
      WellFormed env.cs W → WellFormed env.cs W' → Knows env W label a o K S → Knows env W' label a' o' K' S' →
      o.verAtStarting = k → k < 2 ^ 32 → InLadder k u → o'.verAtStarting = k' → k' < 2 ^ 32 → InLadder k' u →
      o.starting < a.treeSize → o'.starting < a'.treeSize →
      (∀ i pr out, vrfInput label u = .ok i → env.vrfVerify i pr = .ok out →
        Keeps us out (min o.starting o'.starting) (max o.starting o'.starting)) →
      (∃ com, K u com ∧ K' u com) ∨
      HashBroken env.cs (clientStrings env.cs A W a S ++ clientStrings env.cs A W' a' S' ++ stepStrings env.cs A)
        (clientStrings env.cs A W a S ++ clientStrings env.cs A W' a' S' ++ stepStrings env.cs A) := by
  obtain ⟨out, hout⟩ := vrf_outputs hvrf label
  obtain ⟨A, hA, hup, hall⟩ := saw_same hcs hcfg hex hun label hout
  refine ⟨A, hA, hup, ?_⟩
  intro W W' a a' k k' u o o' K K' S S' hW hW' ho ho' hk hk32 hu hk' hk32' hu' hx hx' hkeep
  refine hall W W' a a' u o.starting o'.starting (K u) (K' u) S S' hW hW' (owns_passed (knows_owns ho))
    (knows_saw hcs hW hout ho hk hk32 hu) (owns_passed (knows_owns ho')) ?_ hx hx' hkeep
  rcases knows_saw hcs hW' hout ho' hk' hk32' hu' with ⟨com, h1, h2, -⟩ | h
  · exact Or.inl ⟨com, h1, h2⟩
  · exact Or.inr h

/-- the hypotheses hold for the auditor of C103, the owner whose monitoring has gone from entry 0 to entry 1, and the one that becomes the
owner at entry 1; both have the greatest version 0 -/
example : ∃ us kept hs au S S', DurableExec toySuite auditedEnv.cfg [1] .ok (UpdateOk toySuite) us kept hs au ∧
    Unforged oneClient .ok hs ∧ WellFormed toySuite oneLog' ∧
    Watches oneClient oneLog' [20] ⟨6, 2, oneTbs⟩ ownedVersions ⟨0, 0, []⟩ ⟨1, 0, []⟩ S ∧
    Owns oneClient oneLog' [20] ⟨6, 2, oneTbs⟩ ⟨1, 0, []⟩ S ∧
    Starts oneClient oneLog' [20] ⟨6, 2, oneTbs⟩ [0, 1] [⟨[], some [134]⟩, ⟨[], none⟩] ⟨1, 0, []⟩ S' ∧
    Owns oneClient oneLog' [20] ⟨6, 2, oneTbs⟩ ⟨1, 0, []⟩ S' ∧ ∀ o, Keeps us o 0 1 := by
  obtain ⟨us, kept, hs, au, -, -, h1, h2, -, -, -, -, h7, -, -, h10⟩ := one_case
  obtain ⟨S, h11⟩ := owned_second
  obtain ⟨S', h12⟩ := start_second
  exact ⟨us, kept, hs, au, S, S', h1, h2, h7, h11, Or.inl ⟨_, _, h11, Nat.one_ne_zero⟩, h12, Or.inr ⟨_, _, h12⟩, h10⟩

/-- the same owners with the commitments that they know: the first has retained `[134]` for version 0, and the second was given it -/
example : ∃ us kept hs au S S', DurableExec toySuite auditedEnv.cfg [1] .ok (UpdateOk toySuite) us kept hs au ∧
    Unforged oneClient .ok hs ∧ WellFormed toySuite oneLog' ∧
    Knows oneClient oneLog' [20] ⟨6, 2, oneTbs⟩ ⟨1, 0, []⟩ (fun u com => ∃ r ∈ ownedVersions, r.version = u ∧ r.commitment = some com) S ∧
    Knows oneClient oneLog' [20] ⟨6, 2, oneTbs⟩ ⟨1, 0, []⟩
      (fun u com => ∃ step, (u, step) ∈ [0, 1].zip [⟨[], some [134]⟩, ⟨[], none⟩] ∧ BinaryLadderStep.commitment step = some com) S' ∧
    InLadder 0 0 ∧ ∀ o, Keeps us o 0 1 := by
  obtain ⟨us, kept, hs, au, -, -, h1, h2, -, -, -, -, h7, -, -, h10⟩ := one_case
  obtain ⟨S, h11⟩ := owned_second
  obtain ⟨S', h12⟩ := start_second
  exact ⟨us, kept, hs, au, S, S', h1, h2, h7, Or.inl ⟨_, _, h11, Nat.one_ne_zero, fun _ _ => Iff.rfl⟩,
    Or.inr ⟨_, _, h12, fun _ _ => Iff.rfl⟩, Or.inl rfl, h10⟩

end Katie.Props
