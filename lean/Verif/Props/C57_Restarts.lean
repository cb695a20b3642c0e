import Verif.Props.C31_C35_Auditor

/-
C57 when writes to the database may fail: under which condition on the restarts an auditor does not equivocate.
-/

namespace Katie.AuditSpec
open Katie Katie.Wire Katie.Audit

/-- the database covers all the heads that were returned -/
def Durable (kept : List AuditorUpdate) (hs : List AuditorTreeHead) : Prop := ∀ h ∈ hs, h.treeSize ≤ kept.length

/-- The executions of an auditor whose database may fail at any time, in which the auditor is restarted only when the database
covers all the heads that were returned (it is never restarted, for example). -/
inductive DurableExec (cs : Log.Suite) (cfg : Config) (key : Bytes) (sign : Bytes → G Bytes) (U : AuditorUpdate → Prop) :
    List AuditorUpdate → List AuditorUpdate → List AuditorTreeHead → Auditor → Prop
  | start {a : Auditor} : newAuditor cs.hashSize cfg key none = .ok a → DurableExec cs cfg key sign U [] [] [] a
  | update {us kept : List AuditorUpdate} {hs : List AuditorTreeHead} {a : Auditor} {u : AuditorUpdate} :
      DurableExec cs cfg key sign U us kept hs a → U u → size a.state + 1 < 2 ^ 64 →
      DurableExec cs cfg key sign U (extended us u (process cs cfg u a).1) kept hs (process cs cfg u a).2
  | commit {us kept : List AuditorUpdate} {hs : List AuditorTreeHead} {a : Auditor} (put : Bytes → G Unit) :
      DurableExec cs cfg key sign U us kept hs a →
      DurableExec cs cfg key sign U us (keptAfter us kept a (Audit.commit cs cfg sign put a).2)
        (hs ++ returned (Audit.commit cs cfg sign put a).1) (Audit.commit cs cfg sign put a).2
  | restart {us kept : List AuditorUpdate} {hs : List AuditorTreeHead} {a b : Auditor} :
      DurableExec cs cfg key sign U us kept hs a → Durable kept hs → newAuditor cs.hashSize cfg key a.stored = .ok b →
      DurableExec cs cfg key sign U kept kept hs b

/-- The executions of an auditor whose database may fail at any time, which is restarted at any time, and at once whenever
`Commit` has failed. -/
inductive RecoveringExec (cs : Log.Suite) (cfg : Config) (key : Bytes) (sign : Bytes → G Bytes) (U : AuditorUpdate → Prop) :
    List AuditorUpdate → List AuditorUpdate → List AuditorTreeHead → Auditor → Prop
  | start {a : Auditor} : newAuditor cs.hashSize cfg key none = .ok a → RecoveringExec cs cfg key sign U [] [] [] a
  | update {us kept : List AuditorUpdate} {hs : List AuditorTreeHead} {a : Auditor} {u : AuditorUpdate} :
      RecoveringExec cs cfg key sign U us kept hs a → U u → size a.state + 1 < 2 ^ 64 →
      RecoveringExec cs cfg key sign U (extended us u (process cs cfg u a).1) kept hs (process cs cfg u a).2
  | commit {us kept : List AuditorUpdate} {hs : List AuditorTreeHead} {a : Auditor} {th : AuditorTreeHead} (put : Bytes → G Unit) :
      RecoveringExec cs cfg key sign U us kept hs a → (Audit.commit cs cfg sign put a).1 = .ok th →
      RecoveringExec cs cfg key sign U us (keptAfter us kept a (Audit.commit cs cfg sign put a).2) (hs ++ [th])
        (Audit.commit cs cfg sign put a).2
  | failed {us kept : List AuditorUpdate} {hs : List AuditorTreeHead} {a b : Auditor} (put : Bytes → G Unit) :
      RecoveringExec cs cfg key sign U us kept hs a → (Audit.commit cs cfg sign put a).1.isOk = false →
      newAuditor cs.hashSize cfg key (Audit.commit cs cfg sign put a).2.stored = .ok b →
      RecoveringExec cs cfg key sign U kept kept hs b
  | restart {us kept : List AuditorUpdate} {hs : List AuditorTreeHead} {a b : Auditor} :
      RecoveringExec cs cfg key sign U us kept hs a → newAuditor cs.hashSize cfg key a.stored = .ok b →
      RecoveringExec cs cfg key sign U kept kept hs b

end Katie.AuditSpec

namespace Katie.Props
open Katie Katie.Wire Katie.Audit Katie.AuditSpec Katie.SearchSpec Katie.PrefixSpec

/-- the invariant: as `Audit.One`, but heads may lie beyond what the database knows -/
structure One' (cs : Log.Suite) (cfg : Config) (sign : Bytes → G Bytes) (us kept : List AuditorUpdate)
    (hs : List AuditorTreeHead) (a : Auditor) (A : List Audited) (k : Nat) : Prop where
  le : k ≤ A.length
  us : updates A = us
  kept : updates (A.take k) = kept
  state : AuditsO cs cfg sign A a.state
  stored : Stored cs cfg sign (A.take k) a.stored
  heads : ∀ h ∈ hs, ∃ m, m ≤ A.length ∧ HeadOf cs cfg sign (log (A.take m)) h

theorem keptAfter_written {cs : Log.Suite} (hcs : cs.Good) {cfg : Config} {sign : Bytes → G Bytes} {us kept : List AuditorUpdate}
    {a : Auditor} {A : List Audited} {k : Nat} {s : AState} {raw : Bytes} (hus : updates A = us) (hk : updates (A.take k) = kept)
    (hst : Stored cs cfg sign (A.take k) a.stored) (hB : Audits cs cfg sign A s) (hsig : s.signature.isSome)
    (hm : s.marshal = .ok raw) : keptAfter us kept a ⟨some s, some raw⟩ = us := by
  unfold keptAfter
  split
  · next he =>
    simp only at he
    rw [← he] at hst
    obtain ⟨s0, h1, h2, h3⟩ := hst
    have d1 := (codec_state cs.hashSize).rt s0 raw [] (h1.typed hcs h2) h3
    have d2 := (codec_state cs.hashSize).rt _ raw [] (hB.typed hcs hsig) hm
    rw [d1] at d2
    have e := (Prod.mk.inj (Except.ok.inj d2)).1
    have e1 := h1.desc.size
    have e2 := hB.desc.size
    rw [e, e2, log_length, log_length, List.length_take] at e1
    rw [← hk, List.take_of_length_le (by omega), hus]
  · rfl

theorem durable_one {cs : Log.Suite} (hcs : cs.Good) {cfg : Config} {key : Bytes} {sign : Bytes → G Bytes}
    {us kept : List AuditorUpdate} {hs : List AuditorTreeHead} {a : Auditor}
    (h : DurableExec cs cfg key sign (UpdateOk cs) us kept hs a) : ∃ A k, One' cs cfg sign us kept hs a A k := by
  induction h with
  | start h =>
    obtain ⟨h1, h2, -⟩ := newAuditor_ok h
    exact ⟨[], 0, le_refl _, rfl, rfl, by rw [h2 rfl]; rfl, by rw [h1]; rfl, by simp⟩
  | @update us kept hs a u _ hu hn ih =>
    obtain ⟨A, k, ih⟩ := ih
    unfold process
    cases hp : processed cs cfg a.state u with
    | error e => exact ⟨A, k, ih⟩
    | ok s =>
      have hstep := audits_step hcs ih.state hu hn hp
      have htake : ∀ m, m ≤ A.length → (A ++ [(⟨u, ⟨u.timestamp, s.prefixTree⟩⟩ : Audited)]).take m = A.take m :=
        fun m hm => List.take_append_of_le_length hm
      refine ⟨_, k, ?_, ?_, by rw [htake k ih.le]; exact ih.kept, hstep, by rw [htake k ih.le]; exact ih.stored, ?_⟩
      · rw [List.length_append]; have := ih.le; omega
      · have := ih.us
        unfold updates at *
        rw [List.map_append, this]; rfl
      · intro h hm
        obtain ⟨m, hm1, hm2⟩ := ih.heads h hm
        exact ⟨m, by rw [List.length_append]; omega, by rw [htake m hm1]; exact hm2⟩
  | @commit us kept hs a put _ ih =>
    obtain ⟨A, k, ih⟩ := ih
    have keep : One' cs cfg sign us (keptAfter us kept a a) (hs ++ []) a A k := by
      refine ⟨ih.le, ih.us, ?_, ih.state, ih.stored, by simpa using ih.heads⟩
      rw [keptAfter, if_pos rfl]; exact ih.kept
    have hA := ih.state
    unfold Audit.commit
    cases hs' : a.state with
    | none => exact ⟨A, k, keep⟩
    | some s =>
      rw [hs'] at hA
      have hA' : Audits cs cfg sign A s := hA
      simp only
      cases hsig : s.signature with
      | some sig =>
        refine ⟨A, k, keep.le, keep.us, keep.kept, keep.state, keep.stored, ?_⟩
        intro h hm
        rcases List.mem_append.1 hm with hm | hm
        · exact ih.heads h hm
        · rw [returned, List.mem_singleton] at hm
          subst hm
          exact ⟨A.length, le_refl _, by rw [List.take_length]; exact hA'.head sig hsig⟩
      | none =>
        simp only
        cases hts : toSign cs cfg s >>= sign with
        | error e => exact ⟨A, k, keep⟩
        | ok sig =>
          have hB := hA'.sign hcs hts
          simp only
          have keep' : One' cs cfg sign us (keptAfter us kept a { a with state := some { s with signature := some sig } })
              (hs ++ []) { a with state := some { s with signature := some sig } } A k := by
            refine ⟨ih.le, ih.us, ?_, hB, ih.stored, by simpa using ih.heads⟩
            rw [keptAfter, if_pos rfl]; exact ih.kept
          cases hm : AState.marshal { s with signature := some sig } with
          | error e => exact ⟨A, k, keep'⟩
          | ok raw =>
            simp only
            cases hp : put raw with
            | error e => exact ⟨A, k, keep'⟩
            | ok x =>
              simp only
              refine ⟨A, A.length, le_refl _, ih.us, ?_, hB, ⟨_, by rw [List.take_length]; exact hB, rfl, hm⟩, ?_⟩
              · rw [keptAfter_written hcs ih.us ih.kept ih.stored hB rfl hm, List.take_length]; exact ih.us
              · intro h hmem
                rcases List.mem_append.1 hmem with hmem | hmem
                · exact ih.heads h hmem
                · rw [returned, List.mem_singleton] at hmem
                  subst hmem
                  exact ⟨A.length, le_refl _, by rw [List.take_length]; exact hB.head sig rfl⟩
  | @restart us kept hs a b _ hd hb ih =>
    obtain ⟨A, k, ih⟩ := ih
    obtain ⟨h1, h2⟩ := restart_audits hcs ih.stored hb
    have hl : (A.take k).length = k := by rw [List.length_take]; have := ih.le; omega
    have hkl : kept.length = k := by rw [← ih.kept]; unfold updates; rw [List.length_map, hl]
    refine ⟨A.take k, k, by omega, ih.kept, by rw [List.take_take, Nat.min_self]; exact ih.kept, h1, ?_, ?_⟩
    · rw [List.take_take, Nat.min_self, (newAuditor_ok hb).1]; exact ih.stored
    · intro h hm
      obtain ⟨m, hm1, hm2⟩ := ih.heads h hm
      have h3 := hd h hm
      have h4 := hm2.2.1
      rw [log_length, List.length_take] at h4
      have : m ≤ k := by omega
      exact ⟨m, by omega, by rw [List.take_take, Nat.min_eq_left this]; exact hm2⟩

/-- **C57, writes may fail.**  If the auditor is only restarted when the database covers all the heads that were returned, all
heads that it ever returns are heads of prefixes of one append-only history. -/
theorem C57_one_log_durable {cs : Log.Suite} (hcs : cs.Good) {cfg : Config} {key : Bytes} {sign : Bytes → G Bytes}
    {us kept : List AuditorUpdate} {hs : List AuditorTreeHead} {a : Auditor}
    (h : DurableExec cs cfg key sign (UpdateOk cs) us kept hs a) :
    ∃ A, Chain cs A ∧ ∀ th ∈ hs, ∃ m, m ≤ A.length ∧ HeadOf cs cfg sign (log (A.take m)) th := by
  obtain ⟨A, k, hO⟩ := durable_one hcs h
  exact ⟨A, hO.state.desc.2.2, hO.heads⟩

/-- and it never returns two different heads for the same tree size -/
theorem C57_no_equivocation_durable {cs : Log.Suite} (hcs : cs.Good) {cfg : Config} {key : Bytes} {sign : Bytes → G Bytes}
    {us kept : List AuditorUpdate} {hs : List AuditorTreeHead} {a : Auditor}
    (h : DurableExec cs cfg key sign (UpdateOk cs) us kept hs a)
    (h₁ h₂ : AuditorTreeHead) (hm₁ : h₁ ∈ hs) (hm₂ : h₂ ∈ hs) (hsize : h₁.treeSize = h₂.treeSize) : h₁ = h₂ := by
  obtain ⟨A, -, hA⟩ := C57_one_log_durable hcs h
  obtain ⟨m, hm, -, a2, a3, tbs, a4, a5⟩ := hA h₁ hm₁
  obtain ⟨m', hm', -, b2, b3, tbs', b4, b5⟩ := hA h₂ hm₂
  rw [log_length, List.length_take] at a2 b2
  have hmm : m = m' := by omega
  subst hmm
  have ht : h₁.timestamp = h₂.timestamp := by rw [a3, b3]
  rw [ht, hsize, b4] at a4
  cases a4
  rw [b5] at a5
  cases h₁; cases h₂
  simp_all

theorem updates_length (A : List Audited) : (updates A).length = A.length := by unfold updates; rw [List.length_map]

/-- An auditor that is restarted whenever `Commit` fails is only restarted when the database covers all heads returned. -/
theorem recovering_durable {cs : Log.Suite} (hcs : cs.Good) {cfg : Config} {key : Bytes} {sign : Bytes → G Bytes}
    {us kept : List AuditorUpdate} {hs : List AuditorTreeHead} {a : Auditor}
    (h : RecoveringExec cs cfg key sign (UpdateOk cs) us kept hs a) :
    DurableExec cs cfg key sign (UpdateOk cs) us kept hs a ∧ Durable kept hs ∧
    (∀ s, a.state = some s → s.signature.isSome → kept.length = us.length) := by
  induction h with
  | start h =>
    obtain ⟨h1, h2, -⟩ := newAuditor_ok h
    exact ⟨.start h, by simp [Durable], fun s hs => by rw [h2 rfl] at hs; cases hs⟩
  | @update us kept hs a u _ hu hn ih =>
    obtain ⟨i1, i2, i3⟩ := ih
    refine ⟨i1.update hu hn, i2, ?_⟩
    obtain ⟨A, k, hO⟩ := durable_one hcs i1
    unfold process
    cases hp : processed cs cfg a.state u with
    | error e => exact i3
    | ok s =>
      intro s' hs' hsig
      cases hs'
      obtain ⟨_, _, _, _, _, _, _, _, _, _, _, _, h9, _⟩ := processed_sound hcs hO.state.desc.1 hO.state.desc.2.1
        (by rw [← hO.state.desc.1.size_eq]; exact hn) hu hp
      rw [h9] at hsig
      cases hsig
  | @commit us kept hs a th put _ hok ih =>
    obtain ⟨i1, i2, i3⟩ := ih
    have hd := i1.commit put
    rw [hok] at hd
    refine ⟨hd, ?_⟩
    obtain ⟨A, k, hO⟩ := durable_one hcs i1
    have hA := hO.state
    clear hd
    have hul : us.length = A.length := by rw [← hO.us, updates_length]
    have hkl : kept.length ≤ A.length := by
      rw [← hO.kept, updates_length, List.length_take]
      omega
    unfold Audit.commit at hok ⊢
    cases hs' : a.state with
    | none => rw [hs'] at hok; cases hok
    | some s =>
      rw [hs'] at hok hA
      have hA' : Audits cs cfg sign A s := hA
      simp only at hok ⊢
      cases hsig : s.signature with
      | some sig =>
        rw [hsig] at hok
        simp only at hok ⊢
        cases hok
        have hl := i3 s hs' (by rw [hsig]; rfl)
        rw [keptAfter, if_pos rfl]
        refine ⟨?_, i3⟩
        intro h hm
        rcases List.mem_append.1 hm with hm | hm
        · exact i2 h hm
        · rw [List.mem_singleton] at hm
          subst hm
          have := hA'.desc.size
          rw [log_length] at this
          simp only
          omega
      | none =>
        rw [hsig] at hok
        simp only at hok ⊢
        cases hts : toSign cs cfg s >>= sign with
        | error e => rw [hts] at hok; cases hok
        | ok sig =>
          rw [hts] at hok
          have hB := hA'.sign hcs hts
          simp only at hok ⊢
          cases hm : AState.marshal { s with signature := some sig } with
          | error e => rw [hm] at hok; cases hok
          | ok raw =>
            rw [hm] at hok
            simp only at hok ⊢
            cases hp : put raw with
            | error e => rw [hp] at hok; cases hok
            | ok x =>
              rw [hp] at hok
              simp only at hok ⊢
              cases hok
              rw [keptAfter_written hcs hO.us hO.kept hO.stored hB rfl hm]
              refine ⟨?_, fun _ _ _ => rfl⟩
              intro h hmem
              rcases List.mem_append.1 hmem with hmem | hmem
              · have := i2 h hmem
                omega
              · rw [List.mem_singleton] at hmem
                subst hmem
                have := hA'.desc.size
                rw [log_length] at this
                simp only
                omega
  | @failed us kept hs a b put _ hbad hb ih =>
    obtain ⟨i1, i2, i3⟩ := ih
    have hd := i1.commit put
    have e1 : returned (Audit.commit cs cfg sign put a).1 = [] := by
      cases h : (Audit.commit cs cfg sign put a).1 with
      | error e => rfl
      | ok x => rw [h] at hbad; cases hbad
    have e2 : (Audit.commit cs cfg sign put a).2.stored = a.stored := by
      clear hd hb e1
      unfold Audit.commit at hbad ⊢
      cases h1 : a.state with
      | none => rfl
      | some s =>
        rw [h1] at hbad
        simp only at hbad ⊢
        cases h2 : s.signature with
        | some sig => rfl
        | none =>
          rw [h2] at hbad
          simp only at hbad ⊢
          cases h3 : toSign cs cfg s >>= sign with
          | error e => rfl
          | ok sig =>
            rw [h3] at hbad
            simp only at hbad ⊢
            cases h4 : AState.marshal { s with signature := some sig } with
            | error e => rfl
            | ok raw =>
              rw [h4] at hbad
              simp only at hbad ⊢
              cases h5 : put raw with
              | error e => rfl
              | ok x => rw [h5] at hbad; cases hbad
    have e3 : keptAfter us kept a (Audit.commit cs cfg sign put a).2 = kept := by rw [keptAfter, if_pos e2]
    rw [e1, e3, List.append_nil] at hd
    exact ⟨hd.restart i2 hb, i2, fun _ _ _ => rfl⟩
  | @restart us kept hs a b _ hb ih =>
    obtain ⟨i1, i2, i3⟩ := ih
    exact ⟨i1.restart i2 hb, i2, fun _ _ _ => rfl⟩

/-- **C57, writes may fail, and the auditor is restarted whenever `Commit` has failed.**  (A write that takes effect although
it fails is a `Commit` that succeeds, followed by a restart: that returns more heads, not fewer.)  All heads that it ever returns are heads
of prefixes of one append-only history, and there are no two different ones for the same tree size. -/
theorem C57_recovering {cs : Log.Suite} (hcs : cs.Good) {cfg : Config} {key : Bytes} {sign : Bytes → G Bytes}
    {us kept : List AuditorUpdate} {hs : List AuditorTreeHead} {a : Auditor}
    (h : RecoveringExec cs cfg key sign (UpdateOk cs) us kept hs a) :
    (∃ A, Chain cs A ∧ ∀ th ∈ hs, ∃ m, m ≤ A.length ∧ HeadOf cs cfg sign (log (A.take m)) th) ∧
    (∀ h₁ ∈ hs, ∀ h₂ ∈ hs, h₁.treeSize = h₂.treeSize → h₁ = h₂) :=
  ⟨C57_one_log_durable hcs (recovering_durable hcs h).1,
    fun h₁ m₁ h₂ m₂ => C57_no_equivocation_durable hcs (recovering_durable hcs h).1 h₁ h₂ m₁ m₂⟩

/-- The execution of `C57_equivocation`, in which the auditor is restarted after the first `Commit` fails: the same two updates,
but only one head. -/
example : ∃ us kept hs a h₁,
    RecoveringExec toySuite toyAuditCfg [1] .ok (UpdateOk toySuite) us kept hs a ∧ hs = [h₁] ∧ h₁.treeSize = 1 := by
  have hu1 : UpdateOk toySuite ⟨100, [⟨[0x20], [9]⟩], [], ⟨[.nonInclusionParent 0], []⟩⟩ := by
    simp [UpdateOk, AuditorUpdate.Typed, ProofTyped, Each, EntryTyped, ResTyped, Fits, toySuite]
  have hu2 : UpdateOk toySuite ⟨100, [⟨[0x40], [1]⟩], [], ⟨[.nonInclusionParent 0], []⟩⟩ := by
    simp [UpdateOk, AuditorUpdate.Typed, ProofTyped, Each, EntryTyped, ResTyped, Fits, toySuite]
  have e1 := ((RecoveringExec.start (cs := toySuite) (cfg := toyAuditCfg) (key := [1]) (sign := .ok) (U := UpdateOk toySuite)
    (a := ⟨none, none⟩) rfl).update hu1 (by decide)).failed (b := ⟨none, none⟩)
    (fun _ => goErr "write failed") (by decide +kernel) (by decide +kernel)
  have e2 := e1.update hu2 (by decide)
  cases hc : (Audit.commit toySuite toyAuditCfg .ok (fun _ => .ok ())
      (process toySuite toyAuditCfg ⟨100, [⟨[0x40], [1]⟩], [], ⟨[.nonInclusionParent 0], []⟩⟩ ⟨none, none⟩).2).1 with
  | error e =>
    have : (Audit.commit toySuite toyAuditCfg .ok (fun _ => .ok ())
      (process toySuite toyAuditCfg ⟨100, [⟨[0x40], [1]⟩], [], ⟨[.nonInclusionParent 0], []⟩⟩ ⟨none, none⟩).2).1.isOk = true := by
      decide +kernel
    rw [hc] at this
    cases this
  | ok th =>
    have : (Audit.commit toySuite toyAuditCfg .ok (fun _ => .ok ())
      (process toySuite toyAuditCfg ⟨100, [⟨[0x40], [1]⟩], [], ⟨[.nonInclusionParent 0], []⟩⟩ ⟨none, none⟩).2).1.toOption.map
        (fun h => h.treeSize) = some 1 := by decide +kernel
    rw [hc] at this
    exact ⟨_, _, _, _, th, e2.commit (fun _ => .ok ()) hc, rfl, Option.some.inj this⟩

end Katie.Props
