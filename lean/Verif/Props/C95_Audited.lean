import Verif.Props.C57_Restarts
import Verif.Props.C44_C45_Heads
import Verif.Props.C48_Injective
import Verif.Lemmas.ClientFinish

/-
C95: what the clients of an audited log have in common.
-/

namespace Katie.AuditSpec
open Katie Katie.Wire Katie.Audit Katie.Alg Katie.Client Katie.CommittedSpec Katie.Props

/-- the strings that are hashed for the log tree of these entries -/
def treeStrings (cs : Log.Suite) (W : List LogEntry) : List Bytes :=
  LogSpec.inputs cs.H (W.map (leafHash cs)) ++ W.map leafString

/-- `Passed env W a S`: a client has received a tree head for the log `W` (its root is the one that was signed), together with
the auditor's head `a`, in a response to any kind of request, and its checks have passed; when it computed the root it has
hashed the strings `S`. -/
inductive Passed (env : CEnv) (W : List LogEntry) (a : AuditorTreeHead) : List Bytes → Prop
  | mk {now : Nat} {state : Option ClientState} {fth : FullTreeHead} {proof : CombinedTreeProof} {v0 v1 v2 v3 w : Verifier}
      {result : Provider.Result} {p : Provider Received} {rootP : Bytes} {th : TreeHead} {b rest : Bytes} :
      newFullTreeHead env.cfg b = .ok (fth, rest) → fth.treeHead = some th → th.treeSize = W.length → fth.auditor = some a →
      newVerifier state (getLast state) fth proof = .ok v0 → Prepares env v0 v1 → v1.updateView env now = .ok v2 →
      Executes env v2 v3 → v3.p.finish env.cs (Received.handle env.cs) v3.n v3.nP v3.m = (.ok result, p) →
      Log.root env.cs v3.n result.fullSubtrees = .ok (LogSpec.rootHash env.cs.H (W.map (leafHash env.cs))) →
      auditorRoot env v3.nP result.additional = .ok rootP →
      verifyTreeHead env { v3 with p := p } (LogSpec.rootHash env.cs.H (W.map (leafHash env.cs))) rootP = .ok w →
      Passed env W a (finishStrings env.cs v3.n v3.nP v3.m v3.p)

/-- The auditor's signatures can not be forged: what a client takes to be signed by the auditor is the string that the auditor
has signed for one of the heads that it returned. -/
def Unforged (env : CEnv) (sign : Bytes → G Bytes) (hs : List AuditorTreeHead) : Prop :=
  ∀ tbs sig, env.auditorVerify tbs sig = true → ∃ h ∈ hs, ∀ t, sign t = .ok h.signature → t = tbs

end Katie.AuditSpec

namespace Katie.Props
open Katie Katie.Wire Katie.Alg Katie.Audit Katie.AuditSpec Katie.SearchSpec Katie.PrefixSpec Katie.Client Katie.CommittedSpec

theorem finish_additional {cs : Log.Suite} (hcs : cs.Good) {L : List Bytes} (hL : ∀ v ∈ L, v.length = cs.hashSize)
    {p q : Provider Received} {nP m : Option Nat} {r : Provider.Result} (hmn : ∀ k ∈ m, k ≤ L.length)
    (h : p.finish cs (Received.handle cs) L.length nP m = (.ok r, q))
    (hroot : Log.root cs L.length r.fullSubtrees = .ok (LogSpec.rootHash cs.H L)) :
    (∀ k, nP = some k → k ≤ L.length ∧ r.additional = LogSpec.heads cs.H (L.take k)) ∨
    LogSpec.Collides cs.H (LogSpec.inputs cs.H L) (finishStrings cs L.length nP m p) := by
  unfold Provider.finish at h
  split at h
  · cases h
  next ls p1 hl =>
  rw [leafHashes_ok] at h
  dsimp only at h
  split at h
  · cases h
  next proof s hf =>
  obtain ⟨h, -⟩ := Prod.mk.inj h
  obtain ⟨v, hv, h⟩ := G.bind_eq_ok.1 h
  obtain ⟨res, hres, h⟩ := G.bind_eq_ok.1 h
  obtain ⟨f, hfr, h⟩ := G.bind_eq_ok.1 h
  obtain ⟨es, hes, h⟩ := G.bind_eq_ok.1 h
  have h := (Except.ok.inj h).symm
  subst h
  have hproof : proof = p1.state.inner.inclusion := by
    change Received.finish p1.state = _ at hf
    unfold Received.finish at hf
    split at hf
    · cases hf
    split at hf
    · cases hf
    split at hf
    · cases hf
    · exact (Except.ok.inj (Prod.mk.inj hf).1).symm
  subst hproof
  have hstr : finishStrings cs L.length nP m p = ls.map (fun e => leafString e.2) ++
      (LogSpec.evalInputs L.length res.nodes ++ LogSpec.rootInputs cs.H L.length res.fullSubtrees) := by
    unfold finishStrings
    rw [hl]
    simp only [leafHashes_ok, G.ok_bind, hv, hres]
  have hn0 : 0 < L.length := by
    unfold Log.root at hroot
    split at hroot
    · cases hroot
    · omega
  have key : (∀ k, nP = some k → k ≤ L.length ∧ res.additional = LogSpec.heads cs.H (L.take k)) ∨
      LogSpec.Collides cs.H (LogSpec.inputs cs.H L)
        (LogSpec.evalInputs L.length res.nodes ++ LogSpec.rootInputs cs.H L.length res.fullSubtrees) := by
    cases m with
    | none =>
      cases hv
      rcases C05_inclusion_sound hcs L hL hn0 _ nP _ _ res hres hroot with ⟨-, -, -, k3⟩ | k
      · exact Or.inl k3
      · exact Or.inr k
    | some k =>
      change Log.retain cs k p1.fullSubtrees = .ok v at hv
      rcases C06_consistency_sound hcs L hL k (hmn k rfl) _ v hv _ nP _ _ res hres hroot with ⟨-, -, -, -, k3⟩ | k
      · exact Or.inl k3
      · exact Or.inr k
  rcases key with hk | ⟨x, hx, y, hy, hne, he⟩
  · exact Or.inl hk
  · exact Or.inr ⟨x, hx, y, by rw [hstr]; exact List.mem_append_right _ hy, hne, he⟩

theorem leaf_sized {cs : Log.Suite} (hcs : cs.Good) (W : List LogEntry) : ∀ v ∈ W.map (leafHash cs), v.length = cs.hashSize := by
  intro v hv
  obtain ⟨e, -, rfl⟩ := List.mem_map.1 hv
  exact hcs.len _

/-- Two lists of entries whose log trees have the same root are the same, or two strings that were hashed collide. -/
theorem entries_of_root {cs : Log.Suite} (hcs : cs.Good) {V W : List LogEntry} (h0 : 0 < V.length) (hlen : V.length = W.length)
    (hV : ∀ e ∈ V, e.timestamp < 2 ^ 64) (hW : ∀ e ∈ W, e.timestamp < 2 ^ 64)
    (h : LogSpec.rootHash cs.H (V.map (leafHash cs)) = LogSpec.rootHash cs.H (W.map (leafHash cs))) :
    V = W ∨ LogSpec.Collides cs.H (treeStrings cs V) (treeStrings cs W) := by
  rcases Log.merkle_inj hcs V.length _ _ (by rw [List.length_map]) (by rw [List.length_map, hlen]) h0 (leaf_sized hcs V)
    (leaf_sized hcs W) h with he | ⟨x, hx, y, hy, hne, he⟩
  · by_cases hc : LogSpec.Collides cs.H (V.map leafString) (W.map leafString)
    · obtain ⟨x, hx, y, hy, hne, he⟩ := hc
      exact Or.inr ⟨x, List.mem_append_right _ hx, y, List.mem_append_right _ hy, hne, he⟩
    · left
      apply List.ext_getElem hlen
      intro i h1 h2
      have h3 : (V.map (leafHash cs))[i]'(by simpa using h1) = (W.map (leafHash cs))[i]'(by simpa using h2) := by
        simp only [he]
      rw [List.getElem_map, List.getElem_map] at h3
      refine leafString_inj (hV _ (List.getElem_mem h1)) (hW _ (List.getElem_mem h2)) ?_
      by_contra hne
      exact hc ⟨_, List.mem_map.2 ⟨_, List.getElem_mem h1, rfl⟩, _, List.mem_map.2 ⟨_, List.getElem_mem h2, rfl⟩, hne, h3⟩
  · exact Or.inr ⟨x, List.mem_append_left _ hx, y, List.mem_append_left _ hy, hne, he⟩

theorem durable_updates {cs : Log.Suite} (hcs : cs.Good) {cfg : Config} {key : Bytes} {sign : Bytes → G Bytes}
    {us kept : List AuditorUpdate} {hs : List AuditorTreeHead} {a : Auditor}
    (h : DurableExec cs cfg key sign (UpdateOk cs) us kept hs a) :
    ((∀ u ∈ us, UpdateOk cs u) ∧ ∀ u ∈ kept, UpdateOk cs u) ∧ us.length < 2 ^ 64 := by
  induction h with
  | start h => simp
  | @update us kept hs a u h hu hn ih =>
    obtain ⟨A, k, hO⟩ := durable_one hcs h
    have hsz := hO.state.desc.1.size_eq
    rw [log_length, ← updates_length, hO.us] at hsz
    refine ⟨⟨?_, ih.1.2⟩, ?_⟩
    · intro x hx
      unfold extended at hx
      split at hx
      · rcases List.mem_append.1 hx with hx | hx
        · exact ih.1.1 x hx
        · rw [List.mem_singleton] at hx; subst hx; exact hu
      · exact ih.1.1 x hx
    · unfold extended
      split
      · rw [List.length_append, List.length_singleton]; omega
      · exact ih.2
  | commit put h ih =>
    refine ⟨⟨ih.1.1, ?_⟩, ih.2⟩
    unfold keptAfter
    split
    · exact ih.1.2
    · exact ih.1.1
  | @restart us kept hs a b h _ _ ih =>
    obtain ⟨A, k, hO⟩ := durable_one hcs h
    refine ⟨⟨ih.1.2, ih.1.2⟩, ?_⟩
    have h1 : kept.length ≤ us.length := by
      rw [← hO.kept, ← hO.us, updates_length, updates_length, List.length_take]; omega
    omega

theorem chain_times {cs : Log.Suite} {A : List Audited} (h : Chain cs A) : ∀ x ∈ A, x.entry.timestamp = x.update.timestamp := by
  induction h with
  | nil => simp
  | snoc _ _ _ _ ih =>
    intro x hx
    rcases List.mem_append.1 hx with hx | hx
    · exact ih x hx
    · rw [List.mem_singleton] at hx; subst hx; rfl

/-- A client that accepts an auditor's head of a log `V` has a log that starts with `V`. -/
theorem passed_prefix {env : CEnv} (hcs : env.cs.Good) (hcfg : ConfigTyped env.cfg) {sign : Bytes → G Bytes} {hs : List AuditorTreeHead}
    (hun : Unforged env sign hs) {W : List LogEntry} (hW : ∀ e ∈ W, e.timestamp < 2 ^ 64) {a : AuditorTreeHead} {S : List Bytes}
    (h : Passed env W a S) : ∃ h ∈ hs, ∀ V, HeadOf env.cs env.cfg sign V h → (∀ e ∈ V, e.timestamp < 2 ^ 64) → V.length < 2 ^ 64 →
      (a.treeSize = V.length ∧ a.timestamp = h.timestamp ∧ a.treeSize ≤ W.length ∧
        (W.take a.treeSize = V ∨ LogSpec.Collides env.cs.H (treeStrings env.cs (W.take a.treeSize)) (treeStrings env.cs V))) ∨
      LogSpec.Collides env.cs.H (treeStrings env.cs W) S := by
  obtain ⟨hb, hth, hsz, ha, h0, h1, h2, h3, hf, hroot, hrP, hv⟩ := h
  rename_i now state fth proof v0 v1 v2 v3 w result p rootP th b rest
  obtain ⟨⟨ts, -, hH⟩, -⟩ := C44_decoded env hb h0 h1 h2 h3 hf hroot hv hth
  obtain ⟨-, -, a3, -, ⟨tbs, a5, a6⟩, -⟩ := hH.auditor a ha
  obtain ⟨⟨t1, t2, -⟩, -⟩ := (codec_fullTreeHead env.cfg).canon _ _ _ hb
  obtain ⟨c1, c2⟩ := t2 a ha
  obtain ⟨h, hmem, hsig⟩ := hun tbs a.signature a6
  refine ⟨h, hmem, ?_⟩
  rintro V ⟨p1, p2, p3, tbs', p4, p5⟩ hVt hVl
  have := hsig tbs' p5
  subst this
  have hts : timeOf V (V.length - 1) < 2 ^ 64 := by
    unfold timeOf
    split
    · next e he => exact hVt e (List.mem_of_getElem? he)
    · decide
  obtain ⟨-, q1, q2, q3⟩ := C48_auditor_tree_head env.cfg env.cfg hcfg hcfg _ _ _ _ (lt_of_lt_of_eq c1 (by norm_num))
    (by rw [p3]; exact hts) (lt_of_lt_of_eq c2 (by norm_num)) (by rw [p2]; exact hVl) _ _ _ a5 p4
  -- sizes of the verifier
  obtain ⟨e1, e2, e3, e4, e5, e6⟩ := newVerifier_ok h0
  have hn0 : v0.n = th.treeSize := by
    unfold treeSizeOf at e5
    rw [hth] at e5
    exact (Except.ok.inj e5).symm
  obtain ⟨f01, -⟩ := h1.spec
  obtain ⟨f12, -⟩ := updateView_frame h2
  have f23 : Client.Frame v2 v3 := by
    clear hf hroot hrP hv hH h2 f12
    induction h3 with
    | refl => exact Client.Frame.refl _
    | run _ h ih => exact ih.trans (run_frame h).1
  have f03 := (f01.trans f12).trans f23
  have hn3 : v3.n = (W.map (leafHash env.cs)).length := by rw [f03.n, hn0, hsz, List.length_map]
  have hmn : ∀ k ∈ v3.m, k ≤ (W.map (leafHash env.cs)).length := by
    intro k hk
    have := updateView_size h2 k (by rw [(f12.trans f23).m] at hk; exact hk)
    rw [f01.n, hn0, hsz] at this
    rw [List.length_map]
    exact this
  have hnP : v3.nP = some a.treeSize := by rw [f03.nP, e4, ha]; rfl
  rw [hn3] at hf hroot
  rcases finish_additional hcs (leaf_sized hcs W) hmn hf hroot with hk | ⟨x, hx, y, hy, hne, he⟩
  swap
  · right
    exact ⟨x, List.mem_append_left _ hx, y, by rw [hn3]; exact hy, hne, he⟩
  left
  obtain ⟨k1, k2⟩ := hk a.treeSize hnP
  rw [List.length_map] at k1
  refine ⟨by rw [q2, p2], q1, k1, ?_⟩
  rw [hnP, auditorRoot, k2, ← List.map_take] at hrP
  have hl : ((W.take a.treeSize).map (leafHash env.cs)).length = a.treeSize := by
    rw [List.length_map, List.length_take]; omega
  have hmax : a.treeSize ≤ LogMath.maxTreeSize := by
    by_contra hc
    unfold Log.root at hrP
    rw [if_pos (by omega)] at hrP
    cases hrP
  have hr := Log.root_heads hcs (L := (W.take a.treeSize).map (leafHash env.cs)) (leaf_sized hcs _) (by rw [hl, q2, p2]; exact p1)
    (by rw [hl]; exact hmax)
  rw [hl, hrP] at hr
  have hr := Except.ok.inj hr
  refine entries_of_root hcs (by rw [List.length_take]; omega) (by rw [List.length_take]; omega)
    (fun e he => hW e (List.mem_of_mem_take he)) hVt ?_
  rw [← hr, q3]

/-- **C95.**  Let the auditor's database fail at any time, but let the auditor only be restarted when the database covers all heads
returned (it is restarted whenever `Commit` has failed, for example), and let the auditor's signatures be unforgeable.  Then there
is one history, in which each entry follows from the one before by the changes `us` that the auditor has accepted, such that every
client that accepts an auditor's head has a log that starts with the entries of that history, as many as the head says, the last
of which has the head's timestamp.  Otherwise two strings that were hashed by the log, the client or the auditor collide. -/
theorem C95_audited {cs : Log.Suite} (hcs : cs.Good) {cfg : Config} (hcfg : ConfigTyped cfg) {key : Bytes} {sign : Bytes → G Bytes}
    {us kept : List AuditorUpdate} {hs : List AuditorTreeHead} {au : Auditor}
    (hex : DurableExec cs cfg key sign (UpdateOk cs) us kept hs au) :
    ∃ A, Chain cs A ∧ updates A = us ∧ ∀ (env : CEnv) (W : List LogEntry) (a : AuditorTreeHead) (S : List Bytes), env.cs = cs → env.cfg = cfg →
      Unforged env sign hs → (∀ e ∈ W, e.timestamp < 2 ^ 64) → Passed env W a S →
      (0 < a.treeSize ∧ a.treeSize ≤ W.length ∧ a.treeSize ≤ A.length ∧ a.timestamp = timeOf W (a.treeSize - 1) ∧
        W.take a.treeSize = log (A.take a.treeSize)) ∨
      LogSpec.Collides cs.H (treeStrings cs W ++ treeStrings cs (W.take a.treeSize))
        (S ++ treeStrings cs (log (A.take a.treeSize))) := by
  obtain ⟨A, k, hO⟩ := durable_one hcs hex
  obtain ⟨⟨hup, -⟩, hul⟩ := durable_updates hcs hex
  have hch := hO.state.desc.2.2
  refine ⟨A, hch, hO.us, ?_⟩
  rintro env W a S rfl rfl hun hW hp
  obtain ⟨h, hm, hV⟩ := passed_prefix hcs hcfg hun hW hp
  obtain ⟨m, hmA, hH⟩ := hO.heads h hm
  have hAl : A.length < 2 ^ 64 := by rw [← updates_length, hO.us]; exact hul
  have hlen : (log (A.take m)).length = m := by rw [log_length, List.length_take]; omega
  have hVt : ∀ e ∈ log (A.take m), e.timestamp < 2 ^ 64 := by
    intro e he
    obtain ⟨x, hx, rfl⟩ := List.mem_map.1 he
    have hxA := List.mem_of_mem_take hx
    rw [chain_times hch x hxA]
    have : UpdateOk env.cs x.update := hup _ (by rw [← hO.us]; exact List.mem_map.2 ⟨x, hxA, rfl⟩)
    exact lt_of_lt_of_eq this.1 (by norm_num)
  rcases hV _ hH hVt (by rw [hlen]; omega) with ⟨b1, b2, b3, b4⟩ | ⟨x, hx, y, hy, hne, he⟩
  · rw [hlen] at b1
    subst b1
    rcases b4 with b4 | ⟨x, hx, y, hy, hne, he⟩
    · left
      refine ⟨by have := hH.1; omega, b3, hmA, ?_, b4⟩
      rw [b2, hH.2.2.1, hlen, ← b4]
      unfold timeOf
      rw [List.getElem?_take]
      have := hH.1
      rw [if_pos (by omega)]
    · exact Or.inr ⟨x, List.mem_append_right _ hx, y, List.mem_append_right _ hy, hne, he⟩
  · exact Or.inr ⟨x, List.mem_append_left _ hx, y, List.mem_append_left _ hy, hne, he⟩

/-- **C95, two clients.**  The logs of any two clients that accept heads of the auditor agree up to the smaller of the two heads. -/
theorem C95_clients_agree {cs : Log.Suite} (hcs : cs.Good) {cfg : Config} (hcfg : ConfigTyped cfg) {key : Bytes}
    {sign : Bytes → G Bytes} {us kept : List AuditorUpdate} {hs : List AuditorTreeHead} {au : Auditor}
    (hex : DurableExec cs cfg key sign (UpdateOk cs) us kept hs au) :
    ∃ V, ∀ (env₁ env₂ : CEnv) (W₁ W₂ : List LogEntry) (a₁ a₂ : AuditorTreeHead) (S₁ S₂ : List Bytes),
      env₁.cs = cs → env₁.cfg = cfg → env₂.cs = cs → env₂.cfg = cfg → Unforged env₁ sign hs → Unforged env₂ sign hs →
      (∀ e ∈ W₁, e.timestamp < 2 ^ 64) → (∀ e ∈ W₂, e.timestamp < 2 ^ 64) →
      Passed env₁ W₁ a₁ S₁ → Passed env₂ W₂ a₂ S₂ → a₁.treeSize ≤ a₂.treeSize →
      W₁.take a₁.treeSize = W₂.take a₁.treeSize ∨
      LogSpec.Collides cs.H (treeStrings cs W₁ ++ treeStrings cs (W₁.take a₁.treeSize))
        (S₁ ++ treeStrings cs (List.take a₁.treeSize V)) ∨
      LogSpec.Collides cs.H (treeStrings cs W₂ ++ treeStrings cs (W₂.take a₂.treeSize))
        (S₂ ++ treeStrings cs (List.take a₂.treeSize V)) := by
  obtain ⟨A, -, -, hA⟩ := C95_audited hcs hcfg hex
  refine ⟨log A, ?_⟩
  intro env₁ env₂ W₁ W₂ a₁ a₂ S₁ S₂ c1 c2 c3 c4 u1 u2 t1 t2 p1 p2 hle
  have hlog : ∀ k, List.take k (log A) = log (A.take k) := fun k => by unfold log; rw [List.map_take]
  rw [hlog, hlog]
  rcases hA env₁ W₁ a₁ S₁ c1 c2 u1 t1 p1 with ⟨-, -, -, -, h1⟩ | h1
  · rcases hA env₂ W₂ a₂ S₂ c3 c4 u2 t2 p2 with ⟨-, -, -, -, h2⟩ | h2
    · left
      have := congrArg (List.take a₁.treeSize) h2
      rw [List.take_take, Nat.min_eq_left hle, ← hlog, List.take_take, Nat.min_eq_left hle, hlog] at this
      rw [this, h1]
    · exact Or.inr (Or.inr h2)
  · exact Or.inr (Or.inl h1)


/-! ### an example: the auditor returns a head after the first change of the log, and a new client gets the log after the second -/

/-- the server of the examples, with an auditor that may be one millisecond late and a reasonable monitoring window of five -/
def auditedEnv : Server.Env := { toyEnv with cfg := { toyEnv.cfg with maxAuditorLag := 1, rmw := 5 } }

/-- the server after the first change -/
def auditedT1 := Server.mutate auditedEnv (toyChange [⟨[10], ⟨[1], none⟩⟩, ⟨[20], ⟨[2], none⟩⟩, ⟨[10], ⟨[3], none⟩⟩] [] 5) {}

/-- the server after the second change -/
def auditedT2 := Server.mutate auditedEnv (toyChange [⟨[10], ⟨[4], none⟩⟩] [] 6) auditedT1.2

/-- the auditor after the first change -/
def auditedOne : Auditor := (process toySuite auditedEnv.cfg toyU1 ⟨none, none⟩).2

/-- the string that the auditor signs for the head of size 1; here the signature of a string is the string itself -/
def auditedTbs : Bytes :=
  match (Audit.commit toySuite auditedEnv.cfg .ok (fun _ => .ok ()) auditedOne).1 with
  | .ok h => h.signature
  | .error _ => []

/-- a client that accepts no signature of the auditor but this one -/
def auditedClient : CEnv := { toyClient with
  cfg := auditedEnv.cfg
  auditorVerify := fun tbs sig => decide (tbs = auditedTbs ∧ sig = auditedTbs) }

/-- the log of two entries -/
def auditedLog : List LogEntry := [⟨5, [2]⟩, ⟨6, [168]⟩]

/-- the steps of `Passed` when the client searches for version 0 of label 10 -/
def auditedChecks : G (FullTreeHead × Verifier × Provider.Result × Provider Received × Bytes) := do
  let res ← Server.search auditedEnv 6 { auditedT2.2 with auditor := some ⟨5, 1, auditedTbs⟩ } ⟨none, [10], some 0⟩
  let b ← res.fullTreeHead.marshal
  let (fth, _) ← newFullTreeHead auditedClient.cfg b
  let v0 ← newVerifier none (getLast none) fth res.search
  let l ← Ladder.searchBinaryLadder 0 0 [] []
  let c ← computeCommitment auditedClient res.opening [10] 0 res.value
  let v1 ← processLadder auditedClient [10] res.binaryLadder l [(0, c)] v0
  let v2 ← v1.updateView auditedClient 6
  let (_, v3) ← v2.run auditedClient (fixedVersionSearch auditedClient.cfg 0 v2.n)
  match v3.p.finish toySuite (Received.handle toySuite) v3.n v3.nP v3.m with
  | (.error e, _) => .error e
  | (.ok result, p) => do
    let root ← Log.root toySuite v3.n result.fullSubtrees
    let rootP ← auditorRoot auditedClient v3.nP result.additional
    let _ ← verifyTreeHead auditedClient { v3 with p := p } root rootP
    pure (fth, v3, result, p, root)


theorem audited_passed : ∃ S, Passed auditedClient auditedLog ⟨5, 1, auditedTbs⟩ S := by
  have hc : auditedChecks.map (fun x => (x.1, x.2.2.2.2)) =
      .ok (⟨auditedT2.2.head, some ⟨5, 1, auditedTbs⟩⟩, LogSpec.rootHash toySuite.H (auditedLog.map (leafHash toySuite))) := by
    decide +kernel
  have hsz : auditedT2.2.head.map (fun h => h.treeSize) = some 2 := by decide +kernel
  obtain ⟨th, hth, hsz⟩ := Option.map_eq_some_iff.1 hsz
  cases h : auditedChecks with
  | error e => rw [h] at hc; cases hc
  | ok x =>
    rw [h] at hc
    obtain ⟨fth, v3, result, p, root⟩ := x
    change Except.ok (fth, root) = _ at hc
    obtain ⟨rfl, rfl⟩ := Prod.mk.inj (Except.ok.inj hc)
    unfold auditedChecks at h
    obtain ⟨res, -, h⟩ := G.bind_eq_ok.1 h
    obtain ⟨b, -, h⟩ := G.bind_eq_ok.1 h
    obtain ⟨⟨fth', rest⟩, k1, h⟩ := G.bind_eq_ok.1 h
    obtain ⟨v0, k2, h⟩ := G.bind_eq_ok.1 h
    obtain ⟨l, -, h⟩ := G.bind_eq_ok.1 h
    obtain ⟨c, -, h⟩ := G.bind_eq_ok.1 h
    obtain ⟨v1, k3, h⟩ := G.bind_eq_ok.1 h
    obtain ⟨v2, k4, h⟩ := G.bind_eq_ok.1 h
    obtain ⟨⟨o, v3'⟩, k5, h⟩ := G.bind_eq_ok.1 h
    dsimp only at h
    split at h
    · cases h
    next result' p' k6 =>
    obtain ⟨root', k7, h⟩ := G.bind_eq_ok.1 h
    obtain ⟨rootP, k8, h⟩ := G.bind_eq_ok.1 h
    obtain ⟨w, k9, h⟩ := G.bind_eq_ok.1 h
    have h := Except.ok.inj h
    obtain ⟨rfl, rfl, rfl, rfl, rfl⟩ : fth' = _ ∧ v3' = v3 ∧ result' = result ∧ p' = p ∧ root' = _ := by
      simpa only [Prod.mk.injEq] using h
    exact ⟨_, .mk k1 hth hsz rfl k2 (.ladder (.refl _) k3) k4 (.run (.refl _) k5) k6 k7 k8 k9⟩

/-- the hypotheses of the theorems for this auditor and this client -/
example : ∃ us kept hs au S, DurableExec toySuite auditedEnv.cfg [1] .ok (UpdateOk toySuite) us kept hs au ∧
    auditedClient.cs = toySuite ∧ auditedClient.cfg = auditedEnv.cfg ∧ Unforged auditedClient .ok hs ∧
    (∀ e ∈ auditedLog, e.timestamp < 2 ^ 64) ∧ Passed auditedClient auditedLog ⟨5, 1, auditedTbs⟩ S ∧ us = [toyU1, toyU2] := by
  obtain ⟨S, hS⟩ := audited_passed
  have hu1 : UpdateOk toySuite toyU1 := by
    simp [toyU1, UpdateOk, AuditorUpdate.Typed, ProofTyped, Each, EntryTyped, ResTyped, Fits, toySuite]
  have hu2 : UpdateOk toySuite toyU2 := by
    simp [toyU2, UpdateOk, AuditorUpdate.Typed, ProofTyped, Each, EntryTyped, ResTyped, Fits, toySuite]
  have e1 := (DurableExec.start (cs := toySuite) (cfg := auditedEnv.cfg) (key := [1]) (sign := .ok) (U := UpdateOk toySuite)
    (a := ⟨none, none⟩) rfl).update hu1 (by decide)
  have e2 := (e1.commit (fun _ => .ok ())).update hu2 (by decide +kernel)
  refine ⟨_, _, _, _, S, e2, rfl, rfl, ?_, by decide, hS, by decide +kernel⟩
  intro tbs sig hv
  have hv : tbs = auditedTbs ∧ sig = auditedTbs := of_decide_eq_true hv
  cases hc : (Audit.commit toySuite auditedEnv.cfg .ok (fun _ => .ok ()) auditedOne).1 with
  | error e =>
    have : (Audit.commit toySuite auditedEnv.cfg .ok (fun _ => .ok ()) auditedOne).1.isOk = true := by decide +kernel
    rw [hc] at this
    cases this
  | ok h =>
    refine ⟨h, ?_, ?_⟩
    · change h ∈ [] ++ returned (Audit.commit toySuite auditedEnv.cfg .ok (fun _ => .ok ()) auditedOne).1
      rw [hc]
      exact List.mem_singleton.2 rfl
    · intro t ht
      rw [hv.1, auditedTbs, hc]
      exact Except.ok.inj ht

end Katie.Props
