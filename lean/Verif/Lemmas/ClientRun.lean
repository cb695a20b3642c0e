import Verif.Model.Handles
import Verif.Lemmas.Provider
import Verif.Lemmas.NoCatch
import Verif.Lemmas.PrefixSound

/-
What a client knows after running an algorithm against a received proof: every answer it used is backed by a
timestamp or by an evaluated prefix proof whose root is recorded in the provider.
-/

namespace Katie.Prefix
open Katie

theorem evaluateRoot_length {cs : Suite} {es : List Entry} {pf : Proof} {root : Bytes}
    (h : evaluateRoot cs es pf = .ok root) : es.length = pf.results.length := by
  unfold evaluateRoot evaluate at h
  obtain ⟨n, h, -⟩ := G.bind_eq_ok.1 h
  obtain ⟨u, -, h⟩ := G.bind_eq_ok.1 h
  split at h
  · cases h
  · next hl => simpa using hl

end Katie.Prefix

namespace Katie.Alg
open Katie Katie.Wire Katie.Ladder

/-- The prefix proofs that are evaluated to answer a request, each with the entries it is evaluated for. -/
def Received.evals (q : Req) (s : Received) : List (List Prefix.Entry × Prefix.Proof) :=
  match s.inner.prefixProofs with
  | [] => []
  | pf :: _ =>
    match (match q with
      | .search x ver om => do
        let r ← receiveLadder s.tracker x ver om (pf.results.map Prefix.Res.isInclusion)
        Received.entriesFor s.versions r.1 pf.results
      | .monitor _ ver => do
        let l ← monitoringBinaryLadder ver
        Received.allEntries s.versions l
      | .incl _ vers => Received.allEntries s.versions vers
      | _ => goErr "no proof" : G (List Prefix.Entry)) with
    | .ok es => [(es, pf)]
    | .error _ => []

/-- The prefix proofs that are evaluated in a run of an algorithm. -/
def Provider.evals (cs : Log.Suite) {α : Type} : Prog α → Provider Received → List (List Prefix.Entry × Prefix.Proof)
  | .ret _, _ => []
  | .op q k, p => Received.evals q p.state ++ evals cs (k (p.answer (Received.handle cs) q).1) (p.answer (Received.handle cs) q).2

/-- Version `v` is shown present (`b = true`) or absent at log entry `x`: one of the received proofs, evaluated for
entries of known versions, has the root recorded for `x`, and its result for `v` says so. -/
def Shown (cs : Log.Suite) (Vs : Versions) (proofs : List Prefix.Proof) (E : List (List Prefix.Entry × Prefix.Proof))
    (roots : Nat → Option Bytes)
    (x v : Nat) (b : Bool) : Prop :=
  ∃ es pf root k r, pf ∈ proofs ∧ (es, pf) ∈ E ∧ (∀ e ∈ es, ∃ u ∈ Vs, e = u.2.entry) ∧ Prefix.evaluateRoot cs es pf = .ok root ∧
    roots x = some root ∧ Vs.lookup v = some k ∧ (k.entry, r) ∈ es.zip pf.results ∧ r.isInclusion = b ∧
    (b = true → k.com ≠ none)

theorem Shown.mono {cs : Log.Suite} {Vs : Versions} {proofs : List Prefix.Proof}
    {E : List (List Prefix.Entry × Prefix.Proof)} {r r' : Nat → Option Bytes} {x v : Nat}
    {b : Bool} (h : Shown cs Vs proofs E r x v b) (hr : ∀ x s, r x = some s → r' x = some s) :
    Shown cs Vs proofs E r' x v b := by
  obtain ⟨es, pf, root, k, r, h1, h1', h2, h3, h4, h5⟩ := h
  exact ⟨es, pf, root, k, r, h1, h1', h2, h3, hr _ _ h4, h5⟩

/-- one evaluated search ladder: position, target, versions looked up, their results, interpretation -/
structure Visit where
  x : Nat
  ver : Nat
  om : Bool
  w : List Nat
  flags : List Bool
  res : Int

/-- the tracker holds nothing but the results of the visits -/
def TrackedBy (vt : Tracker) (vs : List Visit) : Prop :=
  (∀ e ∈ vt.inclusion, ∃ i ∈ vs, i.x = e.1 ∧ ∀ v ∈ e.2, (v, true) ∈ i.w.zip i.flags) ∧
  (∀ e ∈ vt.nonInclusion, ∃ i ∈ vs, i.x = e.1 ∧ ∀ v ∈ e.2, (v, false) ∈ i.w.zip i.flags)

/-- the facts behind the answers of a run in which nothing failed -/
inductive Facts (cs : Log.Suite) (Vs : Versions) (proofs : List Prefix.Proof)
    (E : List (List Prefix.Entry × Prefix.Proof)) (M : List (Nat × Nat))
    (roots : Nat → Option Bytes) : List Visit → List Ev → Prop
  | nil (vs) : Facts cs Vs proofs E M roots vs []
  | ts {vs tr x a} : (x, a) ∈ M → Facts cs Vs proofs E M roots vs tr →
      Facts cs Vs proofs E M roots vs (⟨.ts x, .ok a⟩ :: tr)
  | search {vs tr x ver om} {res : Int} {vt vt' w flags} : TrackedBy vt vs → x ∈ M.map Prod.fst →
      receiveLadder vt x ver om flags = .ok (w, res, vt') → w.length = flags.length →
      (∀ v b, (v, b) ∈ w.zip flags → Shown cs Vs proofs E roots x v b) →
      Facts cs Vs proofs E M roots (vs ++ [⟨x, ver, om, w, flags, res⟩]) tr →
      Facts cs Vs proofs E M roots vs (⟨.search x ver om, .ok res⟩ :: tr)
  | monitor {vs tr x ver l} : x ∈ M.map Prod.fst → monitoringBinaryLadder ver = .ok l →
      (∀ v ∈ l, Shown cs Vs proofs E roots x v true) →
      Facts cs Vs proofs E M roots vs tr → Facts cs Vs proofs E M roots vs (⟨.monitor x ver, .ok ()⟩ :: tr)
  | incl {vs tr x vers} : (vers ≠ [] → x ∈ M.map Prod.fst) → (∀ v ∈ vers, Shown cs Vs proofs E roots x v true) →
      Facts cs Vs proofs E M roots vs tr → Facts cs Vs proofs E M roots vs (⟨.incl x vers, .ok ()⟩ :: tr)
  | stop {vs tr x ver b} : Facts cs Vs proofs E M roots vs tr → Facts cs Vs proofs E M roots vs (⟨.stop x ver, .ok b⟩ :: tr)

/-- a request that reads (everything but `addLadder`) -/
def Req.reads : Req → Bool
  | .addLadder _ _ _ _ => false
  | _ => true

/-! ### the handle -/

/-- invariant of the received handle -/
structure HInv (Vs : Versions) (proof : CombinedTreeProof) (s : Received) : Prop where
  versions : s.versions = Vs
  proofs : ∀ pf ∈ s.inner.prefixProofs, pf ∈ proof.prefixProofs
  times : ∀ t ∈ s.inner.timestamps, t ∈ proof.timestamps
  roots : s.inner.prefixRoots = proof.prefixRoots
  incl : s.inner.inclusion = proof.inclusion

theorem entriesFor_ok {vs : Versions} {l : List Nat} {rs : List Prefix.Res} {es : List Prefix.Entry}
    (h : Received.entriesFor vs l rs = .ok es) :
    rs.length ≤ l.length ∧ es.length = rs.length ∧ (∀ e ∈ es, ∃ u ∈ vs, e = u.2.entry) ∧
    (∀ v b, (v, b) ∈ l.zip (rs.map Prefix.Res.isInclusion) → ∃ k r, vs.lookup v = some k ∧ (k.entry, r) ∈ es.zip rs ∧
      r.isInclusion = b ∧ (b = true → k.com ≠ none)) := by
  induction rs generalizing l es with
  | nil =>
    cases l <;> (unfold Received.entriesFor at h; cases h; simp)
  | cons r rs ih =>
    cases l with
    | nil => unfold Received.entriesFor at h; cases h
    | cons v l =>
      unfold Received.entriesFor at h
      split at h
      · cases h
      next k hk =>
      split at h
      · cases h
      next hcom =>
      obtain ⟨rest, hr, h⟩ := G.bind_eq_ok.1 h
      have h : k.entry :: rest = es := Except.ok.inj h
      subst h
      obtain ⟨i1, i2, i3, i4⟩ := ih hr
      refine ⟨by simpa using i1, by simpa using i2, ?_, ?_⟩
      · intro e he
        rcases List.mem_cons.1 he with rfl | he
        · exact ⟨(v, k), lookup_mem hk, rfl⟩
        · exact i3 e he
      · intro v' b hb
        simp only [List.map_cons, List.zip_cons_cons, List.mem_cons, Prod.mk.injEq] at hb
        rcases hb with ⟨rfl, rfl⟩ | hb
        · refine ⟨k, r, hk, by simp, rfl, ?_⟩
          intro hr hc
          exact hcom ⟨hr, hc⟩
        · obtain ⟨k', r', j1, j2, j3⟩ := i4 v' b hb
          exact ⟨k', r', j1, by simp [j2], j3⟩

theorem allEntries_ok {vs : Versions} {l : List Nat} {es : List Prefix.Entry}
    (h : Received.allEntries vs l = .ok es) :
    es.length = l.length ∧ (∀ e ∈ es, ∃ u ∈ vs, e = u.2.entry) ∧
    (∀ v e, (v, e) ∈ l.zip es → ∃ k, vs.lookup v = some k ∧ e = k.entry ∧ k.com ≠ none) := by
  induction l generalizing es with
  | nil => unfold Received.allEntries at h; cases h; simp
  | cons v l ih =>
    unfold Received.allEntries at h
    split at h
    · cases h
    next k hk =>
    split at h
    · cases h
    next hcom =>
    obtain ⟨rest, hr, h⟩ := G.bind_eq_ok.1 h
    have h : k.entry :: rest = es := Except.ok.inj h
    subst h
    obtain ⟨i2, i3, i4⟩ := ih hr
    refine ⟨by simpa using i2, ?_, ?_⟩
    · intro e he
      rcases List.mem_cons.1 he with rfl | he
      · exact ⟨(v, k), lookup_mem hk, rfl⟩
      · exact i3 e he
    · intro v' b hb
      simp only [List.zip_cons_cons, List.mem_cons, Prod.mk.injEq] at hb
      rcases hb with ⟨rfl, rfl⟩ | hb
      · exact ⟨k, hk, rfl, hcom⟩
      · exact i4 v' b hb

/-- all versions of a list, each with an inclusion result -/
theorem allEntries_shown {cs : Log.Suite} {Vs : Versions} {proofs : List Prefix.Proof}
    {E : List (List Prefix.Entry × Prefix.Proof)} {roots : Nat → Option Bytes}
    {x : Nat} {l : List Nat} {es : List Prefix.Entry} {pf : Prefix.Proof} {root : Bytes}
    (h : Received.allEntries Vs l = .ok es) (hlen : l.length = pf.results.length)
    (hall : ∀ r ∈ pf.results, r.isInclusion = true) (hpf : pf ∈ proofs) (hE : (es, pf) ∈ E)
    (hev : Prefix.evaluateRoot cs es pf = .ok root) (hroot : roots x = some root) :
    ∀ v ∈ l, Shown cs Vs proofs E roots x v true := by
  obtain ⟨h1, h2, h3⟩ := allEntries_ok h
  intro v hv
  obtain ⟨i, hi, rfl⟩ := List.mem_iff_getElem.1 hv
  have hi1 : i < es.length := by omega
  have hi2 : i < pf.results.length := by omega
  obtain ⟨k, k1, k2, k3⟩ := h3 l[i] es[i] (by
    rw [List.mem_iff_getElem]; exact ⟨i, by simp; omega, by simp⟩)
  refine ⟨es, pf, root, k, pf.results[i], hpf, hE, h2, hev, hroot, k1, ?_, hall _ (List.getElem_mem _), fun _ => k3⟩
  rw [← k2, List.mem_iff_getElem]
  exact ⟨i, by simp; omega, by simp⟩

theorem take_zip {α β : Type} (l : List α) (f : List β) : (l.take f.length).zip f = l.zip f := by
  induction f generalizing l with
  | nil => simp
  | cons b f ih =>
    cases l with
    | nil => simp
    | cons a l => simp [ih]

theorem receiveLadder_tracked {vt vt' : Tracker} {x ver : Nat} {om : Bool} {flags : List Bool} {w : List Nat} {res : Int}
    {vs : List Visit} (h : receiveLadder vt x ver om flags = .ok (w, res, vt')) (ht : TrackedBy vt vs) :
    w.length = flags.length ∧ TrackedBy vt' (vs ++ [⟨x, ver, om, w, flags, res⟩]) := by
  unfold receiveLadder at h
  obtain ⟨l, hl, h⟩ := G.bind_eq_ok.1 h
  obtain ⟨r, hr, h⟩ := G.bind_eq_ok.1 h
  obtain ⟨vt2, hv, h⟩ := G.bind_eq_ok.1 h
  obtain ⟨rfl, rfl, rfl⟩ : l.take flags.length = w ∧ r = res ∧ vt2 = vt' := by
    have := Except.ok.inj h; simpa using this
  have hle : flags.length ≤ l.length := by
    unfold interpretSearchLadder at hr
    split at hr
    · cases hr
    · omega
  have hz : (l.take flags.length).zip flags = l.zip flags := take_zip l flags
  have hold : TrackedBy vt (vs ++ [⟨x, ver, om, l.take flags.length, flags, r⟩]) := by
    constructor
    · intro e he
      obtain ⟨i, hi, h1, h2⟩ := ht.1 e he
      exact ⟨i, List.mem_append_left _ hi, h1, h2⟩
    · intro e he
      obtain ⟨i, hi, h1, h2⟩ := ht.2 e he
      exact ⟨i, List.mem_append_left _ hi, h1, h2⟩
  refine ⟨by simp; omega, ?_⟩
  unfold Tracker.addResults at hv
  split at hv
  · rw [← Except.ok.inj hv]; exact hold
  split at hv
  · cases hv
  · rw [← Except.ok.inj hv]
    constructor
    · intro e he
      rcases List.mem_append.1 he with he | he
      · exact hold.1 e he
      · rw [List.mem_singleton.1 he]
        refine ⟨_, List.mem_append_right _ (List.mem_singleton.2 rfl), rfl, ?_⟩
        intro v hv
        obtain ⟨p, hp, rfl⟩ := List.mem_map.1 hv
        obtain ⟨h1, h2⟩ := List.mem_filter.1 hp
        simp only at h2 ⊢
        rw [hz, ← h2]; exact h1
    · intro e he
      rcases List.mem_append.1 he with he | he
      · exact hold.2 e he
      · rw [List.mem_singleton.1 he]
        refine ⟨_, List.mem_append_right _ (List.mem_singleton.2 rfl), rfl, ?_⟩
        intro v hv
        obtain ⟨p, hp, rfl⟩ := List.mem_map.1 hv
        obtain ⟨h1, h2⟩ := List.mem_filter.1 hp
        simp only [Bool.not_eq_true'] at h2 ⊢
        rw [hz, ← h2]; exact h1

/-! ### one request, and a run -/

/-- the timestamps come from the proof, or were known before -/
def TimesFrom (known : List (Nat × Nat)) (proof : CombinedTreeProof) (m : List (Nat × Nat)) : Prop :=
  ∀ e ∈ m, e ∈ known ∨ e.2 ∈ proof.timestamps

variable {cs : Log.Suite} {Vs : Versions} {proof : CombinedTreeProof} {known : List (Nat × Nat)}

theorem client_getTimestamp (x : Nat) (p : Provider Received) (hi : HInv Vs proof p.state)
    (ht : TimesFrom known proof p.timestamps) :
    HInv Vs proof (p.getTimestamp (Received.handle cs) x).2.state ∧
    TimesFrom known proof (p.getTimestamp (Received.handle cs) x).2.timestamps ∧
    (p.getTimestamp (Received.handle cs) x).2.state.tracker = p.state.tracker := by
  unfold Provider.getTimestamp
  split
  · exact ⟨hi, ht, rfl⟩
  next hn =>
  have key : HInv Vs proof (Received.getTs x p.state).2 ∧ (Received.getTs x p.state).2.tracker = p.state.tracker ∧
      ∀ t, (Received.getTs x p.state).1 = .ok t → t ∈ proof.timestamps := by
    unfold Received.getTs
    split
    · exact ⟨hi, rfl, fun t h => by cases h⟩
    · next t rest h =>
      refine ⟨⟨hi.versions, hi.proofs, ?_, hi.roots, hi.incl⟩, rfl, ?_⟩
      · intro u hu; exact hi.times u (by rw [h]; exact List.mem_cons_of_mem _ hu)
      · intro u hu; cases hu; exact hi.times _ (by rw [h]; exact List.mem_cons_self)
  change _ ∧ _ ∧ _ at key
  simp only [show (Received.handle cs).getTs = Received.getTs from rfl]
  revert key
  generalize Received.getTs x p.state = g
  obtain ⟨g1, s⟩ := g
  rintro ⟨k1, k2, k3⟩
  cases g1 with
  | error e => exact ⟨k1, ht, k2⟩
  | ok t =>
    simp only
    split
    · exact ⟨k1, ht, k2⟩
    · next m hadd =>
      refine ⟨k1, ?_, k2⟩
      intro e he
      simp only [(addTimestamp_ok hadd).1, List.mem_cons] at he
      rcases he with rfl | he
      · exact Or.inr (k3 t rfl)
      · exact ht e he

/-- reading a timestamp does not change which proofs are evaluated next -/
theorem getTimestamp_evals (x : Nat) (p : Provider Received) (q : Req) :
    Received.evals q (p.getTimestamp (Received.handle cs) x).2.state = Received.evals q p.state := by
  have key : (p.getTimestamp (Received.handle cs) x).2.state = p.state ∨
      ∃ r, (p.getTimestamp (Received.handle cs) x).2.state =
        { p.state with inner := { p.state.inner with timestamps := r } } := by
    unfold Provider.getTimestamp
    split
    · exact Or.inl rfl
    simp only [show (Received.handle cs).getTs = Received.getTs from rfl]
    unfold Received.getTs
    cases p.state.inner.timestamps with
    | nil => exact Or.inl rfl
    | cons t rest =>
      dsimp only
      split <;> exact Or.inr ⟨rest, rfl⟩
  rcases key with h | ⟨r, h⟩ <;> rw [h] <;> rfl

theorem client_viaRoot {γ : Type} (x : Nat) (f : Received → G (Bytes × γ) × Received)
    (hf : ∀ s, HInv Vs proof s → HInv Vs proof (f s).2) (p : Provider Received) (hi : HInv Vs proof p.state)
    (ht : TimesFrom known proof p.timestamps) :
    HInv Vs proof (viaRoot (Received.handle cs) x f p).2.state ∧
    TimesFrom known proof (viaRoot (Received.handle cs) x f p).2.timestamps := by
  obtain ⟨h1, h2, -⟩ := client_getTimestamp (cs := cs) x p hi ht
  unfold viaRoot
  revert h1 h2
  generalize p.getTimestamp (Received.handle cs) x = r
  obtain ⟨r1, p'⟩ := r
  intro h1 h2
  cases r1 with
  | error e => exact ⟨h1, h2⟩
  | ok t =>
    simp only at h1 h2 ⊢
    have h3 := hf p'.state h1
    revert h3
    generalize f p'.state = g
    obtain ⟨g1, s⟩ := g
    intro h3
    cases g1 with
    | error e => exact ⟨h3, h2⟩
    | ok rr =>
      obtain ⟨root, res⟩ := rr
      obtain ⟨-, k2, k3, -⟩ := record_spec x root res ({ p' with state := s } : Provider Received)
      simp only
      rw [k2, k3]
      exact ⟨h3, h2⟩

theorem HInv.search {x ver : Nat} {om : Bool} {s : Received} (hi : HInv Vs proof s) :
    HInv Vs proof (Received.search cs x ver om s).2 := by
  unfold Received.search
  split
  · exact hi
  · next pf rest h =>
    split
    · exact hi
    · exact ⟨hi.versions, fun q hq => hi.proofs q (by rw [h]; exact List.mem_cons_of_mem _ hq), hi.times, hi.roots, hi.incl⟩

theorem HInv.monitor {x ver : Nat} {s : Received} (hi : HInv Vs proof s) :
    HInv Vs proof (withUnit (Received.monitor cs x ver) s).2 := by
  have : HInv Vs proof (Received.monitor cs x ver s).2 := by
    unfold Received.monitor
    split
    · exact hi
    · next pf rest h =>
      split
      · exact hi
      · exact ⟨hi.versions, fun q hq => hi.proofs q (by rw [h]; exact List.mem_cons_of_mem _ hq), hi.times, hi.roots, hi.incl⟩
  unfold withUnit
  revert this
  generalize Received.monitor cs x ver s = g
  obtain ⟨g1, s'⟩ := g
  cases g1 <;> exact fun h => h

theorem HInv.inclusion {x : Nat} {vers : List Nat} {s : Received} (hi : HInv Vs proof s) :
    HInv Vs proof (withUnit (Received.incl cs x vers) s).2 := by
  have : HInv Vs proof (Received.incl cs x vers s).2 := by
    unfold Received.incl
    split
    · exact hi
    · next pf rest h =>
      split
      · exact hi
      · exact ⟨hi.versions, fun q hq => hi.proofs q (by rw [h]; exact List.mem_cons_of_mem _ hq), hi.times, hi.roots, hi.incl⟩
  unfold withUnit
  revert this
  generalize Received.incl cs x vers s = g
  obtain ⟨g1, s'⟩ := g
  cases g1 <;> exact fun h => h

theorem client_answer (q : Req) (p : Provider Received) (hi : HInv Vs proof p.state)
    (ht : TimesFrom known proof p.timestamps) :
    HInv Vs proof (p.answer (Received.handle cs) q).2.state ∧
    TimesFrom known proof (p.answer (Received.handle cs) q).2.timestamps := by
  cases q with
  | ts x => exact ⟨(client_getTimestamp x p hi ht).1, (client_getTimestamp x p hi ht).2.1⟩
  | search x ver om =>
    rw [show p.answer (Received.handle cs) (.search x ver om) = _ from getSearch_eq _ x ver om p]
    exact client_viaRoot x ((Received.handle cs).search x ver om) (fun s hs => HInv.search (x := x) hs) p hi ht
  | monitor x ver =>
    rw [show p.answer (Received.handle cs) (.monitor x ver) = _ from getMonitor_eq _ x ver p]
    exact client_viaRoot x (withUnit ((Received.handle cs).monitor x ver)) (fun s hs => HInv.monitor (x := x) hs) p hi ht
  | incl x vers =>
    rw [show p.answer (Received.handle cs) (.incl x vers) = _ from getIncl_eq _ x vers p]
    split
    · exact ⟨hi, ht⟩
    · exact client_viaRoot x (withUnit ((Received.handle cs).incl x vers)) (fun s hs => HInv.inclusion (x := x) hs) p hi ht
  | stop x ver => exact ⟨hi, ht⟩
  | addLadder x om g l => exact ⟨⟨hi.versions, hi.proofs, hi.times, hi.roots, hi.incl⟩, ht⟩

theorem client_run {α : Type} (prog : Prog α) (p : Provider Received) (hi : HInv Vs proof p.state)
    (ht : TimesFrom known proof p.timestamps) :
    HInv Vs proof (p.run (Received.handle cs) prog).2.state ∧
    TimesFrom known proof (p.run (Received.handle cs) prog).2.timestamps := by
  induction prog generalizing p with
  | ret r => exact ⟨hi, ht⟩
  | op q k ih =>
    obtain ⟨h1, h2⟩ := client_answer (cs := cs) q p hi ht
    exact ih _ _ h1 h2

/-- the facts behind the answers -/
theorem client_facts {α : Type} (prog : Prog α) (p : Provider Received) (vs : List Visit) (hm : TsMap p.timestamps)
    (hi : HInv Vs proof p.state) (ht : TimesFrom known proof p.timestamps) (htr : TrackedBy p.state.tracker vs)
    (hok : ∀ e ∈ p.trace (Received.handle cs) prog, e.q.reads = true ∧ ∃ a, e.a = .ok a)
    (q : Provider Received) (hq : Grows (p.run (Received.handle cs) prog).2 q)
    {E : List (List Prefix.Entry × Prefix.Proof)} (hE : ∀ e ∈ Provider.evals cs prog p, e ∈ E) :
    Facts cs Vs proof.prefixProofs E q.timestamps (fun x => q.prefixTrees.lookup x) vs (p.trace (Received.handle cs) prog) := by
  induction prog generalizing p vs with
  | ret r => exact .nil _
  | op rq k ih =>
    obtain ⟨i1, i2⟩ := client_answer (cs := cs) rq p hi ht
    obtain ⟨g1, m1, t1⟩ := answer_spec (Received.handle cs) rq p hm
    have hok1 : ∃ a, (p.answer (Received.handle cs) rq).1 = .ok a :=
      (hok ⟨rq, _⟩ List.mem_cons_self).2
    have hreads : rq.reads = true := (hok ⟨rq, _⟩ List.mem_cons_self).1
    have hrest : ∀ e ∈ Provider.trace (Received.handle cs) (k (p.answer (Received.handle cs) rq).1)
        (p.answer (Received.handle cs) rq).2, e.q.reads = true ∧ ∃ a, e.a = .ok a :=
      fun e he => hok e (List.mem_cons_of_mem _ he)
    have g2 : Grows (p.answer (Received.handle cs) rq).2 q :=
      (run_spec (Received.handle cs) (k (p.answer (Received.handle cs) rq).1) _ m1).1.trans hq
    have ih' := fun vs' htr' => ih (p.answer (Received.handle cs) rq).1 (p.answer (Received.handle cs) rq).2 vs' m1 i1 i2
      htr' hrest hq (fun e he => hE e (List.mem_append_right _ he))
    have hE1 : ∀ x e, e ∈ Received.evals rq (p.getTimestamp (Received.handle cs) x).2.state → e ∈ E :=
      fun x e he => hE e (List.mem_append_left _ (by rw [getTimestamp_evals] at he; exact he))
    obtain ⟨a, ha⟩ := hok1
    have hpos : ∀ x, rq.pos? = some x → x ∈ q.timestamps.map Prod.fst := by
      intro x hx
      obtain ⟨e, he, rfl⟩ := List.mem_map.1 (t1 a ha x hx)
      exact List.mem_map.2 ⟨e, g2.ts e he, rfl⟩
    change Facts cs Vs proof.prefixProofs E q.timestamps (fun x => q.prefixTrees.lookup x) vs
      (⟨rq, (p.answer (Received.handle cs) rq).1⟩ :: Provider.trace (Received.handle cs)
        (k (p.answer (Received.handle cs) rq).1) (p.answer (Received.handle cs) rq).2)
    have hev : (⟨rq, (p.answer (Received.handle cs) rq).1⟩ : Ev) = ⟨rq, .ok a⟩ := by rw [ha]
    rw [hev]
    cases rq with
    | ts x =>
      refine .ts (g2.ts _ ((getTimestamp_spec (Received.handle cs) x p hm).2.2 a ha)) (ih' vs ?_)
      have : (p.answer (Received.handle cs) (.ts x)).2.state.tracker = p.state.tracker :=
        (client_getTimestamp (cs := cs) x p hi ht).2.2
      rw [this]; exact htr
    | search x ver om =>
      have he : p.answer (Received.handle cs) (.search x ver om) = _ := getSearch_eq _ x ver om p
      obtain ⟨-, -, h3⟩ := viaRoot_spec (Received.handle cs) x ((Received.handle cs).search x ver om) p hm
      rw [← he] at h3
      obtain ⟨-, root, s, hs, hst, hroot⟩ := h3 a ha
      obtain ⟨j1, -, j3⟩ := client_getTimestamp (cs := cs) x p hi ht
      have hE2 := hE1 x
      revert hs j1 j3 hE2
      generalize (p.getTimestamp (Received.handle cs) x).2.state = s0
      intro hs j1 j3 hE2
      change Received.search cs x ver om s0 = _ at hs
      unfold Received.search at hs
      split at hs
      · cases hs
      next pf rest hpf =>
      split at hs
      · cases hs
      next r hr =>
      obtain ⟨⟨rfl, rfl⟩, rfl⟩ : (r.1 = root ∧ r.2.1 = a) ∧ { s0.pop rest with tracker := r.2.2 } = s := by
        have := Prod.mk.inj hs
        exact ⟨Prod.mk.inj (Except.ok.inj this.1), this.2⟩
      unfold Received.evalSearch at hr
      obtain ⟨rl, hrl, hr⟩ := G.bind_eq_ok.1 hr
      obtain ⟨es, hes, hr⟩ := G.bind_eq_ok.1 hr
      obtain ⟨rt, hrt, hr⟩ := G.bind_eq_ok.1 hr
      have hr := (Except.ok.inj hr).symm
      subst hr
      obtain ⟨w, res, vt'⟩ := rl
      have htr' : TrackedBy s0.tracker vs := by rw [j3]; exact htr
      obtain ⟨l1, l2⟩ := receiveLadder_tracked hrl htr'
      refine .search htr' (hpos x rfl) hrl l1 ?_ (ih' _ (by rw [hst]; exact l2))
      intro v b hvb
      obtain ⟨e1, e2, e3, e4⟩ := entriesFor_ok hes
      rw [j1.versions] at e3 e4
      obtain ⟨kk, rr, f1, f2, f3, f4⟩ := e4 v b hvb
      refine ⟨es, pf, rt, kk, rr, j1.proofs pf (by rw [hpf]; exact List.mem_cons_self), hE2 _ ?_, e3, hrt,
        g2.roots _ _ hroot, f1, f2, f3, f4⟩
      unfold Received.evals
      rw [hpf]
      simp only [hrl, G.ok_bind, hes]
      exact List.mem_singleton.2 rfl
    | monitor x ver =>
      have he : p.answer (Received.handle cs) (.monitor x ver) = _ := getMonitor_eq _ x ver p
      obtain ⟨-, -, h3⟩ := viaRoot_spec (Received.handle cs) x (withUnit ((Received.handle cs).monitor x ver)) p hm
      rw [← he] at h3
      obtain ⟨-, root, s, hs, hst, hroot⟩ := h3 a ha
      obtain ⟨j1, -, j3⟩ := client_getTimestamp (cs := cs) x p hi ht
      have hE2 := hE1 x
      revert hs j1 j3 hE2
      generalize (p.getTimestamp (Received.handle cs) x).2.state = s0
      intro hs j1 j3 hE2
      change withUnit (Received.monitor cs x ver) s0 = _ at hs
      unfold withUnit Received.monitor at hs
      split at hs
      · cases hs
      next root' s' hm' =>
      split at hm'
      · cases hm'
      next pf rest hpf =>
      split at hm'
      · cases hm'
      next rt hrt =>
      obtain ⟨h1, rfl⟩ := Prod.mk.inj hm'
      obtain rfl := Except.ok.inj h1
      obtain ⟨h1, rfl⟩ := Prod.mk.inj hs
      obtain ⟨rfl, -⟩ := Prod.mk.inj (Except.ok.inj h1)
      unfold Received.evalMonitor at hrt
      obtain ⟨l, hl, hrt⟩ := G.bind_eq_ok.1 hrt
      split at hrt
      · cases hrt
      next hlen =>
      split at hrt
      · cases hrt
      next hall =>
      obtain ⟨es, hes, hrt⟩ := G.bind_eq_ok.1 hrt
      have hE3 : (es, pf) ∈ E := by
        refine hE2 _ ?_
        unfold Received.evals
        rw [hpf]
        simp only [hl, G.ok_bind, hes]
        exact List.mem_singleton.2 rfl
      rw [j1.versions] at hes
      have hall' : ∀ r ∈ pf.results, r.isInclusion = true := by
        simpa [List.all_eq_true] using hall
      have hlen' : l.length = pf.results.length := by
        simp only [ne_eq, not_not] at hlen; exact hlen.symm
      cases a
      exact .monitor (hpos x rfl) hl (allEntries_shown hes hlen' hall'
        (j1.proofs pf (by rw [hpf]; exact List.mem_cons_self)) hE3 hrt (g2.roots _ _ hroot))
        (ih' vs (by rw [hst]; change TrackedBy s0.tracker vs; rw [j3]; exact htr))
    | incl x vers =>
      have he : p.answer (Received.handle cs) (.incl x vers) = _ := getIncl_eq _ x vers p
      cases a
      by_cases hv : vers.length = 0
      · have hv' : vers = [] := List.length_eq_zero_iff.1 hv
        subst hv'
        have he : p.answer (Received.handle cs) (.incl x []) = (.ok (), p) := he
        refine .incl (fun h => absurd rfl h) (by simp) (ih' vs ?_)
        rw [he]; exact htr
      rw [if_neg hv] at he
      obtain ⟨-, -, h3⟩ := viaRoot_spec (Received.handle cs) x (withUnit ((Received.handle cs).incl x vers)) p hm
      rw [← he] at h3
      obtain ⟨-, root, s, hs, hst, hroot⟩ := h3 () ha
      obtain ⟨j1, -, j3⟩ := client_getTimestamp (cs := cs) x p hi ht
      have hE2 := hE1 x
      revert hs j1 j3 hE2
      generalize (p.getTimestamp (Received.handle cs) x).2.state = s0
      intro hs j1 j3 hE2
      change withUnit (Received.incl cs x vers) s0 = _ at hs
      unfold withUnit Received.incl at hs
      split at hs
      · cases hs
      next root' s' hm' =>
      split at hm'
      · cases hm'
      next pf rest hpf =>
      split at hm'
      · cases hm'
      next rt hrt =>
      obtain ⟨h1, rfl⟩ := Prod.mk.inj hm'
      obtain rfl := Except.ok.inj h1
      obtain ⟨h1, rfl⟩ := Prod.mk.inj hs
      obtain ⟨rfl, -⟩ := Prod.mk.inj (Except.ok.inj h1)
      unfold Received.evalIncl at hrt
      split at hrt
      swap
      · cases hrt
      next r0 hr0 =>
      split at hrt
      · cases hrt
      next hall =>
      obtain ⟨es, hes, hrt⟩ := G.bind_eq_ok.1 hrt
      have hE3 : (es, pf) ∈ E := by
        refine hE2 _ ?_
        unfold Received.evals
        rw [hpf]
        simp only [hes]
        exact List.mem_singleton.2 rfl
      rw [j1.versions] at hes
      have hall' : ∀ r ∈ pf.results, r.isInclusion = true := by
        rw [hr0]; simpa using hall
      have hlen' : vers.length = pf.results.length := by
        have h1 := (allEntries_ok hes).1
        have h2 := Prefix.evaluateRoot_length hrt
        omega
      refine .incl (fun _ => hpos x (by simp only [Req.pos?, if_neg hv])) (allEntries_shown hes hlen' hall'
        (j1.proofs pf (by rw [hpf]; exact List.mem_cons_self)) hE3 hrt (g2.roots _ _ hroot))
        (ih' vs (by rw [hst]; change TrackedBy s0.tracker vs; rw [j3]; exact htr))
    | stop x ver => exact .stop (ih' vs htr)
    | addLadder x om g l => cases hreads

end Katie.Alg
