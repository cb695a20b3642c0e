import Verif.Lemmas.Auditor
import Verif.Lemmas.AuditorState
import Verif.Lemmas.PrefixAudit

/- Executions of the auditor. -/

namespace Katie.Audit
open Katie Katie.Wire Katie.Alg Katie.AuditSpec Katie.SearchTree Katie.SearchSpec Prog

/-! ### one update -/

/-- what `Process` checks, in its own terms -/
theorem processed_ok {cs : Log.Suite} {cfg : Config} {a : Option AState} {u : AuditorUpdate} {s : AState} :
    processed cs cfg a u = .ok s ↔
      (∀ st, a = some st → st.timestamp ≤ u.timestamp) ∧ sortedStrictly u.added ∧ sortedStrictly u.removed ∧
      u.proof.results.length = u.added.length + u.removed.length ∧ addedAbsent u.removed u.added u.proof.results ∧
      (u.proof.results.drop u.added.length).all Prefix.Res.isInclusion ∧
      ∃ r p before after, previousRightmost cfg a u.timestamp = .ok (r, p) ∧ (r = none → u.removed = []) ∧
        (∀ e ∈ u.removed, addedSince a (r.getD 0) e.vrf = false) ∧
        Prefix.evaluateBeforeAfter cs u.added u.removed u.proof = .ok (before, after) ∧
        (∀ st, a = some st → before = st.prefixTree) ∧
        updateState cs cfg a p u.added ⟨u.timestamp, after⟩ = .ok s := by
  have h1 : (a.any (fun s => decide (u.timestamp < s.timestamp)) = true) ↔
      ¬ (∀ st, a = some st → st.timestamp ≤ u.timestamp) := by
    cases a with
    | none => simp
    | some st => simp
  unfold processed
  by_cases c1 : ∀ st, a = some st → st.timestamp ≤ u.timestamp
  swap
  · rw [if_pos (h1.2 c1)]
    exact ⟨fun h => (by cases h), fun h => absurd h.1 c1⟩
  rw [if_neg (fun h => (h1.1 h) c1)]
  by_cases c2 : sortedStrictly u.added
  swap
  · rw [if_pos c2]
    exact ⟨fun h => (by cases h), fun h => absurd h.2.1 c2⟩
  rw [if_neg (not_not.2 c2)]
  by_cases c3 : sortedStrictly u.removed
  swap
  · rw [if_pos c3]
    exact ⟨fun h => (by cases h), fun h => absurd h.2.2.1 c3⟩
  rw [if_neg (not_not.2 c3)]
  by_cases c4 : u.proof.results.length = u.added.length + u.removed.length
  swap
  · rw [if_pos c4]
    exact ⟨fun h => (by cases h), fun h => absurd h.2.2.2.1 c4⟩
  rw [if_neg (not_not.2 c4)]
  by_cases c5 : addedAbsent u.removed u.added u.proof.results
  swap
  · rw [if_pos c5]
    exact ⟨fun h => (by cases h), fun h => absurd h.2.2.2.2.1 c5⟩
  rw [if_neg (not_not.2 c5)]
  by_cases c6 : (u.proof.results.drop u.added.length).all Prefix.Res.isInclusion
  swap
  · rw [if_pos c6]
    exact ⟨fun h => (by cases h), fun h => absurd h.2.2.2.2.2.1 c6⟩
  rw [if_neg (not_not.2 c6)]
  have hany : ∀ before : Bytes, (a.any (fun s => decide (before ≠ s.prefixTree)) = true) ↔
      ¬ (∀ st, a = some st → before = st.prefixTree) := by
    intro before
    cases a with
    | none => simp
    | some st => simp
  constructor
  · intro h
    obtain ⟨⟨r, p⟩, hr, h⟩ := G.bind_eq_ok.1 h
    simp only at h
    split at h
    · cases h
    · next c7 =>
      split at h
      · cases h
      · next c8 =>
        obtain ⟨⟨before, after⟩, hev, h⟩ := G.bind_eq_ok.1 h
        simp only at h
        split at h
        · cases h
        · next c9 =>
          refine ⟨c1, c2, c3, c4, c5, c6, r, p, before, after, hr, ?_, ?_, hev, ?_, h⟩
          · intro hn
            by_contra hne
            exact c7 ⟨hn, List.length_pos_iff.2 hne⟩
          · intro e he
            by_contra hne
            exact c8 (List.any_eq_true.2 ⟨e, he, by simpa using hne⟩)
          · by_contra hne
            exact c9 ((hany before).2 hne)
  · rintro ⟨_, _, _, _, _, _, r, p, before, after, hr, c7, c8, hev, c9, h⟩
    rw [hr, G.ok_bind]
    simp only
    rw [if_neg, if_neg, hev, G.ok_bind]
    · simp only
      rw [if_neg (fun hc => ((hany before).1 hc) c9)]
      exact h
    · rw [List.any_eq_true]
      rintro ⟨e, he, hc⟩
      rw [c8 e he] at hc
      cases hc
    · rintro ⟨hn, hl⟩
      rw [c7 hn] at hl
      simp at hl

theorem timeOf_root (W : List LogEntry) (t : Nat) (r r' : Bytes) :
    timeOf (W ++ [⟨t, r⟩]) = timeOf (W ++ [⟨t, r'⟩]) := by
  funext x
  unfold timeOf
  by_cases h : x < W.length
  · rw [List.getElem?_append_left h, List.getElem?_append_left h]
  · rw [List.getElem?_append_right (by omega), List.getElem?_append_right (by omega)]
    cases x - W.length <;> rfl

theorem _root_.Katie.AuditSpec.DescribesO.size_eq {cs : Log.Suite} {W : List LogEntry} {a : Option AState} (h : DescribesO cs W a) :
    size a = W.length := by
  cases a with
  | none => have : W = [] := h; subst this; rfl
  | some s => exact h.size

/-- timestamp and root of the last entry -/
theorem _root_.Katie.AuditSpec.Describes.last {cs : Log.Suite} {W : List LogEntry} {s : AState} (h : Describes cs W s) :
    W.getLast? = some ⟨s.timestamp, s.prefixTree⟩ := by
  have hne : W ≠ [] := by intro hc; have := h.pos; rw [hc] at this; cases this
  have e1 : W.getLast? = some (W.getLast hne) := List.getLast?_eq_some_getLast hne
  rw [e1, h.root _ e1, h.time, timeOf_lt (by have := h.pos; omega), List.getLast_eq_getElem]

theorem _root_.Katie.AuditSpec.DescribesO.last {cs : Log.Suite} {W : List LogEntry} {a : Option AState} (h : DescribesO cs W a) :
    W.getLast? = a.map (fun s => (⟨s.timestamp, s.prefixTree⟩ : LogEntry)) := by
  cases a with
  | none => have : W = [] := h; subst this; rfl
  | some s => exact Describes.last h

/-- The log, extended by an update that is not older than it. -/
theorem good_next {cs : Log.Suite} {W : List LogEntry} {a : Option AState} {t : Nat} (r : Bytes) (hd : DescribesO cs W a)
    (hg : GoodTimes (timeOf W) W.length) (ht : t < 2 ^ 64) (h : ∀ st, a = some st → st.timestamp ≤ t) :
    GoodTimes (timeOf (W ++ [⟨t, r⟩])) (W.length + 1) := by
  have := goodTimes_snoc (e := ⟨t, r⟩) hg (by
    intro h0
    cases a with
    | none => have : W = [] := hd; subst this; simp at h0
    | some s => rw [← hd.time]; exact h s rfl) ht
  simpa using this

/-- An accepted update, in terms of the log. -/
theorem processed_sound {cs : Log.Suite} (hcs : cs.Good) {cfg : Config} {W : List LogEntry} {a : Option AState}
    {u : AuditorUpdate} {s : AState} (hd : DescribesO cs W a) (hg : GoodTimes (timeOf W) W.length)
    (hn : W.length + 1 < 2 ^ 64) (hu : UpdateOk cs u) (h : processed cs cfg a u = .ok s) :
    ∃ r r' before after, (∀ st, a = some st → st.timestamp ≤ u.timestamp) ∧
      IsGreatest' (fun y => Distinguished (Wide cfg.rmw) (timeOf (W ++ [⟨u.timestamp, after⟩])) (W.length + 1) y ∧
        y < W.length) r ∧ (r = none → u.removed = []) ∧ (∀ e ∈ u.removed, addedSince a (r.getD 0) e.vrf = false) ∧
      Prefix.evaluateBeforeAfter cs u.added u.removed u.proof = .ok (before, after) ∧
      (∀ st, a = some st → before = st.prefixTree) ∧
      GoodTimes (timeOf (W ++ [⟨u.timestamp, after⟩])) (W.length + 1) ∧
      Describes cs (W ++ [⟨u.timestamp, after⟩]) s ∧ s.signature = none ∧ s.prefixTree = after ∧
      s.timestamp = u.timestamp ∧ s.treeSize = W.length + 1 ∧
      IsGreatest' (Distinguished (Wide cfg.rmw) (timeOf (W ++ [⟨u.timestamp, after⟩])) (W.length + 1)) r' ∧
      s.inserted = mergeInserted [] (u.added.map (fun e => ⟨W.length, e.vrf⟩)) r' := by
  obtain ⟨c1, -, -, -, -, -, r, p, before, after, hr, c7, c8, hev, c9, hs⟩ := processed_ok.1 h
  have hgood := good_next after hd hg hu.1 c1
  obtain ⟨r0, p0, h1, h2, h3⟩ := previousRightmost_spec (cfg := cfg) hd (good_next [] hd hg hu.1 c1) hn
  rw [hr] at h1
  obtain ⟨rfl, rfl⟩ := Prod.mk.inj (Except.ok.inj h1)
  obtain ⟨r', s', h4, h5, h6, h7, h8⟩ := updateState_spec hcs (cfg := cfg) (p := p) u.added hd hgood hn
    (by intro y hy; rw [timeOf_root W _ _ []]; exact h3 y hy)
  rw [hs] at h4
  cases h4
  rw [timeOf_root W _ [] after] at h2
  have hlast := h5.last
  rw [List.getLast?_append, List.getLast?_singleton] at hlast
  simp only [Option.some_or, Option.some.injEq, LogEntry.mk.injEq] at hlast
  exact ⟨r, r', before, after, c1, h2, c7, c8, hev, c9, hgood, h5, h6, hlast.2.symm, hlast.1.symm, by rw [h5.size]; simp, h7, h8⟩

/-- Sufficient conditions for an update to be accepted. -/
theorem processed_complete {cs : Log.Suite} (hcs : cs.Good) {cfg : Config} {W : List LogEntry} {a : Option AState}
    {u : AuditorUpdate} {before after : Bytes} (hd : DescribesO cs W a) (hg : GoodTimes (timeOf W) W.length)
    (hn : W.length + 1 < 2 ^ 64) (ht : u.timestamp < 2 ^ 64) (c1 : ∀ st, a = some st → st.timestamp ≤ u.timestamp)
    (c2 : sortedStrictly u.added) (c3 : u.removed = [])
    (c4 : u.proof.results.length = u.added.length) (c5 : ∀ r ∈ u.proof.results, r.isInclusion = false)
    (hev : Prefix.evaluateBeforeAfter cs u.added u.removed u.proof = .ok (before, after))
    (c9 : ∀ st, a = some st → before = st.prefixTree) :
    ∃ s, processed cs cfg a u = .ok s := by
  have hgood := good_next after hd hg ht c1
  obtain ⟨r, p, h1, h2, h3⟩ := previousRightmost_spec (cfg := cfg) hd (good_next [] hd hg ht c1) hn
  obtain ⟨r', s', h4, h5, h6, h7, h8⟩ := updateState_spec hcs (cfg := cfg) (p := p) u.added hd hgood hn
    (by intro y hy; rw [timeOf_root W _ _ []]; exact h3 y hy)
  refine ⟨s', processed_ok.2 ⟨c1, c2, by rw [c3]; rfl, by rw [c4, c3]; rfl, ?_, ?_, r, p, before, after, h1,
    fun _ => c3, by rw [c3]; simp, hev, c9, h4⟩⟩
  · unfold addedAbsent
    rw [List.all_eq_true]
    intro e he
    rw [c5 _ (List.of_mem_zip he).2]
    rfl
  · rw [List.drop_eq_nil_of_le (by omega)]
    rfl

/-! ### executions -/

/-- `s` is the state after the history `A`. -/
structure Audits (cs : Log.Suite) (cfg : Config) (sign : Bytes → G Bytes) (A : List Audited) (s : AState) : Prop where
  chain : Chain cs A
  desc : Describes cs (log A) s
  good : GoodTimes (timeOf (log A)) (log A).length
  small : (log A).length < 2 ^ 64
  head : ∀ sig, s.signature = some sig → HeadOf cs cfg sign (log A) ⟨s.timestamp, s.treeSize, sig⟩
  root : s.prefixTree.length = cs.hashSize
  inserted : Each (fun i : Inserted => Fits 8 i.pos ∧ i.vrf.length = cs.hashSize) s.inserted
  last : ∀ x, A.getLast? = some x → sortedStrictly x.update.added = true ∧ ∃ r, s.inserted = mergeInserted [] (x.update.added.map (fun e => ⟨A.length - 1, e.vrf⟩)) r ∧
    IsGreatest' (Distinguished (Wide cfg.rmw) (timeOf (log A)) A.length) r

/-- the same for an auditor that may not have accepted anything yet -/
def AuditsO (cs : Log.Suite) (cfg : Config) (sign : Bytes → G Bytes) (A : List Audited) : Option AState → Prop
  | none => A = []
  | some s => Audits cs cfg sign A s

theorem log_length (A : List Audited) : (log A).length = A.length := by unfold log; simp

theorem AuditsO.desc {cs : Log.Suite} {cfg : Config} {sign : Bytes → G Bytes} {A : List Audited} {a : Option AState}
    (h : AuditsO cs cfg sign A a) : DescribesO cs (log A) a ∧ GoodTimes (timeOf (log A)) (log A).length ∧ Chain cs A := by
  cases a with
  | none =>
    have : A = [] := h
    subst this
    exact ⟨rfl, ⟨fun i j _ hj => by simp [log] at hj, fun i hi => by simp [log] at hi⟩, .nil⟩
  | some s => exact ⟨Audits.desc h, Audits.good h, Audits.chain h⟩

theorem wireProof_of {cs : Log.Suite} {u : AuditorUpdate} (hu : UpdateOk cs u) : Prefix.WireProof cs.hashSize u.proof := by
  obtain ⟨-, -, -, h1, h2⟩ := hu
  refine ⟨h2, ?_⟩
  intro v c d hm
  obtain ⟨a, b, -⟩ := h1 _ hm
  exact ⟨a, b⟩

theorem mem_mergeInserted (js : List Inserted) (r : Option Nat) : mergeInserted [] js r = js.filter (fun e => !tooOld r e) := by
  unfold mergeInserted mergeLoop
  rfl

/-- One accepted update. -/
theorem audits_step {cs : Log.Suite} (hcs : cs.Good) {cfg : Config} {sign : Bytes → G Bytes} {A : List Audited}
    {a : Option AState} {u : AuditorUpdate} {s : AState} (ha : AuditsO cs cfg sign A a) (hu : UpdateOk cs u)
    (hn : size a + 1 < 2 ^ 64) (h : processed cs cfg a u = .ok s) :
    Audits cs cfg sign (A ++ [⟨u, ⟨u.timestamp, s.prefixTree⟩⟩]) s := by
  obtain ⟨hd, hg, hc⟩ := ha.desc
  have hsz := hd.size_eq
  obtain ⟨r, r', before, after, c1, c2, c3, c4, c5, c6, c7, c8, c9, c10, c11, c12, c13, c14⟩ :=
    processed_sound hcs hd hg (by omega) hu h
  have hlog : log (A ++ [⟨u, ⟨u.timestamp, s.prefixTree⟩⟩]) = log A ++ [⟨u.timestamp, after⟩] := by
    unfold log
    rw [List.map_append, c10]
    rfl
  have hlast : ∀ p, A.getLast? = some p → ∃ st, a = some st ∧ p.entry = ⟨st.timestamp, st.prefixTree⟩ := by
    intro p hp
    have h1 := hd.last
    unfold log at h1
    rw [List.getLast?_map, hp] at h1
    cases a with
    | none => cases h1
    | some st => exact ⟨st, rfl, Option.some.inj h1⟩
  refine ⟨?_, ?_, ?_, ?_, ?_, ?_, ?_, ?_⟩
  · rw [c10]
    refine .snoc hc ?_ c5 ?_
    · intro p hp
      obtain ⟨st, h1, h2⟩ := hlast p hp
      rw [h2]; exact c1 st h1
    · intro p hp
      obtain ⟨st, h1, h2⟩ := hlast p hp
      rw [h2]; exact c6 st h1
  · rw [hlog]; exact c8
  · rw [hlog, List.length_append]; exact c7
  · rw [hlog, List.length_append, List.length_singleton]; omega
  · intro sig hs; rw [c9] at hs; cases hs
  · rw [c10]; exact (Prefix.evaluateBeforeAfter_length hcs (wireProof_of hu) c5).2
  · rw [c14, mem_mergeInserted]
    intro i hi
    obtain ⟨e, he, rfl⟩ := List.mem_map.1 (List.mem_filter.1 hi).1
    exact ⟨by simp only [Fits]; omega, (hu.2.1 e he).1⟩
  · intro x hx
    rw [List.getLast?_append, List.getLast?_singleton] at hx
    simp only [Option.some_or, Option.some.injEq] at hx
    subst hx
    refine ⟨(processed_ok.1 h).2.1, r', ?_, ?_⟩
    · rw [c14, log_length]; simp
    · rw [hlog, List.length_append, List.length_singleton, ← log_length A]; exact c13

theorem toSign_ok {cs : Log.Suite} (hcs : cs.Good) {cfg : Config} {W : List LogEntry} {s : AState} {tbs : Bytes}
    (hd : Describes cs W s) (h : toSign cs cfg s = .ok tbs) :
    auditorTreeHeadTBS cfg s.timestamp s.treeSize (LogSpec.rootHash cs.H (W.map (leafHash cs))) = .ok tbs := by
  unfold toSign at h
  obtain ⟨root, h1, h2⟩ := G.bind_eq_ok.1 h
  have hsz : s.treeSize = (W.map (leafHash cs)).length := by rw [hd.size, List.length_map]
  have hmax : (W.map (leafHash cs)).length ≤ LogMath.maxTreeSize := by
    by_contra hc
    unfold Log.root at h1
    rw [hsz, if_pos (by omega)] at h1
    cases h1
  rw [hd.heads, hsz, Log.root_heads hcs (by
    intro v hv
    obtain ⟨w, _, rfl⟩ := List.mem_map.1 hv; exact leafHash_len hcs w) (by rw [List.length_map]; exact hd.pos) hmax] at h1
  cases h1
  exact h2

theorem Audits.sign {cs : Log.Suite} (hcs : cs.Good) {cfg : Config} {sign : Bytes → G Bytes} {A : List Audited} {s : AState}
    {sig : Bytes} (ha : Audits cs cfg sign A s) (h : (toSign cs cfg s >>= sign) = .ok sig) :
    Audits cs cfg sign A { s with signature := some sig } := by
  obtain ⟨tbs, h1, h2⟩ := G.bind_eq_ok.1 h
  refine ⟨ha.chain, ⟨ha.desc.pos, ha.desc.size, ha.desc.heads, ha.desc.time, ha.desc.root, ha.desc.frontier⟩, ha.good, ha.small,
    ?_, ha.root, ha.inserted, ha.last⟩
  intro sig' hs
  cases hs
  exact ⟨ha.desc.pos, ha.desc.size, ha.desc.time, tbs, toSign_ok hcs ha.desc h1, h2⟩

theorem Audits.typed {cs : Log.Suite} (hcs : cs.Good) {cfg : Config} {sign : Bytes → G Bytes} {A : List Audited} {s : AState}
    (ha : Audits cs cfg sign A s) (hs : s.signature.isSome) : StateTyped cs.hashSize s := by
  have hlen : (log A).map (leafHash cs) ≠ [] := by
    intro hc
    have := ha.desc.pos
    rw [← List.length_map (f := leafHash cs), hc] at this
    cases this
  refine ⟨hs, ?_, ?_, ⟨?_, ?_⟩, ?_, ha.root, ha.inserted⟩
  · rw [ha.desc.time]; exact ha.good.2 _ (by have := ha.desc.pos; omega)
  · rw [ha.desc.size]; exact ha.small
  · rw [ha.desc.heads, heads_length cs.H _ _ (le_refl _) (by rw [List.length_map]; exact ha.small), List.length_map, ha.desc.size]
  · rw [ha.desc.heads]
    have := heads_sized hcs (L := (log A).map (leafHash cs)) (by
      intro v hv
      obtain ⟨w, _, rfl⟩ := List.mem_map.1 hv; exact leafHash_len hcs w)
    exact this
  · obtain ⟨fr, h1, h2⟩ := ha.desc.frontier
    refine ⟨fr, by rw [ha.desc.size]; exact h1, by rw [h2, List.length_map], ?_⟩
    obtain ⟨fr', h3, -, -, hlt, -⟩ := frontier_spine ha.desc.pos ha.small
    rw [h1] at h3
    cases h3
    rw [h2]
    intro t ht
    obtain ⟨x, hx, rfl⟩ := List.mem_map.1 ht
    exact ha.good.2 x (hlt x hx)

/-- A database that holds a written state. -/
def Stored (cs : Log.Suite) (cfg : Config) (sign : Bytes → G Bytes) (A : List Audited) : Option Bytes → Prop
  | none => A = []
  | some raw => ∃ s, Audits cs cfg sign A s ∧ s.signature.isSome ∧ s.marshal = .ok raw

theorem newAuditor_ok {hs : Nat} {cfg : Config} {key : Bytes} {stored : Option Bytes} {a : Auditor}
    (h : newAuditor hs cfg key stored = .ok a) :
    a.stored = stored ∧ (stored = none → a.state = none) ∧
    (∀ raw, stored = some raw → ∃ s, newAuditorState hs raw = .ok (s, []) ∧ a.state = some s) := by
  unfold newAuditor at h
  split at h
  · cases h
  · obtain ⟨k, _, h⟩ := G.bind_eq_ok.1 h
    split at h
    · cases h
    · cases stored with
      | none => cases h; exact ⟨rfl, fun _ => rfl, fun raw hc => by cases hc⟩
      | some raw =>
        simp only at h
        cases hr : newAuditorState hs raw with
        | error e => rw [hr] at h; cases h
        | ok x =>
          obtain ⟨s, rest⟩ := x
          rw [hr] at h
          simp only at h
          split at h
          · cases h
          · next hl =>
            cases h
            have : rest = [] := List.length_eq_zero_iff.1 (by simpa using hl)
            subst this
            refine ⟨rfl, fun hc => (by cases hc), fun raw' hc => ?_⟩
            cases hc
            exact ⟨s, hr, rfl⟩

theorem restart_audits {cs : Log.Suite} (hcs : cs.Good) {cfg : Config} {sign : Bytes → G Bytes} {key : Bytes} {A : List Audited}
    {a : Auditor} {stored : Option Bytes} (hs : Stored cs cfg sign A stored)
    (h : newAuditor cs.hashSize cfg key stored = .ok a) : AuditsO cs cfg sign A a.state ∧
      (∀ s, a.state = some s → s.signature.isSome) := by
  obtain ⟨-, h2, h3⟩ := newAuditor_ok h
  cases stored with
  | none => rw [h2 rfl]; exact ⟨hs, fun s hc => by cases hc⟩
  | some raw =>
    obtain ⟨s, hA, hsig, hm⟩ := hs
    obtain ⟨s', h4, h5⟩ := h3 raw rfl
    have := (codec_state cs.hashSize).rt s raw [] (hA.typed hcs hsig) hm
    rw [List.append_nil, h4] at this
    cases this
    rw [h5]
    exact ⟨hA, fun x hx => by cases hx; exact hsig⟩

/-- the updates of a history -/
def updates (A : List Audited) : List AuditorUpdate := A.map Audited.update

/-- The invariant of executions. -/
structure Inv (cs : Log.Suite) (cfg : Config) (sign : Bytes → G Bytes) (us kept : List AuditorUpdate)
    (hs : List AuditorTreeHead) (a : Auditor) : Prop where
  state : ∃ A, updates A = us ∧ AuditsO cs cfg sign A a.state
  stored : ∃ A, updates A = kept ∧ Stored cs cfg sign A a.stored
  heads : ∀ h ∈ hs, ∃ A, Chain cs A ∧ HeadOf cs cfg sign (log A) h

theorem exec_inv {cs : Log.Suite} (hcs : cs.Good) {cfg : Config} {key : Bytes} {sign : Bytes → G Bytes}
    {U : AuditorUpdate → Prop} {P : (Bytes → G Unit) → Prop} (hU : ∀ u, U u → UpdateOk cs u)
    {us kept : List AuditorUpdate} {hs : List AuditorTreeHead} {a : Auditor}
    (h : Exec cs cfg key sign U P us kept hs a) : Inv cs cfg sign us kept hs a := by
  induction h with
  | start h =>
    obtain ⟨h1, h2, -⟩ := newAuditor_ok h
    exact ⟨⟨[], rfl, by rw [h2 rfl]; rfl⟩, ⟨[], rfl, by rw [h1]; rfl⟩, by simp⟩
  | @update us kept hs a u _ hu hn ih =>
    obtain ⟨⟨A, hAu, hA⟩, hst, hh⟩ := ih
    unfold process
    cases hp : processed cs cfg a.state u with
    | error e => exact ⟨⟨A, hAu, hA⟩, hst, hh⟩
    | ok s =>
      refine ⟨⟨_, ?_, audits_step hcs hA (hU u hu) hn hp⟩, hst, hh⟩
      unfold updates at *
      rw [List.map_append, hAu]; rfl
  | @commit us kept hs a put _ hput ih =>
    obtain ⟨⟨A, hAu, hA⟩, hst, hh⟩ := ih
    have keep : Inv cs cfg sign us (keptAfter us kept a a) (hs ++ []) a := by
      refine ⟨⟨A, hAu, hA⟩, ?_, by simpa using hh⟩
      rw [keptAfter, if_pos rfl]; exact hst
    unfold Audit.commit
    cases hs' : a.state with
    | none => exact keep
    | some s =>
      rw [hs'] at hA
      have hA' : Audits cs cfg sign A s := hA
      simp only
      cases hsig : s.signature with
      | some sig =>
        refine ⟨⟨A, hAu, by rw [hs']; exact hA⟩, keep.stored, ?_⟩
        intro h hm
        rcases List.mem_append.1 hm with hm | hm
        · exact hh h hm
        · rw [returned, List.mem_singleton] at hm
          subst hm
          exact ⟨A, hA'.chain, hA'.head sig hsig⟩
      | none =>
        simp only
        cases hts : toSign cs cfg s >>= sign with
        | error e => exact keep
        | ok sig =>
          have hB := hA'.sign hcs hts
          simp only
          cases hm : AState.marshal { s with signature := some sig } with
          | error e =>
            refine ⟨⟨A, hAu, hB⟩, ?_, by simpa [returned] using hh⟩
            rw [keptAfter, if_pos rfl]; exact hst
          | ok raw =>
            simp only
            cases hp : put raw with
            | error e =>
              refine ⟨⟨A, hAu, hB⟩, ?_, by simpa [returned] using hh⟩
              rw [keptAfter, if_pos rfl]; exact hst
            | ok x =>
              refine ⟨⟨A, hAu, hB⟩, ?_, ?_⟩
              · by_cases he : (some raw : Option Bytes) = a.stored
                · obtain ⟨B, hB1, hB2⟩ := hst
                  exact ⟨B, by rw [keptAfter, if_pos he]; exact hB1, by simp only; rw [he]; exact hB2⟩
                · exact ⟨A, by rw [keptAfter, if_neg he]; exact hAu, ⟨_, hB, rfl, hm⟩⟩
              · intro h hmem
                rcases List.mem_append.1 hmem with hmem | hmem
                · exact hh h hmem
                · rw [returned, List.mem_singleton] at hmem
                  subst hmem
                  exact ⟨A, hB.chain, hB.head sig rfl⟩
  | @restart us kept hs a b _ hb ih =>
    obtain ⟨-, ⟨A, hAu, hA⟩, hh⟩ := ih
    refine ⟨⟨A, hAu, (restart_audits hcs hA hb).1⟩, ⟨A, hAu, ?_⟩, hh⟩
    rw [(newAuditor_ok hb).1]
    exact hA

/-! ### writing the state -/

theorem wSeq_total {a b : G Bytes} (ha : ∃ x, a = .ok x) (hb : ∃ x, b = .ok x) : ∃ x, (a +> b) = .ok x := by
  obtain ⟨x, rfl⟩ := ha
  obtain ⟨y, rfl⟩ := hb
  exact ⟨x ++ y, rfl⟩

/-- The state can be written unless the signature or the list of inserted VRF outputs is too long. -/
theorem marshal_iff (s : AState) :
    (∃ raw, s.marshal = .ok raw) ↔ (s.signature.getD []).length < 2 ^ 16 ∧ s.inserted.length < 2 ^ 16 := by
  constructor
  · rintro ⟨raw, h⟩
    unfold AState.marshal at h
    obtain ⟨x1, y1, h1, h, -⟩ := wSeq_ok.1 h
    obtain ⟨x2, y2, -, h, -⟩ := wSeq_ok.1 h
    obtain ⟨x3, y3, -, h, -⟩ := wSeq_ok.1 h
    obtain ⟨x4, y4, -, h, -⟩ := wSeq_ok.1 h
    refine ⟨?_, ?_⟩
    · unfold AuditorTreeHead.marshal at h1
      obtain ⟨_, _, -, h1, -⟩ := wSeq_ok.1 h1
      obtain ⟨_, _, -, h1, -⟩ := wSeq_ok.1 h1
      unfold wBytes at h1
      split at h1
      · cases h1
      · simp only at *; omega
    · unfold marshalInserted at h
      split at h
      · cases h
      · omega
  · rintro ⟨h1, h2⟩
    unfold AState.marshal
    refine wSeq_total ?_ (wSeq_total ?_ (wSeq_total ?_ (wSeq_total ⟨_, rfl⟩ ?_)))
    · unfold AuditorTreeHead.marshal
      refine wSeq_total ⟨_, rfl⟩ (wSeq_total ⟨_, rfl⟩ ?_)
      unfold wBytes
      rw [if_neg (by simp only; omega)]
      exact wSeq_total ⟨_, rfl⟩ ⟨_, rfl⟩
    · exact wLoop_total (fun a => ⟨_, rfl⟩) _
    · exact wLoop_total (fun a => ⟨_, rfl⟩) _
    · unfold marshalInserted
      rw [if_neg (by omega)]
      exact wSeq_total ⟨_, rfl⟩ (wLoop_total (fun a => wSeq_total ⟨_, rfl⟩ ⟨_, rfl⟩) _)

/-! ### one log -/

theorem chain_take {cs : Log.Suite} {A : List Audited} (h : Chain cs A) : ∀ k, Chain cs (A.take k) := by
  induction h with
  | nil => intro k; rw [List.take_nil]; exact .nil
  | @snoc A u before after hA h1 h2 h3 ih =>
    intro k
    by_cases hk : k ≤ A.length
    · rw [List.take_append_of_le_length hk]; exact ih k
    · rw [List.take_of_length_le (by rw [List.length_append, List.length_singleton]; omega)]
      exact .snoc hA h1 h2 h3

/-- all heads are of one log -/
structure One (cs : Log.Suite) (cfg : Config) (sign : Bytes → G Bytes) (us kept : List AuditorUpdate)
    (hs : List AuditorTreeHead) (a : Auditor) (A : List Audited) (k : Nat) : Prop where
  le : k ≤ A.length
  us : updates A = us
  kept : updates (A.take k) = kept
  state : AuditsO cs cfg sign A a.state
  stored : Stored cs cfg sign (A.take k) a.stored
  signed : ∀ s, a.state = some s → s.signature.isSome → k = A.length
  heads : ∀ h ∈ hs, ∃ m, m ≤ k ∧ HeadOf cs cfg sign (log (A.take m)) h
  small : ∀ x ∈ A, x.update.added.length < 2 ^ 16

theorem Stored.pos {cs : Log.Suite} {cfg : Config} {sign : Bytes → G Bytes} {A : List Audited} {raw : Option Bytes}
    (h : Stored cs cfg sign A raw) (hA : A ≠ []) : ∃ b, raw = some b := by
  cases raw with
  | none => exact absurd h hA
  | some b => exact ⟨b, rfl⟩

theorem exec_one {cs : Log.Suite} (hcs : cs.Good) {cfg : Config} {key : Bytes} {sign : Bytes → G Bytes}
    (hsign : ∀ b sig, sign b = .ok sig → sig.length < 2 ^ 16)
    {us kept : List AuditorUpdate} {hs : List AuditorTreeHead} {a : Auditor}
    (h : Exec cs cfg key sign (fun u => UpdateOk cs u ∧ u.added.length < 2 ^ 16) (fun put => ∀ b, put b = .ok ()) us kept hs a) :
    ∃ A k, One cs cfg sign us kept hs a A k := by
  induction h with
  | start h =>
    obtain ⟨h1, h2, -⟩ := newAuditor_ok h
    refine ⟨[], 0, le_refl _, rfl, rfl, by rw [h2 rfl]; rfl, by rw [h1]; rfl, ?_, by simp, by simp⟩
    intro s hs; rw [h2 rfl] at hs; cases hs
  | @update us kept hs a u _ hu hn ih =>
    obtain ⟨A, k, ih⟩ := ih
    unfold process
    cases hp : processed cs cfg a.state u with
    | error e => exact ⟨A, k, ih⟩
    | ok s =>
      have hstep := audits_step hcs ih.state hu.1 hn hp
      have htake : ∀ m, m ≤ k → (A ++ [(⟨u, ⟨u.timestamp, s.prefixTree⟩⟩ : Audited)]).take m = A.take m :=
        fun m hm => List.take_append_of_le_length (le_trans hm ih.le)
      refine ⟨_, k, ?_, ?_, by rw [htake k (le_refl _)]; exact ih.kept, hstep, by rw [htake k (le_refl _)]; exact ih.stored, ?_, ?_, ?_⟩
      · rw [List.length_append]; have := ih.le; omega
      · have := ih.us
        unfold updates at *
        rw [List.map_append, this]; rfl
      · intro s' hs' hsig
        cases hs'
        obtain ⟨_, _, _, _, _, _, _, _, _, _, _, _, h9, _⟩ := processed_sound hcs ih.state.desc.1 ih.state.desc.2.1
          (by rw [← ih.state.desc.1.size_eq]; exact hn) hu.1 hp
        rw [h9] at hsig
        cases hsig
      · intro h hm
        obtain ⟨m, hm1, hm2⟩ := ih.heads h hm
        exact ⟨m, hm1, by rw [htake m hm1]; exact hm2⟩
      · intro x hx
        rcases List.mem_append.1 hx with hx | hx
        · exact ih.small x hx
        · rw [List.mem_singleton] at hx
          subst hx
          exact hu.2
  | @commit us kept hs a put _ hput ih =>
    obtain ⟨A, k, ih⟩ := ih
    have keep : One cs cfg sign us (keptAfter us kept a a) (hs ++ []) a A k := by
      refine ⟨ih.le, ih.us, ?_, ih.state, ih.stored, ih.signed, by simpa using ih.heads, ih.small⟩
      rw [keptAfter, if_pos rfl]; exact ih.kept
    have hA := ih.state
    unfold Audit.commit
    cases hs' : a.state with
    | none => exact ⟨A, k, keep⟩
    | some s =>
      rw [hs'] at hA
      have hA' : Audits cs cfg sign A s := hA
      simp only
      cases hsig : s.signature with
      | some sig =>
        refine ⟨A, k, keep.le, keep.us, keep.kept, keep.state, keep.stored, keep.signed, ?_, ih.small⟩
        intro h hm
        rcases List.mem_append.1 hm with hm | hm
        · exact ih.heads h hm
        · rw [returned, List.mem_singleton] at hm
          subst hm
          have hk := ih.signed s hs' (by rw [hsig]; rfl)
          exact ⟨k, le_refl _, by rw [hk, List.take_length]; exact hA'.head sig hsig⟩
      | none =>
        simp only
        cases hts : toSign cs cfg s >>= sign with
        | error e => exact ⟨A, k, keep⟩
        | ok sig =>
          have hB := hA'.sign hcs hts
          simp only
          have hm : ∃ raw, AState.marshal { s with signature := some sig } = .ok raw := by
            rw [marshal_iff]
            obtain ⟨tbs, -, h2⟩ := G.bind_eq_ok.1 hts
            refine ⟨hsign tbs sig h2, ?_⟩
            have hne : A ≠ [] := by
              rintro rfl
              have := hA'.desc.pos
              simp [log] at this
            have e1 : A.getLast? = some (A.getLast hne) := List.getLast?_eq_some_getLast hne
            obtain ⟨-, r, e2, -⟩ := hA'.last _ e1
            have h3 := ih.small _ (List.getLast_mem hne)
            simp only
            rw [e2, mem_mergeInserted]
            refine lt_of_le_of_lt (List.length_filter_le _ _) ?_
            rw [List.length_map]
            exact h3
          obtain ⟨raw, hm⟩ := hm
          rw [hm]
          simp only
          rw [hput raw]
          simp only
          have hkept : keptAfter us kept a ⟨some { s with signature := some sig }, some raw⟩ = us := by
            unfold keptAfter
            split
            · next he =>
              have hst := ih.stored
              simp only at he
              rw [← he] at hst
              obtain ⟨s0, h1, h2, h3⟩ := hst
              have d1 := (codec_state cs.hashSize).rt s0 raw [] (h1.typed hcs h2) h3
              have d2 := (codec_state cs.hashSize).rt _ raw [] (hB.typed hcs rfl) hm
              rw [d1] at d2
              have e := (Prod.mk.inj (Except.ok.inj d2)).1
              have e1 := h1.desc.size
              have e2 := hB.desc.size
              rw [e, e2, log_length, log_length, List.length_take] at e1
              rw [← ih.kept, List.take_of_length_le (by omega), ih.us]
            · rfl
          refine ⟨A, A.length, le_refl _, ih.us, ?_, hB, ⟨_, by rw [List.take_length]; exact hB, rfl, hm⟩, fun _ _ _ => rfl, ?_, ih.small⟩
          · rw [hkept, List.take_length]; exact ih.us
          · intro h hmem
            rcases List.mem_append.1 hmem with hmem | hmem
            · obtain ⟨m, hm1, hm2⟩ := ih.heads h hmem
              exact ⟨m, le_trans hm1 ih.le, hm2⟩
            · rw [returned, List.mem_singleton] at hmem
              subst hmem
              exact ⟨A.length, le_refl _, by rw [List.take_length]; exact hB.head sig rfl⟩
  | @restart us kept hs a b _ hb ih =>
    obtain ⟨A, k, ih⟩ := ih
    obtain ⟨h1, h2⟩ := restart_audits hcs ih.stored hb
    have hl : (A.take k).length = k := by rw [List.length_take]; have := ih.le; omega
    refine ⟨A.take k, k, by omega, ih.kept, by rw [List.take_take, Nat.min_self]; exact ih.kept, h1, ?_, fun _ _ _ => hl.symm, ?_,
      fun x hx => ih.small x (List.mem_of_mem_take hx)⟩
    · rw [List.take_take, Nat.min_self, (newAuditor_ok hb).1]; exact ih.stored
    · intro h hm
      obtain ⟨m, hm1, hm2⟩ := ih.heads h hm
      exact ⟨m, hm1, by rw [List.take_take, Nat.min_eq_left hm1]; exact hm2⟩

end Katie.Audit

namespace Katie.Audit
open Katie Katie.Wire Katie.Prefix

/-! ### the binary search among inserted VRF outputs -/

/-- sorted by VRF output, without repetitions -/
def Ascending (l : List Inserted) : Prop := l.Pairwise (fun a b => bytesLt a.vrf b.vrf = true)

theorem searchInserted_spec {l : List Inserted} (hl : Ascending l) (v : Bytes) : ∀ (fuel i j : Nat), i ≤ j → j ≤ l.length →
    j - i ≤ fuel → (∀ k e, k < i → l[k]? = some e → bytesLt e.vrf v = true) →
    (∀ k e, j ≤ k → l[k]? = some e → bytesLt e.vrf v = false) →
    (∀ k e, k < searchInserted l v fuel i j → l[k]? = some e → bytesLt e.vrf v = true) ∧
    (∀ k e, searchInserted l v fuel i j ≤ k → l[k]? = some e → bytesLt e.vrf v = false) := by
  intro fuel
  induction fuel with
  | zero =>
    intro i j h1 h2 h3 h4 h5
    have : i = j := by omega
    subst this
    exact ⟨h4, h5⟩
  | succ fuel ih =>
    intro i j h1 h2 h3 h4 h5
    unfold searchInserted
    by_cases hij : i < j
    · rw [if_pos hij]
      have hm : (i + j) / 2 < l.length := by omega
      rw [List.getElem?_eq_getElem hm]
      simp only
      have hmono : ∀ k k' (hk : k < k') (hk' : k' < l.length), bytesLt l[k].vrf l[k'].vrf = true := by
        intro k k' hk hk'
        exact List.pairwise_iff_getElem.1 hl k k' (by omega) hk' hk
      by_cases hb : bytesLt l[(i + j) / 2].vrf v = true
      · rw [if_pos hb]
        refine ih _ _ (by omega) h2 (by omega) ?_ h5
        intro k e hk he
        by_cases hk2 : k = (i + j) / 2
        · subst hk2
          rw [List.getElem?_eq_getElem hm] at he
          cases he
          exact hb
        · have hkl : k < l.length := by omega
          rw [List.getElem?_eq_getElem hkl] at he
          cases he
          exact bytesLt_trans (hmono k _ (by omega) hm) hb
      · rw [if_neg hb]
        refine ih _ _ (by omega) (by omega) (by omega) h4 ?_
        intro k e hk he
        have hkl : k < l.length := by
          by_contra hc
          rw [List.getElem?_eq_none (by omega)] at he
          cases he
        by_cases hk2 : k = (i + j) / 2
        · subst hk2
          rw [List.getElem?_eq_getElem hm] at he
          cases he
          simpa using hb
        · rw [List.getElem?_eq_getElem hkl] at he
          cases he
          by_contra hc
          exact hb (bytesLt_trans (hmono _ k (by omega) hkl) (by simpa using hc))
    · rw [if_neg hij]
      have : i = j := by omega
      subst this
      exact ⟨h4, h5⟩

theorem addedSince_of_mem {s : AState} {x : Nat} {i : Inserted} (hs : Ascending s.inserted) (hi : i ∈ s.inserted)
    (hx : x < i.pos) : addedSince (some s) x i.vrf = true := by
  obtain ⟨m, hm, rfl⟩ := List.mem_iff_getElem.1 hi
  obtain ⟨h1, h2⟩ := searchInserted_spec hs s.inserted[m].vrf s.inserted.length 0 s.inserted.length (Nat.zero_le _) (le_refl _)
    (by omega) (by intro k e hk; omega) (by
      intro k e hk he
      rw [List.getElem?_eq_none hk] at he
      cases he)
  unfold addedSince
  simp only
  set k := searchInserted s.inserted s.inserted[m].vrf s.inserted.length 0 s.inserted.length with hk
  have hkm : ¬ m < k := by
    intro hc
    have := h1 m _ hc (List.getElem?_eq_getElem hm)
    rw [bytesLt_irrefl] at this
    cases this
  have hkl : k < s.inserted.length := by omega
  have hkm' : ¬ k < m := by
    intro hc
    have h3 := h2 k _ (le_refl _) (List.getElem?_eq_getElem hkl)
    rw [List.pairwise_iff_getElem.1 hs k m hkl hm hc] at h3
    cases h3
  have hkm'' : k = m := by omega
  rw [hkm'', List.getElem?_eq_getElem hm]
  simp [hx]

theorem sortedStrictly_pairwise : ∀ (l : List Entry), sortedStrictly l = true →
    l.Pairwise (fun a b => bytesLt a.vrf b.vrf = true) := by
  intro l
  induction l with
  | nil => intro _; exact List.Pairwise.nil
  | cons a l ih =>
    intro h
    cases l with
    | nil => exact List.pairwise_singleton _ _
    | cons b l =>
      unfold sortedStrictly at h
      rw [Bool.and_eq_true] at h
      have h2 := ih h.2
      rw [List.pairwise_cons] at h2
      refine List.Pairwise.cons ?_ (ih h.2)
      intro c hc
      rcases List.mem_cons.1 hc with rfl | hc
      · exact h.1
      · exact bytesLt_trans h.1 (h2.1 c hc)

theorem ascending_inserted {l : List Entry} (h : sortedStrictly l = true) (x : Nat) (r : Option Nat) :
    Ascending (mergeInserted [] (l.map (fun e => ⟨x, e.vrf⟩)) r) := by
  rw [mem_mergeInserted]
  refine List.Pairwise.filter _ ?_
  rw [List.pairwise_map]
  exact sortedStrictly_pairwise l h

end Katie.Audit
