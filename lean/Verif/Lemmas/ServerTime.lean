import Verif.Lemmas.ServerLabel
import Verif.Lemmas.AuditorExec

/-
The server's providers, when only timestamps are asked for.
-/

namespace Katie.Server
open Katie Katie.Wire Katie.Alg Katie.AuditSpec Katie.SearchSpec Katie.SearchTree Katie.Audit Prog

theorem lookup_mem {β : Type} {m : List (Nat × β)} {x : Nat} {b : β} (h : m.lookup x = some b) : (x, b) ∈ m := by
  induction m with
  | nil => simp at h
  | cons e m ih =>
    obtain ⟨y, c⟩ := e
    by_cases hx : x = y
    · subst hx
      rw [lookup_cons_eq] at h
      cases h
      simp
    · rw [lookup_cons_ne hx] at h
      exact List.mem_cons_of_mem _ (ih h)

theorem lookup_none {β : Type} {m : List (Nat × β)} {x : Nat} (h : m.lookup x = none) : ∀ e ∈ m, e.1 ≠ x := by
  induction m with
  | nil => simp
  | cons e m ih =>
    obtain ⟨y, c⟩ := e
    by_cases hx : x = y
    · subst hx
      rw [lookup_cons_eq] at h
      cases h
    · rw [lookup_cons_ne hx] at h
      intro e he
      rcases List.mem_cons.1 he with rfl | he
      · exact fun h => hx h.symm
      · exact ih h e he

theorem addTimestamp_true {f : Nat → Nat} (hf : ∀ x y, x ≤ y → f x ≤ f y) {m : List (Nat × Nat)}
    (hm : ∀ e ∈ m, e.2 = f e.1) {x : Nat} (hx : m.lookup x = none) : addTimestamp m x (f x) = .ok ((x, f x) :: m) := by
  unfold addTimestamp
  rw [if_neg, if_neg]
  · rw [List.any_eq_true]
    rintro ⟨e, he, hc⟩
    rw [decide_eq_true_iff, hm e he] at hc
    rcases hc with ⟨h1, h2⟩ | ⟨h1, h2⟩
    · have := hf x e.1 (by omega); omega
    · have := hf e.1 x (by omega); omega
  · rw [List.any_eq_true]
    rintro ⟨e, he, hc⟩
    exact lookup_none hx e he (by simpa using (beq_iff_eq.1 hc).symm)

/-- a provider over a database with the timestamps `f`, for the entries with property `P` -/
structure Knows (f : Nat → Nat) (db : ServerDB) (P : Nat → Prop) (p : Provider Produced) : Prop where
  known : ∀ e ∈ p.timestamps, e.2 = f e.1
  rest : ∀ x, P x → p.timestamps.lookup x = none → ∃ e, db.entry x = .ok e ∧ e.timestamp = f x

theorem Knows.get {f : Nat → Nat} (hf : ∀ x y, x ≤ y → f x ≤ f y) {db : ServerDB} {index : List Nat} {P : Nat → Prop}
    {p : Provider Produced} (h : Knows f db P p) {x : Nat} (hx : P x) :
    ∃ p', p.getTimestamp (Produced.handle db index) x = (.ok (f x), p') ∧ Knows f db P p' ∧
      ∀ y t, p.timestamps.lookup y = some t → p'.timestamps.lookup y = some t := by
  unfold Provider.getTimestamp
  cases hl : p.timestamps.lookup x with
  | some t =>
    have ht : t = f x := h.known _ (lookup_mem hl)
    rw [ht]
    exact ⟨p, rfl, h, fun _ _ h => h⟩
  | none =>
    obtain ⟨e, he, ht⟩ := h.rest x hx hl
    have hg : (Produced.handle db index).getTs x p.state =
        (.ok (f x), { p.state with timestamps := p.state.timestamps ++ [f x] }) := by
      change Produced.getTs db x p.state = _
      unfold Produced.getTs
      rw [he, ← ht]
    simp only []
    rw [hg]
    simp only []
    rw [addTimestamp_true hf h.known hl]
    refine ⟨_, rfl, ⟨?_, ?_⟩, ?_⟩
    · intro e he
      rcases List.mem_cons.1 he with rfl | he
      · rfl
      · exact h.known e he
    · intro y hy hl'
      refine h.rest y hy ?_
      by_cases hyx : y = x
      · rw [hyx]; exact hl
      · rwa [lookup_cons_ne hyx] at hl'
    · intro y t hy
      by_cases hyx : y = x
      · rw [hyx, hl] at hy; cases hy
      · simpa [lookup_cons_ne hyx] using hy

/-- the answers of an algorithm that knows all timestamps -/
def allTimes (f : Nat → Nat) : (q : Req) → G q.Resp := full f []

theorem Knows.run {α : Type} {f : Nat → Nat} (hf : ∀ x y, x ≤ y → f x ≤ f y) {db : ServerDB} {index : List Nat}
    {P : Nat → Prop} (prog : Prog α) : ∀ {p : Provider Produced}, Knows f db P p → Asks P prog →
    (p.run (Produced.handle db index) prog).1 = prog.eval (allTimes f) ∧
      Knows f db P (p.run (Produced.handle db index) prog).2 := by
  induction prog with
  | ret r => intro p h _; exact ⟨rfl, h⟩
  | op q k ih =>
    intro p h ha
    obtain ⟨⟨x, rfl, hx⟩, hk⟩ := ha
    obtain ⟨p', h1, h2, _⟩ := h.get hf (index := index) hx
    have : (p.answer (Produced.handle db index) (.ts x)) = (.ok (f x), p') := h1
    unfold Provider.run
    rw [this]
    exact ih _ h2 (hk _)

/-- `prevDLE` is the previous rightmost distinguished log entry of the log with the new entry; the server refuses to
go back in time. -/
theorem previousDistinguished_spec {env : Env} {st : Store} {W : List LogEntry} {now : Nat}
    (hentry : ∀ (x : Nat) e, W[x]? = some e → getEntry env st x = .ok e)
    (hg : GoodTimes (timeOf W) W.length) (hnow : now < 2 ^ 64) (hn : W.length < 2 ^ 63) :
    (∀ r, previousDistinguished env st W.length now = .ok r → 0 < W.length → timeOf W (W.length - 1) ≤ now) ∧
    ((0 < W.length → timeOf W (W.length - 1) ≤ now) → ∃ r, previousDistinguished env st W.length now = .ok r ∧
      IsGreatest' (fun y => Distinguished (Wide env.cfg.rmw) (timeOf (W ++ [⟨now, []⟩])) (W.length + 1) y ∧
        y < W.length) r) := by
  -- the timestamp of the last entry
  have hlast : 0 < W.length → ∃ p, (newProvider ({} : Produced)).getTimestamp (Produced.handle (serverDB env st) []) (W.length - 1) =
      (.ok (timeOf W (W.length - 1)), p) ∧ p.timestamps = [(W.length - 1, timeOf W (W.length - 1))] ∧
      p.prefixTrees = [] := by
    intro h0
    have he := hentry (W.length - 1) W[W.length - 1] (List.getElem?_eq_getElem (by omega))
    rw [timeOf_lt (show W.length - 1 < W.length by omega)]
    simp only [Provider.getTimestamp, newProvider, List.lookup_nil, Produced.handle, Produced.getTs, serverDB, he]
    exact ⟨_, rfl, rfl, rfl⟩
  constructor
  · intro r hr h0
    obtain ⟨p, h1, _⟩ := hlast h0
    unfold previousDistinguished at hr
    simp only [if_pos h0, h1] at hr
    by_cases hc : now < timeOf W (W.length - 1)
    · rw [if_pos hc] at hr; cases hr
    · omega
  · intro hle
    have hgood : GoodTimes (timeOf (W ++ [⟨now, []⟩])) (W ++ [(⟨now, []⟩ : LogEntry)]).length :=
      goodTimes_snoc hg hle hnow
    have hlen : (W ++ [(⟨now, []⟩ : LogEntry)]).length = W.length + 1 := by simp
    set f := clip (W ++ [⟨now, []⟩]) with hf
    have hmono : ∀ x y, x ≤ y → f x ≤ f y := clip_mono hgood (by omega)
    have hfx : ∀ x, x < W.length → f x = timeOf W x := by
      intro x hx; rw [hf, clip_eq (by omega), timeOf_append hx]
    have hfn : f W.length = now := by rw [hf, clip_eq (by omega), timeOf_snoc]
    -- the provider before the new entry is retained
    have hp : ∃ p : Provider Produced, previousDistinguished env st W.length now =
          ((p.addRetained [] [(W.length, ⟨now, []⟩)]).2.run (Produced.handle (serverDB env st) []) (Alg.previousRightmost env.cfg (W.length + 1))).1 ∧
        (∀ e ∈ p.timestamps, e.2 = f e.1) ∧ (∀ e ∈ p.timestamps, e.1 < W.length) ∧ p.prefixTrees = [] := by
      by_cases h0 : 0 < W.length
      · obtain ⟨p, h1, h2, h3⟩ := hlast h0
        refine ⟨p, ?_, ?_, ?_, h3⟩
        · unfold previousDistinguished
          simp only [if_pos h0, h1, if_neg (Nat.not_lt.2 (hle h0))]
          rfl
        · rw [h2]; intro e he; rw [List.mem_singleton] at he; subst he; rw [hfx _ (by simp; omega)]
        · rw [h2]; intro e he; rw [List.mem_singleton] at he; subst he; simp; omega
      · refine ⟨newProvider {}, ?_, ?_, ?_, rfl⟩
        · unfold previousDistinguished
          simp only [if_neg h0]
          rfl
        · intro e he; cases he
        · intro e he; cases he
    obtain ⟨p, h1, h2, h3, h4⟩ := hp
    have hnone : p.timestamps.lookup W.length = none := by
      cases hl : p.timestamps.lookup W.length with
      | none => rfl
      | some t => exact absurd (h3 _ (lookup_mem hl)) (by simp)
    have hts : (p.addRetained [] [(W.length, ⟨now, []⟩)]).2.timestamps = (W.length, now) :: p.timestamps := by
      have hadd := addTimestamp_true hmono h2 hnone
      rw [hfn] at hadd
      simp only [Provider.addRetained, Provider.retainLoop, hadd, addPrefixTree, h4, List.lookup_nil]
    have hknow : Knows f (serverDB env st) (fun x => x < W.length ∨ x = W.length) (p.addRetained [] [(W.length, ⟨now, []⟩)]).2 := by
      refine ⟨?_, ?_⟩
      · rw [hts]
        intro e he
        rcases List.mem_cons.1 he with rfl | he
        · exact hfn.symm
        · exact h2 e he
      · rintro x (hx | hx) hl
        · exact ⟨W[x], hentry x _ (List.getElem?_eq_getElem hx), by rw [hfx x hx, timeOf_lt hx]⟩
        · rw [hts, hx, lookup_cons_eq] at hl; cases hl
    have hspine : ∀ y, 0 < W.length → Spine 0 W.length y → y < W.length ∨ y = W.length := by
      intro y h0 hy
      obtain ⟨fr, _, hsp, _, hlt, _⟩ := frontier_spine (n := W.length) h0 (by omega)
      exact .inl (hlt y ((hsp y).2 hy))
    have hA : TsOk (allTimes f) (timeOf (W ++ [⟨now, []⟩])) (W.length + 1) := by
      intro x hx
      change Except.ok (f x) = _
      rw [hf, clip_eq (by omega)]
      rfl
    obtain ⟨r, hr, hmax⟩ := previousRightmost_eval (cfg := env.cfg) hA (hlen ▸ hgood)
    refine ⟨r, ?_, hmax⟩
    rw [h1, (hknow.run hmono _ (previousRightmost_asks hspine (.inr rfl))).1]
    exact hr

end Katie.Server
