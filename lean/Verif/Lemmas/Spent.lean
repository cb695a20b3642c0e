import Verif.Lemmas.Budget
import Verif.Lemmas.CopathLen
import Verif.Lemmas.ServeCalm

/-
What the requests of an algorithm add to the proof of the server.
-/

namespace Katie.Alg
open Katie Katie.Wire Katie.Ladder Katie.Props Katie.SearchSpec Katie.SearchTree Prog

/-- The provider `p'` comes from `p` by requests about the entries `A` only, at most `k` of them for prefix proofs:
every timestamp is fetched at most once. -/
structure Spent (n : Nat) (E : Nat → LogEntry) (A : Nat → Prop) (k : Nat) (p p' : Provider Produced) : Prop where
  ts : ∃ new : List (Nat × Nat), p'.timestamps = new ++ p.timestamps ∧
    p'.state.timestamps = p.state.timestamps ++ (new.map (·.2)).reverse ∧ ∀ e ∈ new, A e.1 ∧ e.1 < n ∧ e.2 = (E e.1).timestamp
  proofs : ∃ new : List (Nat × List Nat), p'.state.proofs = p.state.proofs ++ new ∧ new.length ≤ k
  roots : p'.state.roots = p.state.roots
  logEntries : p'.logEntries = p.logEntries

/-- the timestamps that the provider knows are those of the log -/
def Held (n : Nat) (E : Nat → LogEntry) (p : Provider Produced) : Prop := ∀ e ∈ p.timestamps, e.1 < n ∧ e.2 = (E e.1).timestamp

section
variable {n : Nat} {E : Nat → LogEntry} {A B : Nat → Prop} {k k' : Nat} {p p' p'' : Provider Produced} {db : ServerDB} {index : List Nat}

theorem Spent.refl : Spent n E A k p p := ⟨⟨[], rfl, by simp, by simp⟩, ⟨[], by simp, by simp⟩, rfl, rfl⟩

theorem Spent.trans (h : Spent n E A k p p') (h' : Spent n E A k' p' p'') : Spent n E A (k + k') p p'' := by
  obtain ⟨⟨t1, a1, a2, a3⟩, ⟨f1, b1, b2⟩, c1, d1⟩ := h
  obtain ⟨⟨t2, x1, x2, x3⟩, ⟨f2, y1, y2⟩, z1, w1⟩ := h'
  refine ⟨⟨t2 ++ t1, by rw [x1, a1, List.append_assoc], by rw [x2, a2]; simp, ?_⟩, ⟨f1 ++ f2, by rw [y1, b1, List.append_assoc], by simp; omega⟩,
    z1.trans c1, w1.trans d1⟩
  intro e he
  rcases List.mem_append.1 he with he | he
  · exact x3 e he
  · exact a3 e he

theorem Spent.mono (h : Spent n E A k p p') (hA : ∀ x, A x → B x) (hk : k ≤ k') : Spent n E B k' p p' := by
  obtain ⟨⟨t1, a1, a2, a3⟩, ⟨f1, b1, b2⟩, c1, d1⟩ := h
  exact ⟨⟨t1, a1, a2, fun e he => ⟨hA _ (a3 e he).1, (a3 e he).2⟩⟩, ⟨f1, b1, by omega⟩, c1, d1⟩

theorem Spent.held (h : Spent n E A k p p') (hp : Held n E p) : Held n E p' := by
  obtain ⟨⟨t1, a1, a2, a3⟩, -⟩ := h
  intro e he
  rw [a1] at he
  rcases List.mem_append.1 he with he | he
  · exact (a3 e he).2
  · exact hp e he

theorem getTimestamp_spent (hl : LogOf n E db) (ht : GoodTimes (fun x => (E x).timestamp) n) (hp : Held n E p) {x : Nat} (hx : A x) :
    Spent n E A 0 p (p.getTimestamp (Produced.handle db index) x).2 := by
  unfold Provider.getTimestamp
  cases hlk : p.timestamps.lookup x with
  | some t => exact .refl
  | none =>
    simp only [Produced.handle, Produced.getTs]
    rcases hl.cases x with ⟨m, hm⟩ | ⟨hlt, hm⟩
    · rw [hm]
      exact ⟨⟨[], rfl, (List.append_nil _).symm, by simp⟩, ⟨[], (List.append_nil _).symm, by simp⟩, rfl, rfl⟩
    · rw [hm]
      simp only [addTimestamp_agrees ht hp hlt hlk]
      exact ⟨⟨[(x, (E x).timestamp)], rfl, by simp, by simp [hx, hlt]⟩, ⟨[], by simp, by simp⟩, rfl, rfl⟩

theorem record_spent {β : Type} {x : Nat} {r : Bytes} {b : β} : Spent n E A 0 p (Provider.record x r b p).2 := by
  unfold Provider.record
  split <;> exact ⟨⟨[], rfl, by simp, by simp⟩, ⟨[], by simp, by simp⟩, rfl, rfl⟩

theorem viaRoot_spent (hl : LogOf n E db) (ht : GoodTimes (fun x => (E x).timestamp) n) (hp : Held n E p) {x : Nat} (hx : A x)
    {γ : Type} {f : Produced → G (Bytes × γ) × Produced}
    (hf : ∀ s, (f s).2.timestamps = s.timestamps ∧ (f s).2.roots = s.roots ∧ ∃ new : List (Nat × List Nat), (f s).2.proofs = s.proofs ++ new ∧ new.length ≤ 1) :
    Spent n E A 1 p (viaRoot (Produced.handle db index) x f p).2 := by
  unfold viaRoot
  have h1 := getTimestamp_spent (index := index) hl ht hp hx
  revert h1
  generalize p.getTimestamp (Produced.handle db index) x = r
  obtain ⟨r1, q⟩ := r
  intro h1
  have h2 : Spent n E A 1 q { q with state := (f q.state).2 } := by
    obtain ⟨g1, g2, new, g3, g4⟩ := hf q.state
    exact ⟨⟨[], rfl, by simp [g1], by simp⟩, ⟨new, g3, g4⟩, g2, rfl⟩
  cases r1 with
  | error e => exact h1.mono (fun _ h => h) (by omega)
  | ok t =>
    simp only
    revert h2
    generalize f q.state = g
    obtain ⟨g1, s⟩ := g
    intro h2
    have h3 := (h1.trans h2).mono (fun _ h => h) (Nat.le_of_eq (Nat.zero_add 1))
    cases g1 with
    | error e => exact h3
    | ok rr => exact (h3.trans record_spent).mono (fun _ h => h) (le_refl _)

theorem answer_spent (hl : LogOf n E db) (ht : GoodTimes (fun x => (E x).timestamp) n) (hp : Held n E p) (q : Req) :
    Spent n E (fun x => q.pos? = some x) (if q.proves then 1 else 0) p (p.answer (Produced.handle db index) q).2 := by
  cases q with
  | ts x => exact getTimestamp_spent hl ht hp rfl
  | search x ver om =>
    have he : p.answer (Produced.handle db index) (.search x ver om) = viaRoot _ x ((Produced.handle db index).search x ver om) p := getSearch_eq _ x ver om p
    rw [he]
    refine (viaRoot_spent (A := fun y => x = y) hl ht hp rfl ?_).mono (fun _ h => congrArg some h) (by simp [Req.proves])
    intro s
    simp only [Produced.handle, Produced.search]
    split
    · exact ⟨rfl, rfl, [], by simp, by simp⟩
    · split
      · exact ⟨rfl, rfl, [], by simp, by simp⟩
      · exact ⟨rfl, rfl, _, rfl, by simp⟩
  | monitor x ver =>
    have he : p.answer (Produced.handle db index) (.monitor x ver) = viaRoot _ x (withUnit ((Produced.handle db index).monitor x ver)) p := getMonitor_eq _ x ver p
    rw [he]
    refine (viaRoot_spent (A := fun y => x = y) hl ht hp rfl ?_).mono (fun _ h => congrArg some h) (by simp [Req.proves])
    intro s
    simp only [withUnit, Produced.handle, Produced.monitor]
    split
    · rename_i h
      split at h
      · cases h; exact ⟨rfl, rfl, [], by simp, by simp⟩
      · split at h <;> cases h
        exact ⟨rfl, rfl, [], by simp, by simp⟩
    · rename_i h
      split at h
      · cases h
      · split at h <;> cases h
        exact ⟨rfl, rfl, _, rfl, by simp⟩
  | incl x vers =>
    have he : p.answer (Produced.handle db index) (.incl x vers) = _ := getIncl_eq _ x vers p
    rw [he]
    by_cases hv : vers.length = 0
    · rw [if_pos hv]; exact .refl
    · rw [if_neg hv]
      have hpos : (Req.incl x vers).pos? = some x := by simp only [Req.pos?, if_neg hv]
      refine (viaRoot_spent hl ht hp hpos ?_).mono (fun _ h => h) (by
        have : vers ≠ [] := by rintro rfl; exact hv rfl
        simp [Req.proves, this])
      intro s
      simp only [withUnit, Produced.handle, Produced.incl]
      split
      · rename_i h
        split at h <;> cases h
        exact ⟨rfl, rfl, [], by simp, by simp⟩
      · rename_i h
        split at h <;> cases h
        exact ⟨rfl, rfl, _, rfl, by simp⟩
  | stop x ver => exact .refl
  | addLadder x om g l => exact ⟨⟨[], rfl, by simp [Provider.answer, Produced.handle], by simp⟩, ⟨[], by simp [Provider.answer, Produced.handle], by simp⟩, rfl, rfl⟩

theorem run_spent (hl : LogOf n E db) (ht : GoodTimes (fun x => (E x).timestamp) n) {α : Type} (prog : Prog α) : ∀ {p : Provider Produced}, Held n E p →
    Spent n E (fun x => ∃ e ∈ p.trace (Produced.handle db index) prog, e.q.pos? = some x) (proofCount (p.trace (Produced.handle db index) prog))
      p (p.run (Produced.handle db index) prog).2 := by
  induction prog with
  | ret r => intro p _; exact .refl
  | op q f ih =>
    intro p hp
    have h1 := answer_spent (index := index) hl ht hp q
    have h2 := ih (p.answer (Produced.handle db index) q).1 (h1.held hp)
    have h1' : Spent n E (fun x => ∃ e ∈ p.trace (Produced.handle db index) (.op q f), e.q.pos? = some x) (if q.proves then 1 else 0) p _ :=
      h1.mono (fun x hx => ⟨_, List.mem_cons_self, hx⟩) (le_refl _)
    have h2' := h2.mono (B := fun x => ∃ e ∈ p.trace (Produced.handle db index) (.op q f), e.q.pos? = some x)
      (by rintro x ⟨e, he, hx⟩; exact ⟨e, List.mem_cons_of_mem _ he, hx⟩) (le_refl _)
    refine (h1'.trans h2').mono (fun _ h => h) ?_
    simp only [Provider.trace, proofCount, List.filter_cons]
    split
    · simp [Nat.add_comm]
    · simp

/-- A program with a budget adds at most so much to the proof. -/
theorem run_costs (hl : LogOf n E db) (ht : GoodTimes (fun x => (E x).timestamp) n) {α : Type} {prog : Prog α} {S : List Nat} {j : Nat} {Q : α → Prop}
    (hc : Costs S j k prog Q) (hp : Held n E p) (hm : TsMap p.timestamps) :
    ∃ T : List Nat, T.length ≤ j ∧ Spent n E (fun x => x ∈ S ++ T) k p (p.run (Produced.handle db index) prog).2 := by
  obtain ⟨-, -, hr, -⟩ := run_spec (Produced.handle db index) prog p hm
  obtain ⟨⟨T, h1, h2⟩, h3, -⟩ := hc _ _ hr
  refine ⟨T, h1, (run_spent hl ht prog hp).mono ?_ h3⟩
  rintro x ⟨e, he, hx⟩
  rw [List.mem_append]
  exact h2 e he x hx

/-- the number of timestamps fetched -/
theorem Spent.few {S : List Nat} (h : Spent n E (fun x => x ∈ S) k p p') (hm : TsMap p'.timestamps) :
    ∃ new : List (Nat × Nat), p'.timestamps = new ++ p.timestamps ∧ p'.state.timestamps = p.state.timestamps ++ (new.map (·.2)).reverse ∧
      (∀ e ∈ new, e.1 < n ∧ e.2 = (E e.1).timestamp) ∧ new.length ≤ S.length := by
  obtain ⟨⟨new, a1, a2, a3⟩, -⟩ := h
  refine ⟨new, a1, a2, fun e he => (a3 e he).2, ?_⟩
  have hnd : (new.map (·.1)).Nodup := by
    have := hm.keys
    rw [a1, List.map_append] at this
    exact (List.nodup_append.1 this).1
  have hsub : ∀ x ∈ new.map (·.1), x ∈ S := by
    intro x hx
    obtain ⟨e, he, rfl⟩ := List.mem_map.1 hx
    exact (a3 e he).1
  have := (List.subperm_of_subset hnd hsub).length_le
  simpa using this

end
end Katie.Alg
