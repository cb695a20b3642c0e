import Verif.Model.CmdServer
import Mathlib.Tactic.Common

/-
C94: what the client of a POST request is told, and what happened to its value.
-/

namespace Katie.Props
open Katie Katie.CmdServer

namespace CmdSpec
variable {T R : Type}

/-- a state that the process can reach from its start with tree `t` -/
def Reach (ins : T → Job → Except String R × T) (t : T) (s : Sys T R) : Prop := ∃ es, steps ins es (start t) = some s

/-- a state that can be reached from `s` -/
def Later (ins : T → Job → Except String R × T) (s s' : Sys T R) : Prop := ∃ es, steps ins es s = some s'

/-- `Insert` is called for one request after the other: the results and the tree in the end -/
def insertAll (ins : T → Job → Except String R × T) : T → List Job → List (Except String R) × T
  | t, [] => ([], t)
  | t, j :: js =>
    let (res, t) := ins t j
    let (rest, t) := insertAll ins t js
    (res :: rest, t)

/-- handler number `i` has answered its client -/
def Told (s : Sys T R) (i : Nat) (o : Outcome R) : Prop := ∃ w, s.workers[i]? = some w ∧ w.pos = .finished o

/-- `Insert` has been called for handler number `i` -/
def Inserted (s : Sys T R) (i : Nat) : Prop := i ∈ s.calls.map Prod.fst

end CmdSpec
open CmdSpec

variable {T R : Type} {ins : T → Job → Except String R × T}

/-- the handler has sent its request, and has not got its result -/
def Pending (w : Worker R) : Prop := w.pos = .handedOver ∨ w.pos = .waiting ∨ w.pos = .finished .resultTimeout

structure CmdInv (ins : T → Job → Except String R × T) (t : T) (s : Sys T R) : Prop where
  once : (s.calls.map Prod.fst).Nodup
  sent : ∀ i, Inserted s i → ∃ w, s.workers[i]? = some w ∧ w.pos ≠ .submitting ∧ w.pos ≠ .finished .submitTimeout
  inserting : ∀ i job, s.inserter = .inserting i job →
    ¬ Inserted s i ∧ ∃ w, s.workers[i]? = some w ∧ w.job = job ∧ Pending w
  replying : ∀ i res, s.inserter = .replying i res → (i, res) ∈ s.calls ∧ ∃ w, s.workers[i]? = some w ∧ Pending w
  root : ∀ i r, Told s i (.root r) → (i, .ok r) ∈ s.calls
  failed : ∀ i m, Told s i (.failed m) → (i, .error m) ∈ s.calls
  pending : ∀ i w, s.workers[i]? = some w → Pending w → Inserted s i ∨ ∃ job, s.inserter = .inserting i job
  replay : ∃ jobs : List Job, jobs.map some = s.calls.map (fun c => (s.workers[c.1]?).map Worker.job) ∧
    insertAll ins t jobs = (s.calls.map Prod.snd, s.tree)

theorem insertAll_snoc (ins : T → Job → Except String R × T) : ∀ (js : List Job) (t : T) (j : Job),
    insertAll ins t (js ++ [j]) =
      ((insertAll ins t js).1 ++ [(ins (insertAll ins t js).2 j).1], (ins (insertAll ins t js).2 j).2)
  | [], _, _ => rfl
  | k :: js, t, j => by
    rw [List.cons_append]
    unfold insertAll
    simp only
    rw [insertAll_snoc ins js _ j]
    rfl

/-- replacing a worker by one with the same job keeps the jobs -/
theorem jobs_set (ws : List (Worker R)) (i k : Nat) (w w' : Worker R) (h : ws[i]? = some w) (hj : w'.job = w.job) :
    ((ws.set i w')[k]?).map Worker.job = (ws[k]?).map Worker.job := by
  rw [List.getElem?_set]
  split
  · rename_i hik
    subst hik
    have : i < ws.length := (List.getElem?_eq_some_iff.1 h).1
    rw [if_pos this, h]
    simp [hj]
  · rfl

theorem get_set {ws : List (Worker R)} {i : Nat} {w : Worker R} (w' : Worker R) (h : ws[i]? = some w) (k : Nat) :
    (ws.set i w')[k]? = if k = i then some w' else ws[k]? := by
  have : i < ws.length := (List.getElem?_eq_some_iff.1 h).1
  rw [List.getElem?_set]
  by_cases hk : i = k
  · subst hk; simp [this]
  · rw [if_neg hk, if_neg (fun h => hk h.symm)]

/-- A step in which one handler moves and `Insert` is not called. -/
theorem inv_worker {t : T} {s : Sys T R} (h : CmdInv ins t s) {i : Nat} {w w' : Worker R} {n : Inserter R}
    (hw : s.workers[i]? = some w) (hj : w'.job = w.job)
    (hsub : Inserted s i → w'.pos ≠ .submitting ∧ w'.pos ≠ .finished .submitTimeout)
    (hroot : ∀ r, w'.pos = .finished (.root r) → (i, .ok r) ∈ s.calls)
    (hfail : ∀ m, w'.pos = .finished (.failed m) → (i, .error m) ∈ s.calls)
    (hins : ∀ k job, n = .inserting k job → (¬ Inserted s k ∧ ∃ v, s.workers[k]? = some v ∧ v.job = job ∧ (k ≠ i → Pending v)) ∧
      (k = i → Pending w'))
    (hrep : ∀ k res, n = .replying k res → (k, res) ∈ s.calls ∧ (k ≠ i → ∃ v, s.workers[k]? = some v ∧ Pending v) ∧
      (k = i → Pending w'))
    (hkeep : ∀ k job, k ≠ i → s.inserter = .inserting k job → n = .inserting k job)
    (hpend : Pending w' → Inserted s i ∨ ∃ job, n = .inserting i job) :
    CmdInv ins t { s with workers := s.workers.set i w', inserter := n } := by
  refine ⟨h.once, ?_, ?_, ?_, ?_, ?_, ?_, ?_⟩
  · intro k hk
    obtain ⟨v, hv, h1, h2⟩ := h.sent k hk
    simp only [get_set w' hw]
    by_cases hki : k = i
    · rw [if_pos hki]
      subst hki
      exact ⟨w', rfl, (hsub hk).1, (hsub hk).2⟩
    · rw [if_neg hki]
      exact ⟨v, hv, h1, h2⟩
  · intro k job hk
    obtain ⟨⟨h1, v, h2, h3, h4⟩, h5⟩ := hins k job hk
    refine ⟨h1, ?_⟩
    simp only [get_set w' hw]
    by_cases hki : k = i
    · rw [if_pos hki]
      subst hki
      rw [hw] at h2
      cases h2
      exact ⟨w', rfl, by rw [hj, h3], h5 rfl⟩
    · rw [if_neg hki]
      exact ⟨v, h2, h3, h4 hki⟩
  · intro k res hk
    obtain ⟨h1, h2, h3⟩ := hrep k res hk
    refine ⟨h1, ?_⟩
    simp only [get_set w' hw]
    by_cases hki : k = i
    · rw [if_pos hki]; exact ⟨w', rfl, h3 hki⟩
    · rw [if_neg hki]; exact h2 hki
  · rintro k r ⟨v, hv, hp⟩
    simp only [get_set w' hw] at hv
    by_cases hki : k = i
    · rw [if_pos hki] at hv
      cases hv
      rw [hki]
      exact hroot r hp
    · rw [if_neg hki] at hv
      exact h.root k r ⟨v, hv, hp⟩
  · rintro k r ⟨v, hv, hp⟩
    simp only [get_set w' hw] at hv
    by_cases hki : k = i
    · rw [if_pos hki] at hv
      cases hv
      rw [hki]
      exact hfail r hp
    · rw [if_neg hki] at hv
      exact h.failed k r ⟨v, hv, hp⟩
  · intro k v hv hp
    simp only [get_set w' hw] at hv
    by_cases hki : k = i
    · rw [if_pos hki] at hv
      cases hv
      rw [hki]
      exact hpend hp
    · rw [if_neg hki] at hv
      rcases h.pending k v hv hp with h1 | ⟨job, h1⟩
      · exact .inl h1
      · exact .inr ⟨job, hkeep k job hki h1⟩
  · obtain ⟨jobs, h1, h2⟩ := h.replay
    refine ⟨jobs, ?_, h2⟩
    rw [h1]
    exact List.map_congr_left fun c _ => (jobs_set s.workers i c.1 w w' hw hj).symm

theorem inv_step {t : T} {s s' : Sys T R} (h : CmdInv ins t s) {e : Event} (hs : step ins s e = some s') :
    CmdInv ins t s' := by
  cases e with
  | arrive job =>
    cases hs
    have hget : ∀ (k : Nat) (v : Worker R), s.workers[k]? = some v → (s.workers ++ [⟨job, At.submitting, false⟩])[k]? = some v := fun k v hv => by
      rw [List.getElem?_append_left (List.getElem?_eq_some_iff.1 hv).1]; exact hv
    have hback : ∀ (k : Nat) (v : Worker R), (s.workers ++ [⟨job, At.submitting, false⟩])[k]? = some v → v.pos ≠ .submitting → s.workers[k]? = some v := by
      intro k v hv hp
      by_cases hk : k < s.workers.length
      · rwa [List.getElem?_append_left hk] at hv
      · rw [List.getElem?_append_right (by omega)] at hv
        have := List.mem_of_getElem? hv
        rw [List.mem_singleton] at this
        rw [this] at hp
        exact absurd rfl hp
    refine ⟨h.once, ?_, ?_, ?_, ?_, ?_, ?_, ?_⟩
    · intro k hk
      obtain ⟨v, hv, h1⟩ := h.sent k hk
      exact ⟨v, hget k v hv, h1⟩
    · intro k j hk
      obtain ⟨h1, v, hv, h2⟩ := h.inserting k j hk
      exact ⟨h1, v, hget k v hv, h2⟩
    · intro k j hk
      obtain ⟨h1, v, hv, h2⟩ := h.replying k j hk
      exact ⟨h1, v, hget k v hv, h2⟩
    · rintro k r ⟨v, hv, hp⟩
      exact h.root k r ⟨v, hback k v hv (by rw [hp]; simp), hp⟩
    · rintro k r ⟨v, hv, hp⟩
      exact h.failed k r ⟨v, hback k v hv (by rw [hp]; simp), hp⟩
    · intro k v hv hp
      refine h.pending k v (hback k v hv ?_) hp
      rcases hp with hp | hp | hp <;> rw [hp] <;> simp
    · obtain ⟨jobs, h1, h2⟩ := h.replay
      refine ⟨jobs, ?_, h2⟩
      rw [h1]
      refine List.map_congr_left fun c hc => ?_
      obtain ⟨v, hv, -⟩ := h.sent c.1 (List.mem_map_of_mem hc)
      rw [hv, hget _ _ hv]
  | fire i =>
    unfold step at hs
    cases hw : s.workers[i]? with
    | none => simp only [hw] at hs; cases hs
    | some w =>
      simp only [hw] at hs
      cases hs
      refine inv_worker (w' := { w with fired := true }) (n := s.inserter) h hw rfl ?_ ?_ ?_ ?_ ?_ (fun _ _ _ h => h) ?_
      · intro hi
        obtain ⟨v, hv, h1⟩ := h.sent i hi
        rw [hw] at hv
        cases hv
        exact h1
      · exact fun r hr => h.root i r ⟨w, hw, hr⟩
      · exact fun r hr => h.failed i r ⟨w, hw, hr⟩
      · intro k job hk
        obtain ⟨h1, v, h2, h3, h4⟩ := h.inserting k job hk
        refine ⟨⟨h1, v, h2, h3, fun _ => h4⟩, ?_⟩
        rintro rfl
        rw [hw] at h2
        cases h2
        exact h4
      · intro k res hk
        obtain ⟨h1, v, h2, h4⟩ := h.replying k res hk
        refine ⟨h1, fun _ => ⟨v, h2, h4⟩, ?_⟩
        rintro rfl
        rw [hw] at h2
        cases h2
        exact h4
      · intro hp
        exact h.pending i w hw hp
  | handOver i =>
    unfold step at hs
    simp only at hs
    split at hs
    · rename_i job f hn hw
      cases hs
      have hnot : ¬ Inserted s i := fun hi => by
        obtain ⟨v, hv, h1, -⟩ := h.sent i hi
        rw [hw] at hv
        cases hv
        exact h1 rfl
      refine inv_worker h hw rfl (fun hi => absurd hi hnot) ?_ ?_ ?_ ?_ ?_ ?_
      · intro r hr; cases hr
      · intro r hr; cases hr
      · rintro k j hk
        cases hk
        exact ⟨⟨hnot, _, hw, rfl, fun hne => absurd rfl hne⟩, fun _ => .inl rfl⟩
      · intro k res hk; cases hk
      · intro k j _ hk; rw [hn] at hk; cases hk
      · intro _; exact .inr ⟨job, rfl⟩
    · cases hs
  | enterWait i =>
    unfold step at hs
    simp only at hs
    split at hs
    · rename_i job f hw
      cases hs
      refine inv_worker (n := s.inserter) h hw rfl (fun hi => ⟨by simp, by simp⟩) ?_ ?_ ?_ ?_ (fun _ _ _ h => h) ?_
      · intro r hr; cases hr
      · intro r hr; cases hr
      · intro k j hk
        obtain ⟨h1, v, h2, h3, h4⟩ := h.inserting k j hk
        exact ⟨⟨h1, v, h2, h3, fun _ => h4⟩, fun _ => .inr (.inl rfl)⟩
      · intro k res hk
        obtain ⟨h1, v, h2, h4⟩ := h.replying k res hk
        exact ⟨h1, fun _ => ⟨v, h2, h4⟩, fun _ => .inr (.inl rfl)⟩
      · intro _; exact h.pending i _ hw (.inl rfl)
    · cases hs
  | insert =>
    unfold step at hs
    simp only at hs
    split at hs
    · rename_i i job hn
      cases hs
      obtain ⟨h1, w, hw, hjob, hp⟩ := h.inserting i job hn
      have hmem : ∀ k, k ∈ (s.calls ++ [(i, (ins s.tree job).1)]).map Prod.fst ↔ Inserted s k ∨ k = i := by
        intro k
        rw [List.map_append, List.mem_append]
        simp [Inserted]
      refine ⟨?_, ?_, ?_, ?_, ?_, ?_, ?_, ?_⟩
      · simp only [List.map_append, List.map_cons, List.map_nil]
        rw [List.nodup_append]
        refine ⟨h.once, by simp, ?_⟩
        intro a ha b hb hab
        rw [List.mem_singleton] at hb
        subst hab
        subst hb
        exact h1 ha
      · intro k hk
        rcases (hmem k).1 hk with hk | rfl
        · exact h.sent k hk
        · refine ⟨w, hw, ?_⟩
          rcases hp with hp | hp | hp <;> rw [hp] <;> simp
      · intro k j hk; cases hk
      · intro k res hk
        cases hk
        exact ⟨List.mem_append_right _ (List.mem_singleton.2 rfl), w, hw, hp⟩
      · exact fun k r hk => List.mem_append_left _ (h.root k r hk)
      · exact fun k r hk => List.mem_append_left _ (h.failed k r hk)
      · intro k v hv hpv
        left
        rcases h.pending k v hv hpv with h2 | ⟨j, h2⟩
        · exact (hmem k).2 (.inl h2)
        · rw [hn] at h2
          cases h2
          exact (hmem i).2 (.inr rfl)
      · obtain ⟨jobs, h2, h3⟩ := h.replay
        refine ⟨jobs ++ [job], ?_, ?_⟩
        · rw [List.map_append, List.map_append, h2]
          simp [hw, hjob]
        · rw [insertAll_snoc, h3]
          simp
    · cases hs
  | deliver =>
    unfold step at hs
    simp only at hs
    split at hs
    · rename_i i res hn
      split at hs
      · rename_i job f hw
        cases hs
        obtain ⟨h1, -⟩ := h.replying i res hn
        refine inv_worker h hw rfl (fun hi => ⟨by simp, ?_⟩) ?_ ?_ ?_ ?_ ?_ ?_
        · cases res <;> simp
        · intro r hr
          cases res with
          | error m => simp at hr
          | ok r' => simp at hr; rw [← hr]; exact h1
        · intro r hr
          cases res with
          | error m => simp at hr; rw [← hr]; exact h1
          | ok r' => simp at hr
        · intro k j hk; cases hk
        · intro k j hk; cases hk
        · intro k j _ hk; rw [hn] at hk; cases hk
        · intro hp
          left
          exact List.mem_map_of_mem (f := Prod.fst) h1
      · cases hs
    · cases hs
  | drop =>
    unfold step at hs
    simp only at hs
    split at hs
    · rename_i i res hn
      split at hs
      · cases hs
      · cases hs
        refine ⟨h.once, h.sent, ?_, ?_, h.root, h.failed, ?_, h.replay⟩
        · intro k j hk; cases hk
        · intro k j hk; cases hk
        · intro k v hv hp
          rcases h.pending k v hv hp with h1 | ⟨j, h1⟩
          · exact .inl h1
          · rw [hn] at h1; cases h1
    · cases hs
  | giveUp i =>
    unfold step at hs
    simp only at hs
    split at hs
    · rename_i job hw
      cases hs
      have hnot : ¬ Inserted s i := fun hi => by
        obtain ⟨v, hv, h1, -⟩ := h.sent i hi
        rw [hw] at hv
        cases hv
        exact h1 rfl
      refine inv_worker (n := s.inserter) h hw rfl (fun hi => absurd hi hnot) ?_ ?_ ?_ ?_ (fun _ _ _ h => h) ?_
      · intro r hr; cases hr
      · intro r hr; cases hr
      · intro k j hk
        obtain ⟨h1, v, h2, h3, h4⟩ := h.inserting k j hk
        refine ⟨⟨h1, v, h2, h3, fun _ => h4⟩, ?_⟩
        rintro rfl
        rw [hw] at h2
        cases h2
        rcases h4 with h4 | h4 | h4 <;> cases h4
      · intro k res hk
        obtain ⟨h1, v, h2, h4⟩ := h.replying k res hk
        refine ⟨h1, fun _ => ⟨v, h2, h4⟩, ?_⟩
        rintro rfl
        rw [hw] at h2
        cases h2
        rcases h4 with h4 | h4 | h4 <;> cases h4
      · rintro (hp | hp | hp) <;> cases hp
    · rename_i job hw
      cases hs
      refine inv_worker (n := s.inserter) h hw rfl (fun hi => ⟨by simp, by simp⟩) ?_ ?_ ?_ ?_ (fun _ _ _ h => h) ?_
      · intro r hr; cases hr
      · intro r hr; cases hr
      · intro k j hk
        obtain ⟨h1, v, h2, h3, h4⟩ := h.inserting k j hk
        exact ⟨⟨h1, v, h2, h3, fun _ => h4⟩, fun _ => .inr (.inr rfl)⟩
      · intro k res hk
        obtain ⟨h1, v, h2, h4⟩ := h.replying k res hk
        exact ⟨h1, fun _ => ⟨v, h2, h4⟩, fun _ => .inr (.inr rfl)⟩
      · intro _; exact h.pending i _ hw (.inr (.inl rfl))
    · cases hs

theorem inv_steps {t : T} : ∀ (es : List Event) {s s' : Sys T R}, CmdInv ins t s → steps ins es s = some s' → CmdInv ins t s'
  | [], s, s', h, hs => by cases hs; exact h
  | e :: es, s, s', h, hs => by
    unfold steps at hs
    cases he : step ins s e with
    | none => rw [he] at hs; cases hs
    | some s1 => rw [he] at hs; exact inv_steps es (inv_step h he) hs

theorem inv_reach {t : T} {s : Sys T R} (h : Reach ins t s) : CmdInv ins t s := by
  obtain ⟨es, h⟩ := h
  refine inv_steps es ⟨?_, ?_, ?_, ?_, ?_, ?_, ?_, ?_⟩ h
  · exact List.nodup_nil
  · intro i hi; simp [Inserted, start] at hi
  · intro i job hi; cases hi
  · intro i job hi; cases hi
  · rintro i r ⟨w, hw, -⟩; simp [start] at hw
  · rintro i r ⟨w, hw, -⟩; simp [start] at hw
  · intro i w hw; simp [start] at hw
  · exact ⟨[], rfl, rfl⟩

theorem reach_later {t : T} {s s' : Sys T R} (h : Reach ins t s) (hl : Later ins s s') : Reach ins t s' := by
  obtain ⟨es, h⟩ := h
  obtain ⟨es', hl⟩ := hl
  refine ⟨es ++ es', ?_⟩
  revert h
  generalize start t = a
  induction es generalizing a with
  | nil => intro h; cases h; exact hl
  | cons e es ih =>
    intro h
    rw [List.cons_append]
    unfold steps at h ⊢
    cases he : step ins a e with
    | none => rw [he] at h; cases h
    | some a' => rw [he] at h; exact ih a' h

/-- a handler that has answered stays as it is -/
theorem told_step {s s' : Sys T R} {e : Event} (hs : step ins s e = some s') {i : Nat} {o : Outcome R} (h : Told s i o) :
    Told s' i o := by
  obtain ⟨w, hw, hp⟩ := h
  have key : ∀ {j : Nat} {v v' : Worker R}, s.workers[j]? = some v → (v.pos ≠ .finished o ∨ v'.pos = v.pos) →
      ∃ w, (s.workers.set j v')[i]? = some w ∧ w.pos = .finished o := by
    intro j v v' hv hne
    rw [get_set v' hv]
    by_cases hij : i = j
    · subst hij
      rw [if_pos rfl]
      rw [hw] at hv
      cases hv
      rcases hne with hne | hne
      · exact absurd hp hne
      · exact ⟨v', rfl, by rw [hne, hp]⟩
    · rw [if_neg hij]; exact ⟨w, hw, hp⟩
  cases e with
  | arrive job =>
    cases hs
    exact ⟨w, by rw [← hw]; exact List.getElem?_append_left (List.getElem?_eq_some_iff.1 hw).1, hp⟩
  | fire j =>
    unfold step at hs
    cases hv : s.workers[j]? with
    | none => simp only [hv] at hs; cases hs
    | some v =>
      simp only [hv] at hs
      cases hs
      exact key hv (.inr rfl)
  | insert => unfold step at hs; simp only at hs; split at hs <;> cases hs; exact ⟨w, hw, hp⟩
  | drop =>
    unfold step at hs
    simp only at hs
    split at hs
    · split at hs <;> cases hs
      exact ⟨w, hw, hp⟩
    · cases hs
  | handOver j =>
    unfold step at hs
    simp only at hs
    split at hs
    · rename_i hv; cases hs; exact key hv (.inl (by simp))
    · cases hs
  | enterWait j =>
    unfold step at hs
    simp only at hs
    split at hs
    · rename_i hv; cases hs; exact key hv (.inl (by simp))
    · cases hs
  | deliver =>
    unfold step at hs
    simp only at hs
    split at hs
    · split at hs
      · rename_i hv; cases hs; exact key hv (.inl (by simp))
      · cases hs
    · cases hs
  | giveUp j =>
    unfold step at hs
    simp only at hs
    split at hs
    · rename_i hv; cases hs; exact key hv (.inl (by simp))
    · rename_i hv; cases hs; exact key hv (.inl (by simp))
    · cases hs

theorem steps_keep {P : Sys T R → Prop} (hP : ∀ s s' e, P s → step ins s e = some s' → P s') :
    ∀ (es : List Event) {s s' : Sys T R}, P s → steps ins es s = some s' → P s'
  | [], s, s', h, hs => by cases hs; exact h
  | e :: es, s, s', h, hs => by
    unfold steps at hs
    cases he : step ins s e with
    | none => rw [he] at hs; cases hs
    | some s1 => rw [he] at hs; exact steps_keep hP es (hP _ _ _ h he) hs

theorem told_later {s s' : Sys T R} (hl : Later ins s s') {i : Nat} {o : Outcome R} (h : Told s i o) : Told s' i o := by
  obtain ⟨es, hl⟩ := hl
  exact steps_keep (P := fun s => Told s i o) (fun _ _ _ h hs => told_step hs h) es h hl

/-- **C94**, what the client is told: with a root, `Insert` was called for this request and returned this root; with an error
of `Insert`, it returned this error; if the request could not be submitted, `Insert` is not called for it, now or later; if the
result did not come in time, `Insert` has been called for it or the call is under way. -/
theorem C94_told {t : T} {s : Sys T R} (h : Reach ins t s) (i : Nat) :
    (∀ r, Told s i (.root r) → (i, .ok r) ∈ s.calls) ∧
    (∀ m, Told s i (.failed m) → (i, .error m) ∈ s.calls) ∧
    (Told s i .submitTimeout → ∀ s', Later ins s s' → ¬ Inserted s' i) ∧
    (Told s i .resultTimeout → Inserted s i ∨ ∃ job, s.inserter = .inserting i job) := by
  have hi := inv_reach h
  refine ⟨hi.root i, hi.failed i, ?_, ?_⟩
  · intro ht s' hl hins
    obtain ⟨w, hw, hp⟩ := told_later hl ht
    obtain ⟨v, hv, -, h2⟩ := (inv_reach (reach_later h hl)).sent i hins
    rw [hw] at hv
    cases hv
    exact h2 hp
  · rintro ⟨w, hw, hp⟩
    exact hi.pending i w hw (.inr (.inr hp))

/-- **C94**, each value goes in at most once, and one after the other: the calls of `Insert` are for different requests, and the
results and the tree are those of calling it for these requests in this order. -/
theorem C94_sequential {t : T} {s : Sys T R} (h : Reach ins t s) :
    (s.calls.map Prod.fst).Nodup ∧
    ∃ jobs : List Job, jobs.map some = s.calls.map (fun c => (s.workers[c.1]?).map Worker.job) ∧
      insertAll ins t jobs = (s.calls.map Prod.snd, s.tree) :=
  ⟨(inv_reach h).once, (inv_reach h).replay⟩

/-- **C94**, nobody waits for ever: the inserter can go on whatever the handlers do (its next step never depends on a
choice), a handler whose timer has run out can answer, and one that has handed over its request can go on. -/
theorem C94_progress {t : T} {s : Sys T R} (h : Reach ins t s) :
    (∀ i job, s.inserter = .inserting i job → (step ins s .insert).isSome) ∧
    (∀ i res, s.inserter = .replying i res → ((step ins s .deliver).isSome ↔ ¬ (step ins s .drop).isSome)) ∧
    (∀ i w, s.workers[i]? = some w → w.pos = .handedOver → (step ins s (.enterWait i)).isSome) ∧
    (∀ i w, s.workers[i]? = some w → w.fired = true → w.pos = .submitting ∨ w.pos = .waiting →
      (step ins s (.giveUp i)).isSome) := by
  refine ⟨?_, ?_, ?_, ?_⟩
  · intro i job hi
    simp [step, hi]
  · intro i res hi
    obtain ⟨-, w, hw, -⟩ := (inv_reach h).replying i res hi
    obtain ⟨job, pos, f⟩ := w
    cases pos <;> simp [step, hi, hw]
  · intro i w hw hp
    obtain ⟨job, pos, f⟩ := w
    cases hp
    simp [step, hw]
  · intro i w hw hf hp
    obtain ⟨job, pos, f⟩ := w
    cases hf
    rcases hp with hp | hp <;> cases hp <;> simp [step, hw]

/-- the result for handler `i` has been thrown away -/
def Lost (s : Sys T R) (i : Nat) : Prop :=
  Inserted s i ∧ (∀ res, s.inserter ≠ .replying i res) ∧ ∃ w, s.workers[i]? = some w ∧ Pending w

theorem lost_step {t : T} {s s' : Sys T R} {e : Event} (hinv : CmdInv ins t s) (hs : step ins s e = some s') {i : Nat}
    (h : Lost s i) : Lost s' i := by
  obtain ⟨h1, h2, w, hw, hp⟩ := h
  have hnot : w.pos ≠ .submitting := by rcases hp with hp | hp | hp <;> rw [hp] <;> simp
  have key : ∀ {j : Nat} {v v' : Worker R}, s.workers[j]? = some v → (j = i → Pending v') →
      ∃ w, (s.workers.set j v')[i]? = some w ∧ Pending w := by
    intro j v v' hv hne
    rw [get_set v' hv]
    by_cases hij : i = j
    · subst hij
      rw [if_pos rfl]
      exact ⟨v', rfl, hne rfl⟩
    · rw [if_neg hij]; exact ⟨w, hw, hp⟩
  cases e with
  | arrive job =>
    cases hs
    exact ⟨h1, h2, w, by rw [← hw]; exact List.getElem?_append_left (List.getElem?_eq_some_iff.1 hw).1, hp⟩
  | fire j =>
    unfold step at hs
    cases hv : s.workers[j]? with
    | none => simp only [hv] at hs; cases hs
    | some v =>
      simp only [hv] at hs
      cases hs
      refine ⟨h1, h2, key hv ?_⟩
      rintro rfl
      rw [hw] at hv
      cases hv
      exact hp
  | insert =>
    unfold step at hs
    simp only at hs
    split at hs
    · rename_i j job hn
      cases hs
      refine ⟨?_, ?_, w, hw, hp⟩
      · unfold Inserted
        rw [List.map_append]
        exact List.mem_append_left _ h1
      · intro res hr
        cases hr
        exact (hinv.inserting i job hn).1 h1
    · cases hs
  | drop =>
    unfold step at hs
    simp only at hs
    split at hs
    · split at hs <;> cases hs
      exact ⟨h1, fun _ h => (by cases h), w, hw, hp⟩
    · cases hs
  | handOver j =>
    unfold step at hs
    simp only at hs
    split at hs
    · rename_i hv
      cases hs
      exact ⟨h1, fun _ h => (by cases h), key hv fun _ => .inl rfl⟩
    · cases hs
  | enterWait j =>
    unfold step at hs
    simp only at hs
    split at hs
    · rename_i hv; cases hs; exact ⟨h1, h2, key hv fun _ => .inr (.inl rfl)⟩
    · cases hs
  | deliver =>
    unfold step at hs
    simp only at hs
    split at hs
    · rename_i j res hn
      split at hs
      · rename_i hv
        cases hs
        refine ⟨h1, fun _ h => (by cases h), key hv ?_⟩
        rintro rfl
        exact absurd hn (h2 res)
      · cases hs
    · cases hs
  | giveUp j =>
    unfold step at hs
    simp only at hs
    split at hs
    · rename_i hv
      cases hs
      refine ⟨h1, h2, key hv ?_⟩
      rintro rfl
      rw [hw] at hv
      cases hv
      exact absurd rfl hnot
    · rename_i hv; cases hs; exact ⟨h1, h2, key hv fun _ => .inr (.inr rfl)⟩
    · cases hs

/-- **A result that is thrown away is never told**: if the inserter has called `Insert` for a request and gone on, and the
handler has not got the result, then all that the client can be told, from now on, is that the result did not come in time. -/
theorem C94_thrown_away {t : T} {s : Sys T R} (h : Reach ins t s) {i : Nat} (hin : Inserted s i)
    (hgone : ∀ res, s.inserter ≠ .replying i res) (hnot : ∀ o, ¬ Told s i o) {s' : Sys T R} (hl : Later ins s s')
    {o : Outcome R} (ht : Told s' i o) : o = .resultTimeout := by
  have hinv := inv_reach h
  obtain ⟨w, hw, h1, -⟩ := hinv.sent i hin
  have hp : Pending w := by
    cases hpos : w.pos with
    | submitting => exact absurd hpos h1
    | handedOver => exact .inl hpos
    | waiting => exact .inr (.inl hpos)
    | finished o => exact absurd ⟨w, hw, hpos⟩ (hnot o)
  obtain ⟨es, hl⟩ := hl
  obtain ⟨-, -, -, v, hv, hpv⟩ := steps_keep (P := fun s => CmdInv ins t s ∧ Lost s i)
    (fun _ _ _ h hs => ⟨inv_step h.1 hs, lost_step h.1 hs h.2⟩) es ⟨hinv, hin, hgone, w, hw, hp⟩ hl
  obtain ⟨v', hv', hp'⟩ := ht
  rw [hv] at hv'
  cases hv'
  rcases hpv with h | h | h <;> rw [hp'] at h <;> cases h
  rfl

/-- a tree that is a list of values; the root is their number -/
def toyInsert (t : List Job) (j : Job) : Except String Nat × List Job :=
  if j.value = [0] then (.error "refused", t) else (.ok (t.length + 1), t ++ [j])

/-- The last part of C94 is false: the inserter has put the value into the tree and throws the result away because the
handler has not reached its second `select` yet.  No timer has run out when this happens; the client can only be told that
the result did not come in time, and is. -/
theorem C94_lost : ∃ s s' : Sys (List Job) Nat,
    steps toyInsert [.arrive ⟨[1], [7]⟩, .handOver 0, .insert, .drop] (start []) = some s ∧
    s.tree = [⟨[1], [7]⟩] ∧ s.calls.map Prod.fst = [0] ∧ (∀ w ∈ s.workers, w.fired = false) ∧
    (∀ s'' o, Later toyInsert s s'' → Told s'' 0 o → o = .resultTimeout) ∧
    steps toyInsert [.enterWait 0, .fire 0, .giveUp 0] s = some s' ∧ Told s' 0 .resultTimeout := by
  refine ⟨_, _, rfl, rfl, rfl, by decide, ?_, rfl, ⟨_, rfl, rfl⟩⟩
  intro s'' o hl ht
  refine C94_thrown_away (t := []) ⟨[.arrive ⟨[1], [7]⟩, .handOver 0, .insert, .drop], rfl⟩ ?_ ?_ ?_ hl ht
  · exact List.mem_singleton.2 rfl
  · intro res hr; cases hr
  · rintro o ⟨w, hw, hp⟩
    cases hw
    cases hp

/-- two requests at once, one of which fails; both clients are told what happened -/
example : ∃ s : Sys (List Job) Nat, steps toyInsert [.arrive ⟨[1], [7]⟩, .arrive ⟨[2], [0]⟩, .handOver 1, .enterWait 1, .insert,
      .deliver, .handOver 0, .enterWait 0, .insert, .fire 0, .deliver] (start []) = some s ∧
    Told s 0 (.root 1) ∧ Told s 1 (.failed "refused") ∧ s.tree = [⟨[1], [7]⟩] :=
  ⟨_, rfl, ⟨_, rfl, rfl⟩, ⟨_, rfl, rfl⟩, rfl⟩

/-- a request that cannot be submitted while the inserter is busy; `C94_progress` with all its cases -/
example : ∃ s : Sys (List Job) Nat, steps toyInsert [.arrive ⟨[1], [7]⟩, .arrive ⟨[2], [3]⟩, .arrive ⟨[3], [3]⟩, .handOver 0, .fire 1,
      .giveUp 1, .insert, .fire 2] (start []) = some s ∧
    Told s 1 .submitTimeout ∧ s.inserter = .replying 0 (.ok 1) ∧ (∃ w, s.workers[0]? = some w ∧ w.pos = .handedOver) ∧
    ∃ w, s.workers[2]? = some w ∧ w.fired = true ∧ w.pos = .submitting :=
  ⟨_, rfl, ⟨_, rfl, rfl⟩, rfl, ⟨_, rfl, rfl⟩, _, rfl, rfl, rfl⟩

/-! ### The body -/

namespace CmdSpec

/-- all the bytes that the calls of `Read` returned -/
def received (rs : List ReadResult) : Bytes := (rs.map ReadResult.data).flatten

/-- each call of `Read` returns at most as many bytes as there is room for in the buffer of 16384 bytes -/
def FitsBuffer (rs : List ReadResult) : Prop :=
  ∀ k r, rs[k]? = some r → (received (rs.take k)).length + r.data.length ≤ 16384

end CmdSpec

theorem received_cons (r : ReadResult) (rs : List ReadResult) : received (r :: rs) = r.data ++ received rs := rfl

theorem received_append (a b : List ReadResult) : received (a ++ b) = received a ++ received b := by
  unfold received
  rw [List.map_append, List.flatten_append]

/-- while the buffer is not full, the loop goes on -/
theorem readBody_more : ∀ (pre : List ReadResult) (rest : List ReadResult) (acc : Bytes),
    (∀ r ∈ pre, r.err = .none) → acc.length + (received pre).length < bodyLimit →
    readBody (pre ++ rest) acc = readBody rest (acc ++ received pre)
  | [], rest, acc, _, _ => by rw [show received [] = [] from rfl, List.append_nil, List.nil_append]
  | r :: pre, rest, acc, he, hl => by
    rw [List.cons_append, readBody]
    rw [received_cons, List.length_append] at hl
    have h1 : ¬ (acc ++ r.data).length = bodyLimit := by rw [List.length_append]; omega
    simp only [he r List.mem_cons_self]
    rw [if_neg h1, readBody_more pre rest (acc ++ r.data) (fun x hx => he x (List.mem_cons_of_mem _ hx))
      (by rw [List.length_append]; omega), received_cons, List.append_assoc]

/-- when it is full, the loop ends -/
theorem readBody_full : ∀ (pre : List ReadResult) (rest : List ReadResult) (acc : Bytes),
    (∀ r ∈ pre, r.err = .none) → acc.length < bodyLimit → acc.length + (received pre).length = bodyLimit →
    readBody (pre ++ rest) acc = some (.error ⟨400, "request body is too large"⟩)
  | [], rest, acc, _, h0, hl => by
    rw [show received [] = [] from rfl, List.length_nil] at hl
    omega
  | r :: pre, rest, acc, he, h0, hl => by
    rw [List.cons_append, readBody]
    rw [received_cons, List.length_append] at hl
    simp only [he r List.mem_cons_self]
    by_cases h1 : (acc ++ r.data).length = bodyLimit
    · rw [if_pos h1]
    · rw [if_neg h1]
      rw [List.length_append] at h1
      exact readBody_full pre rest (acc ++ r.data) (fun x hx => he x (List.mem_cons_of_mem _ hx))
        (by rw [List.length_append]; omega) (by rw [List.length_append]; omega)

theorem fits_prefix {pre rest : List ReadResult} (h : FitsBuffer (pre ++ rest)) : (received pre).length ≤ 16384 := by
  rcases List.eq_nil_or_concat pre with rfl | ⟨p, r, rfl⟩
  · simp [received]
  · have := h p.length r (by simp)
    rw [List.concat_eq_append, List.append_assoc, List.take_append_of_le_length (Nat.le_refl _), List.take_length] at this
    rw [List.concat_eq_append, received_append, List.length_append]
    simpa [received] using this

/-- **C94**, the body: if the calls of `Read` return nil errors until one returns `io.EOF`, then the value is accepted exactly if
it is not empty and fewer than 16384 bytes came before the last call; it is then the whole body. -/
theorem C94_body (pre : List ReadResult) (last : ReadResult) (hpre : ∀ r ∈ pre, r.err = .none) (hlast : last.err = .eof)
    (hfit : FitsBuffer (pre ++ [last])) (v : Bytes) :
    readBody (pre ++ [last]) [] = some (.ok v) ↔
      v = received (pre ++ [last]) ∧ v ≠ [] ∧ (received pre).length < 16384 := by
  by_cases hl : (received pre).length < 16384
  · rw [readBody_more pre [last] [] hpre (by simpa [bodyLimit] using hl), readBody, List.nil_append]
    simp only [hlast]
    rw [received_append, show received [last] = last.data by simp [received]]
    by_cases hv : received pre ++ last.data = []
    · rw [hv, List.length_nil, if_pos rfl]
      constructor
      · intro h; cases h
      · rintro ⟨h1, h2, -⟩; exact absurd h1 h2
    · rw [if_neg fun h => hv (List.length_eq_zero_iff.1 h)]
      simp only [Option.some.injEq, Except.ok.injEq]
      constructor
      · rintro rfl; exact ⟨rfl, hv, hl⟩
      · rintro ⟨h, -⟩; exact h.symm
  · have hfull := fits_prefix hfit
    rw [readBody_full pre [last] [] hpre (by decide) (by unfold bodyLimit; rw [List.length_nil]; omega)]
    constructor
    · intro h; cases h
    · rintro ⟨-, -, h⟩; exact absurd h hl

/-- **C94**, the body: of a body with more than 16384 bytes the buffer fills up, and the request is refused without the rest
being read. -/
theorem C94_body_large (pre rest : List ReadResult) (hpre : ∀ r ∈ pre, r.err = .none)
    (hfull : (received pre).length = 16384) :
    readBody (pre ++ rest) [] = some (.error ⟨400, "request body is too large"⟩) :=
  readBody_full pre rest [] hpre (by decide) (by unfold bodyLimit; rw [List.length_nil]; omega)

/-- a body of 16384 bytes is accepted or not, depending on whether `io.EOF` comes with the last bytes or after them -/
theorem C94_body_limit (b : Bytes) (hb : b.length = 16384) :
    readBody [⟨b, .eof⟩] [] = some (.ok b) ∧
    readBody [⟨b, .none⟩, ⟨[], .eof⟩] [] = some (.error ⟨400, "request body is too large"⟩) := by
  constructor
  · rw [readBody]
    simp [hb]
  · exact C94_body_large [⟨b, .none⟩] _ (by simp) (by simpa [received] using hb)

example : FitsBuffer ([⟨[1, 2], .none⟩, ⟨[], .none⟩] ++ [⟨[3], .eof⟩]) ∧
    readBody ([⟨[1, 2], .none⟩, ⟨[], .none⟩] ++ [⟨[3], .eof⟩]) [] = some (.ok [1, 2, 3]) := by
  refine ⟨?_, by decide⟩
  intro k r hr
  match k, hr with
  | 0, hr => cases hr; decide
  | 1, hr => cases hr; decide
  | 2, hr => cases hr; decide

end Katie.Props
