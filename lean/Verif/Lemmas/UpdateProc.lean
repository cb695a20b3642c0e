import Verif.Model.UpdateProc
import Verif.Props.C54_Update

/-
Lemmas about the goroutine of an update.
-/

namespace Katie.Server
open Katie Katie.Wire Katie.Alg Katie.Ladder

theorem next_ver {env : Env} {now : Nat} {u : Updater} {b : Bool} {res : UpdateResponse} {ver : Nat}
    (h : next env now u b = .ok (res, ver)) : u.ver < ver := by
  unfold next at h
  split at h
  · cases h
  next pos hpos =>
  obtain ⟨⟨values, info⟩, hi, h⟩ := G.bind_eq_ok.1 h
  obtain ⟨ladder, -, h⟩ := G.bind_eq_ok.1 h
  obtain ⟨hd, -, h⟩ := G.bind_eq_ok.1 h
  obtain ⟨p, -, h⟩ := G.bind_eq_ok.1 h
  obtain ⟨⟨m, p2⟩, -, h⟩ := G.bind_eq_ok.1 h
  obtain ⟨⟨m', p3⟩, -, h⟩ := G.bind_eq_ok.1 h
  obtain ⟨⟨pr, p4⟩, -, h⟩ := G.bind_eq_ok.1 h
  cases h
  have hlt : u.ver < u.index.length := (List.getElem?_eq_some_iff.1 hpos).1
  rw [List.drop_eq_getElem_cons hlt] at hi
  unfold infos at hi
  rw [if_neg (by rw [List.getElem?_eq_getElem hlt] at hpos; simpa using hpos)] at hi
  obtain ⟨ov, -, hi⟩ := G.bind_eq_ok.1 hi
  obtain ⟨⟨vs, is⟩, -, hi⟩ := G.bind_eq_ok.1 hi
  cases hi
  simp

/-- an upper bound for what is left to do -/
def Pc.measure : Pc → Nat × Nat
  | .first u => (4, 2 * (u.index.length - u.ver) + 1)
  | .send1 _ (some u) => (4, 2 * (u.index.length - u.ver) + 2)
  | .send1 _ none => (4, 0)
  | .submit _ => (3, 1)
  | .offer _ => (3, 0)
  | .await _ => (2, 0)
  | .second _ u => (1, 2 * (u.index.length - u.ver) + 1)
  | .send2 _ _ (some u) => (1, 2 * (u.index.length - u.ver) + 2)
  | .send2 _ _ none => (1, 0)
  | .last _ => (0, 1)
  | .closed => (0, 0)
  | .crashed => (0, 0)

def World.open_ (w : World) : Nat := (if w.cancelled then 0 else 1) + (if w.reply = none then 1 else 0)

def World.measure (w : World) : (Nat × Nat) × Nat := (w.pc.measure, w.open_)

def Less : (Nat × Nat) × Nat → (Nat × Nat) × Nat → Prop := Prod.Lex (Prod.Lex (· < ·) (· < ·)) (· < ·)

theorem less_wf : WellFounded Less := WellFounded.prod_lex (WellFounded.prod_lex Nat.lt_wfRel.wf Nat.lt_wfRel.wf) Nat.lt_wfRel.wf

theorem less_phase {a b c d x y : Nat} (h : a < c) : Less ((a, b), x) ((c, d), y) := .left _ _ (.left _ _ h)

theorem less_loop {a b d x y : Nat} (h : b < d) : Less ((a, b), x) ((a, d), y) := .left _ _ (.right _ h)

theorem step_less {S : Surroundings} {w w' : World} (h : Step S w w') : Less w'.measure w.measure := by
  cases h with
  | own h =>
    cases h with
    | next1 hp hv _ _ hn =>
      have := next_ver hn
      unfold World.measure
      rw [hp]
      refine less_loop ?_
      simp only [Updater.told] at this ⊢
      omega
    | fail1 hp => unfold World.measure; rw [hp]; exact less_loop (by omega)
    | crash1 hp => unfold World.measure; rw [hp]; exact less_phase (by omega)
    | done1 hp => unfold World.measure; rw [hp]; exact less_phase (by omega)
    | nothing hp => unfold World.measure; rw [hp]; exact less_phase (by omega)
    | unsupported hp => unfold World.measure; rw [hp]; exact less_phase (by omega)
    | supported hp => unfold World.measure; rw [hp]; exact less_loop (by omega)
    | refused hp => unfold World.measure; rw [hp]; exact less_phase (by omega)
    | reloaded hp => unfold World.measure; rw [hp]; exact less_phase (by omega)
    | notReloaded hp => unfold World.measure; rw [hp]; exact less_phase (by omega)
    | crashReload hp => unfold World.measure; rw [hp]; exact less_phase (by omega)
    | next2 hp hv _ _ hn =>
      have := next_ver hn
      unfold World.measure
      rw [hp]
      refine less_loop ?_
      simp only [Updater.told] at this ⊢
      omega
    | fail2 hp => unfold World.measure; rw [hp]; exact less_loop (by omega)
    | crash2 hp => unfold World.measure; rw [hp]; exact less_phase (by omega)
    | done2 hp => unfold World.measure; rw [hp]; exact less_phase (by omega)
    | @stop1 msg u hp =>
      unfold World.measure; rw [hp]
      cases u <;> exact less_phase (by omega)
    | @stop2 pos msg u hp =>
      unfold World.measure; rw [hp]
      cases u <;> exact less_phase (by omega)
    | stopLast hp => unfold World.measure; rw [hp]; exact less_loop (by omega)
    | stopOffer hp => unfold World.measure; rw [hp]; exact less_phase (by omega)
    | stopAwait hp => unfold World.measure; rw [hp]; exact less_phase (by omega)
  | receives h =>
    cases h with
    | @one msg u hp =>
      unfold World.measure; rw [hp]
      cases u with
      | none => exact less_phase (by omega)
      | some u => exact less_loop (by omega)
    | @two pos msg u hp =>
      unfold World.measure; rw [hp]
      cases u with
      | none => exact less_phase (by omega)
      | some u => exact less_loop (by omega)
    | last hp => unfold World.measure; rw [hp]; exact less_loop (by omega)
  | sequences h =>
    cases h with
    | accepts hp => unfold World.measure; rw [hp]; exact less_phase (by omega)
    | @replies r _ hr =>
      unfold World.measure World.open_
      rw [hr]
      exact .right _ (by simp)
  | cancels h =>
    cases h with
    | cancel hc =>
      unfold World.measure World.open_
      rw [hc]
      exact .right _ (by simp)

/-! ### the messages of `process`, one at a time -/

theorem sendAll_fuel {env : Env} {now : Nat} {w : Nat → Bool} : ∀ {f f' : Nat} {u : Updater},
    u.index.length - u.ver < f → u.index.length - u.ver < f' → sendAll env now w f u = sendAll env now w f' u
  | 0, _, _, h, _ => absurd h (by omega)
  | _, 0, _, _, h => absurd h (by omega)
  | f + 1, f' + 1, u, h, h' => by
    unfold sendAll
    split
    · next hv =>
      split
      · rfl
      · next res ver hn =>
        have := next_ver hn
        rw [sendAll_fuel (f := f) (f' := f') (u := { u with ver := ver, last := some u.tree.size }) (by simp only; omega) (by simp only; omega)]
    · rfl

/-- update.go:181-236, after the first loop -/
def finish (env : Env) (now : Nat) (seq : Sequenced) (u : Updater) : List (G UpdateResponse) :=
  if u.values = [] then []
  else
    match seq with
    | .unsupported => [goErr "transparency tree does not support user-submitted label updates"]
    | .refused => [goErr "failed to sequence requested new versions of label"]
    | .sequenced pos db =>
      match reloadTree env db pos u with
      | .error e => [.error e]
      | .ok u => (sendAll env now (fun p => decide (p ≠ pos)) (u.index.length + 1) u).1

theorem process_done {env : Env} {now : Nat} {seq : Sequenced} {u : Updater} (h : ¬ u.ver < u.index.length) :
    process env now seq u = finish env now seq u := by
  unfold process
  simp only
  unfold sendAll
  rw [if_neg h]
  rfl

theorem process_fail {env : Env} {now : Nat} {seq : Sequenced} {u : Updater} (h : u.ver < u.index.length) {e : Fault}
    (hn : next env now u true = .error e) : process env now seq u = [.error e] := by
  unfold process
  simp only
  unfold sendAll
  rw [if_pos h, hn]
  rfl

theorem process_next {env : Env} {now : Nat} {seq : Sequenced} {u : Updater} (h : u.ver < u.index.length) {res : UpdateResponse}
    {ver : Nat} (hn : next env now u true = .ok (res, ver)) :
    process env now seq u = .ok res :: process env now seq (u.told ver) := by
  have := next_ver hn
  unfold process
  simp only
  rw [show sendAll env now (fun _ => true) (u.index.length + 1) u =
    (.ok res :: (sendAll env now (fun _ => true) u.index.length (u.told ver)).1, (sendAll env now (fun _ => true) u.index.length (u.told ver)).2) by
      conv => lhs; unfold sendAll
      rw [if_pos h, hn]
      rfl]
  rw [sendAll_fuel (f := u.index.length) (f' := (u.told ver).index.length + 1) (u := u.told ver)
    (by simp only [Updater.told]; omega) (by simp only [Updater.told]; omega)]
  rfl

/-- the second loop -/
def tail (env : Env) (now pos : Nat) (u : Updater) : List (G UpdateResponse) :=
  (sendAll env now (fun p => decide (p ≠ pos)) (u.index.length + 1) u).1

theorem tail_done {env : Env} {now pos : Nat} {u : Updater} (h : ¬ u.ver < u.index.length) : tail env now pos u = [] := by
  unfold tail sendAll
  rw [if_neg h]

theorem tail_fail {env : Env} {now pos : Nat} {u : Updater} (h : u.ver < u.index.length) {e : Fault}
    (hn : next env now u (decide (u.index.getD u.ver 0 ≠ pos)) = .error e) : tail env now pos u = [.error e] := by
  unfold tail sendAll
  rw [if_pos h, hn]

theorem tail_next {env : Env} {now pos : Nat} {u : Updater} (h : u.ver < u.index.length) {res : UpdateResponse} {ver : Nat}
    (hn : next env now u (decide (u.index.getD u.ver 0 ≠ pos)) = .ok (res, ver)) :
    tail env now pos u = .ok res :: tail env now pos (u.told ver) := by
  have := next_ver hn
  unfold tail
  rw [show sendAll env now (fun p => decide (p ≠ pos)) (u.index.length + 1) u =
    (.ok res :: (sendAll env now (fun p => decide (p ≠ pos)) u.index.length (u.told ver)).1,
      (sendAll env now (fun p => decide (p ≠ pos)) u.index.length (u.told ver)).2) by
      conv => lhs; unfold sendAll
      rw [if_pos h, hn]
      rfl]
  rw [sendAll_fuel (f := u.index.length) (f' := (u.told ver).index.length + 1) (u := u.told ver)
    (by simp only [Updater.told]; omega) (by simp only [Updater.told]; omega)]

end Katie.Server
