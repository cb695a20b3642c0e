import Verif.Lemmas.UpdateProc
import Verif.Props.C17_Answered
import Verif.Props.C80_Isolated

/-
C81: the channel that `Update` and `ManagerUpdate` return.

The goroutine behind it is a state machine (`Model/UpdateProc`) that runs concurrently with the user, who receives or
cancels, with the sequencer, and with changes to the database.
-/

namespace Katie.Props
open Katie Katie.Wire Katie.Alg Katie.Ladder Katie.Server

/-- all are responses -/
def Responses (l : List (G UpdateResponse)) : Prop := ∃ rs : List UpdateResponse, l = rs.map .ok

theorem Responses.snoc {l : List (G UpdateResponse)} (h : Responses l) (r : UpdateResponse) : Responses (l ++ [.ok r]) := by
  obtain ⟨rs, rfl⟩ := h
  exact ⟨rs ++ [r], by simp⟩

/-- the number of versions that the responses tell about -/
def toldOf (rs : List UpdateResponse) : Nat := (rs.map (fun r => r.info.length)).sum

/-- a message on its way, and what comes after it -/
def Carries (msg : G UpdateResponse) (u : Option Updater) : Prop :=
  (∃ r v, msg = .ok r ∧ u = some v) ∨ ∃ m, msg = .error (.err m) ∧ u = none

/-- the invariant behind `C81_messages` -/
def Shape (w : World) : Prop :=
  match w.pc with
  | .send1 msg u => Responses w.got ∧ Carries msg u
  | .send2 _ msg u => Responses w.got ∧ Carries msg u
  | .last msg => Responses w.got ∧ ∃ m, msg = .error (.err m)
  | .closed => Responses w.got ∨ ∃ l m, Responses l ∧ w.got = l ++ [.error (.err m)]
  | _ => Responses w.got

theorem shape {S : Surroundings} {u : Updater} {w : World} (h : Reach S u w) : Shape w := by
  induction h with
  | start => exact ⟨[], rfl⟩
  | step _ hs ih =>
    cases hs with
    | own hs =>
      cases hs with
      | next1 hp => unfold Shape at ih; rw [hp] at ih; exact ⟨ih, .inl ⟨_, _, rfl, rfl⟩⟩
      | fail1 hp => unfold Shape at ih; rw [hp] at ih; exact ⟨ih, .inr ⟨_, rfl, rfl⟩⟩
      | next2 hp => unfold Shape at ih; rw [hp] at ih; exact ⟨ih, .inl ⟨_, _, rfl, rfl⟩⟩
      | fail2 hp => unfold Shape at ih; rw [hp] at ih; exact ⟨ih, .inr ⟨_, rfl, rfl⟩⟩
      | crash1 hp => unfold Shape at ih; rw [hp] at ih; exact ih
      | crash2 hp => unfold Shape at ih; rw [hp] at ih; exact ih
      | crashReload hp => unfold Shape at ih; rw [hp] at ih; exact ih
      | done1 hp => unfold Shape at ih; rw [hp] at ih; exact ih
      | supported hp => unfold Shape at ih; rw [hp] at ih; exact ih
      | reloaded hp => unfold Shape at ih; rw [hp] at ih; exact ih
      | unsupported hp => unfold Shape at ih; rw [hp] at ih; exact ⟨ih, _, rfl⟩
      | refused hp => unfold Shape at ih; rw [hp] at ih; exact ⟨ih, _, rfl⟩
      | notReloaded hp => unfold Shape at ih; rw [hp] at ih; exact ⟨ih, _, rfl⟩
      | nothing hp => unfold Shape at ih; rw [hp] at ih; exact .inl ih
      | done2 hp => unfold Shape at ih; rw [hp] at ih; exact .inl ih
      | stop1 hp => unfold Shape at ih; rw [hp] at ih; exact .inl ih.1
      | stop2 hp => unfold Shape at ih; rw [hp] at ih; exact .inl ih.1
      | stopLast hp => unfold Shape at ih; rw [hp] at ih; exact .inl ih.1
      | stopOffer hp => unfold Shape at ih; rw [hp] at ih; exact .inl ih
      | stopAwait hp => unfold Shape at ih; rw [hp] at ih; exact .inl ih
    | receives hs =>
      cases hs with
      | one hp =>
        unfold Shape at ih; rw [hp] at ih
        obtain ⟨h, ⟨r, v, rfl, rfl⟩ | ⟨m, rfl, rfl⟩⟩ := ih
        · exact h.snoc r
        · exact .inr ⟨_, _, h, rfl⟩
      | two hp =>
        unfold Shape at ih; rw [hp] at ih
        obtain ⟨h, ⟨r, v, rfl, rfl⟩ | ⟨m, rfl, rfl⟩⟩ := ih
        · exact h.snoc r
        · exact .inr ⟨_, _, h, rfl⟩
      | last hp =>
        unfold Shape at ih; rw [hp] at ih
        obtain ⟨h, m, rfl⟩ := ih
        exact .inr ⟨_, _, h, rfl⟩
    | sequences hs =>
      cases hs with
      | accepts hp => unfold Shape at ih; rw [hp] at ih; exact ih
      | replies => exact ih
    | cancels hs =>
      cases hs
      exact ih

/-- Whatever the interleaving, the user receives responses, and after them at most one error, with which the channel is
closed. -/
theorem C81_messages {S : Surroundings} {u : Updater} {w : World} (h : Reach S u w) :
    ∃ rs : List UpdateResponse, w.got = rs.map .ok ∨ ∃ m, w.got = rs.map .ok ++ [.error (.err m)] ∧ w.pc = .closed := by
  have hs := shape h
  unfold Shape at hs
  split at hs
  · obtain ⟨⟨rs, h⟩, -⟩ := hs; exact ⟨rs, .inl h⟩
  · obtain ⟨⟨rs, h⟩, -⟩ := hs; exact ⟨rs, .inl h⟩
  · obtain ⟨⟨rs, h⟩, -⟩ := hs; exact ⟨rs, .inl h⟩
  · next hc =>
    obtain ⟨rs, h⟩ | ⟨l, m, ⟨rs, rfl⟩, h⟩ := hs
    · exact ⟨rs, .inl h⟩
    · exact ⟨rs, .inr ⟨m, h, hc⟩⟩
  · obtain ⟨rs, h⟩ := hs; exact ⟨rs, .inl h⟩

/-! ### The sequencer -/

/-- the updater still serves the request of `u` -/
def SameRequest (u v : Updater) : Prop := v.label = u.label ∧ v.signedVer = u.signedVer ∧ v.values = u.values

theorem nextFrom_told {env : Env} {now : Nat} {st : Store} {u : Updater} {b : Bool} {res : UpdateResponse} {ver : Nat}
    (h : nextFrom env now st u b = .ok (res, ver)) : ver = u.ver + res.info.length := by
  unfold nextFrom next at h
  split at h
  · cases h
  obtain ⟨⟨values, info⟩, hi, h⟩ := G.bind_eq_ok.1 h
  obtain ⟨ladder, -, h⟩ := G.bind_eq_ok.1 h
  obtain ⟨hd, -, h⟩ := G.bind_eq_ok.1 h
  obtain ⟨p, -, h⟩ := G.bind_eq_ok.1 h
  obtain ⟨⟨m, p2⟩, -, h⟩ := G.bind_eq_ok.1 h
  obtain ⟨⟨m', p3⟩, -, h⟩ := G.bind_eq_ok.1 h
  obtain ⟨⟨pr, p4⟩, -, h⟩ := G.bind_eq_ok.1 h
  cases h
  rfl

theorem reloadTree_request {env : Env} {db : Store} {pos : Nat} {u v : Updater} (h : reloadTree env db pos u = .ok v) :
    SameRequest u v := by
  unfold reloadTree at h
  obtain ⟨t, -, h⟩ := G.bind_eq_ok.1 h
  split at h
  · cases h
  split at h
  · cases h
  obtain ⟨index, -, h⟩ := G.bind_eq_ok.1 h
  split at h
  · cases h
  cases h
  exact ⟨rfl, rfl, rfl⟩

/-- what was said when the request reached the sequencer -/
def Informed (u : Updater) (got : List (G UpdateResponse)) : Prop :=
  ∃ rs rest, got = rs.map .ok ++ rest ∧ u.index.length ≤ u.ver + toldOf rs

theorem Informed.more {u : Updater} {got : List (G UpdateResponse)} (h : Informed u got) (m : G UpdateResponse) :
    Informed u (got ++ [m]) := by
  obtain ⟨rs, rest, rfl, h⟩ := h
  exact ⟨rs, rest ++ [m], by simp, h⟩

/-- the requests that the sequencer received -/
def Submitted (S : Surroundings) (u : Updater) (w : World) : Prop :=
  S.hasUpdater = true ∧ u.values ≠ [] ∧ w.asked = [⟨u.label, u.signedVer, u.values⟩] ∧ Informed u w.got

def Told (u v : Updater) (got : List (G UpdateResponse)) : Prop :=
  SameRequest u v ∧ v.index = u.index ∧ ∃ rs, got = rs.map .ok ∧ v.ver = u.ver + toldOf rs

/-- the invariant behind `C81_submits` -/
def Asking (S : Surroundings) (u : Updater) (w : World) : Prop :=
  match w.pc with
  | .first v => w.asked = [] ∧ Told u v w.got
  | .send1 msg v => w.asked = [] ∧ ∀ x, v = some x → Told u x (w.got ++ [msg])
  | .submit v => w.asked = [] ∧ SameRequest u v ∧ Informed u w.got
  | .offer v => w.asked = [] ∧ S.hasUpdater = true ∧ u.values ≠ [] ∧ SameRequest u v ∧ Informed u w.got
  | .await v => Submitted S u w ∧ SameRequest u v
  | .second _ v => Submitted S u w ∧ SameRequest u v
  | .send2 _ _ v => Submitted S u w ∧ ∀ x, v = some x → SameRequest u x
  | _ => w.asked = [] ∨ Submitted S u w

theorem Submitted.more {S : Surroundings} {u : Updater} {w : World} (h : Submitted S u w) (m : G UpdateResponse) (pc : Pc) :
    Submitted S u { w with pc := pc, got := w.got ++ [m] } := ⟨h.1, h.2.1, h.2.2.1, h.2.2.2.more m⟩

theorem Submitted.of {S : Surroundings} {u : Updater} {w w' : World} (h : Submitted S u w) (ha : w'.asked = w.asked) (hg : w'.got = w.got) :
    Submitted S u w' := ⟨h.1, h.2.1, ha ▸ h.2.2.1, hg ▸ h.2.2.2⟩

theorem asking {S : Surroundings} {u : Updater} {w : World} (h : Reach S u w) : Asking S u w := by
  induction h with
  | start => exact ⟨rfl, ⟨rfl, rfl, rfl⟩, rfl, [], rfl, rfl⟩
  | step hr hs ih =>
    cases hs with
    | own hs =>
      cases hs with
      | @next1 v now st res ver hp hv _ _ hn =>
        unfold Asking at ih; rw [hp] at ih
        obtain ⟨ha, hq, hi, rs, hg, hver⟩ := ih
        refine ⟨ha, ?_⟩
        rintro x ⟨⟩
        refine ⟨hq, hi, rs ++ [res], by simp [hg], ?_⟩
        have := nextFrom_told hn
        simp only [Updater.told, toldOf, List.map_append, List.sum_append, List.map_cons, List.map_nil, List.sum_cons, List.sum_nil]
        simp only [toldOf] at hver
        omega
      | fail1 hp => unfold Asking at ih; rw [hp] at ih; exact ⟨ih.1, by rintro x ⟨⟩⟩
      | crash1 hp => unfold Asking at ih; rw [hp] at ih; exact .inl ih.1
      | done1 hp hv =>
        unfold Asking at ih; rw [hp] at ih
        obtain ⟨ha, hq, hi, rs, hg, hver⟩ := ih
        exact ⟨ha, hq, rs, [], by simp [hg], by rw [← hi]; omega⟩
      | nothing hp => unfold Asking at ih; rw [hp] at ih; exact .inl ih.1
      | unsupported hp => unfold Asking at ih; rw [hp] at ih; exact .inl ih.1
      | supported hp hne hu =>
        unfold Asking at ih; rw [hp] at ih
        exact ⟨ih.1, hu, ih.2.1.2.2 ▸ hne, ih.2⟩
      | refused hp => unfold Asking at ih; rw [hp] at ih; exact .inr (ih.1.of rfl rfl)
      | reloaded hp _ _ hl =>
        unfold Asking at ih; rw [hp] at ih
        obtain ⟨a, b, c⟩ := reloadTree_request hl
        exact ⟨ih.1.of rfl rfl, a.trans ih.2.1, b.trans ih.2.2.1, c.trans ih.2.2.2⟩
      | notReloaded hp => unfold Asking at ih; rw [hp] at ih; exact .inr (ih.1.of rfl rfl)
      | crashReload hp => unfold Asking at ih; rw [hp] at ih; exact .inr (ih.1.of rfl rfl)
      | next2 hp => unfold Asking at ih; rw [hp] at ih; exact ⟨ih.1.of rfl rfl, by rintro x ⟨⟩; exact ih.2⟩
      | fail2 hp => unfold Asking at ih; rw [hp] at ih; exact ⟨ih.1.of rfl rfl, by rintro x ⟨⟩⟩
      | crash2 hp => unfold Asking at ih; rw [hp] at ih; exact .inr (ih.1.of rfl rfl)
      | done2 hp => unfold Asking at ih; rw [hp] at ih; exact .inr (ih.1.of rfl rfl)
      | stop1 hp => unfold Asking at ih; rw [hp] at ih; exact .inl ih.1
      | stop2 hp => unfold Asking at ih; rw [hp] at ih; exact .inr (ih.1.of rfl rfl)
      | stopLast hp => unfold Asking at ih; rw [hp] at ih; exact ih.imp_right (·.of rfl rfl)
      | stopOffer hp => unfold Asking at ih; rw [hp] at ih; exact .inl ih.1
      | stopAwait hp => unfold Asking at ih; rw [hp] at ih; exact .inr (ih.1.of rfl rfl)
    | receives hs =>
      cases hs with
      | @one msg v hp =>
        unfold Asking at ih; rw [hp] at ih
        cases v with
        | none => exact .inl ih.1
        | some x => exact ⟨ih.1, ih.2 x rfl⟩
      | @two pos msg v hp =>
        unfold Asking at ih; rw [hp] at ih
        cases v with
        | none => exact .inr (ih.1.more _ _)
        | some x => exact ⟨ih.1.more _ _, ih.2 x rfl⟩
      | last hp => unfold Asking at ih; rw [hp] at ih; exact ih.imp_right (·.more _ _)
    | sequences hs =>
      cases hs with
      | accepts hp =>
        unfold Asking at ih; rw [hp] at ih
        obtain ⟨ha, hu, hne, ⟨a, b, c⟩, hi⟩ := ih
        exact ⟨⟨hu, hne, by simp [ha, a, b, c], hi⟩, a, b, c⟩
      | replies => exact ih
    | cancels hs =>
      cases hs
      exact ih

/-- The sequencer gets at most one request: the user's, if there are values and there is a sequencer, and not before
the user has received responses for all versions of the label that existed when the update was requested. -/
theorem C81_submits {S : Surroundings} {u : Updater} {w : World} (h : Reach S u w) (ha : w.asked ≠ []) :
    w.asked = [⟨u.label, u.signedVer, u.values⟩] ∧ u.values ≠ [] ∧ S.hasUpdater = true ∧
    ∃ (rs : List UpdateResponse) (rest : List (G UpdateResponse)), w.got = rs.map .ok ++ rest ∧
      u.index.length ≤ u.ver + (rs.map (fun r => r.info.length)).sum := by
  have hk := asking h
  have key : Submitted S u w → w.asked = [⟨u.label, u.signedVer, u.values⟩] ∧ u.values ≠ [] ∧ S.hasUpdater = true ∧
    ∃ (rs : List UpdateResponse) (rest : List (G UpdateResponse)), w.got = rs.map .ok ++ rest ∧
      u.index.length ≤ u.ver + (rs.map (fun r => r.info.length)).sum := fun ⟨a, b, c, d⟩ => ⟨c, b, a, d⟩
  unfold Asking at hk
  split at hk
  · exact absurd hk.1 ha
  · exact absurd hk.1 ha
  · exact absurd hk.1 ha
  · exact absurd hk.1 ha
  · exact key hk.1
  · exact key hk.1
  · exact key hk.1
  · exact key (hk.resolve_left ha)

/-! ### The end -/

/-- Every execution is finite. -/
theorem C81_finite (S : Surroundings) : WellFounded (fun w' w => Step S w w') :=
  Subrelation.wf (fun h => step_less h) (InvImage.wf World.measure less_wf)

/-- the steps that do not depend on anybody else are always possible: there is a time, and the database can be read -/
structure Responsive (S : Surroundings) : Prop where
  time : ∃ now, S.time now
  sees : ∀ st, ∃ st', S.sees st st'
  reload : ∀ pos, ∃ db, S.reload pos db

theorem own_first {S : Surroundings} (hS : Responsive S) {w : World} {u : Updater} (hp : w.pc = .first u) : ∃ w', Own S w w' := by
  obtain ⟨now, hnow⟩ := hS.time
  obtain ⟨st, hst⟩ := hS.sees u.tree.tx
  by_cases hv : u.ver < u.index.length
  · cases hn : nextFrom S.env now st u true with
    | ok r => exact ⟨_, .next1 hp hv hnow hst hn⟩
    | error e =>
      by_cases he : ∃ m, e = .err m
      · obtain ⟨m, rfl⟩ := he
        exact ⟨_, .fail1 hp hv hnow hst hn⟩
      · exact ⟨_, .crash1 hp hv hnow hst hn (fun m h => he ⟨m, h⟩)⟩
  · exact ⟨_, .done1 hp hv⟩

theorem own_second {S : Surroundings} (hS : Responsive S) {w : World} {pos : Nat} {u : Updater} (hp : w.pc = .second pos u) :
    ∃ w', Own S w w' := by
  obtain ⟨now, hnow⟩ := hS.time
  obtain ⟨st, hst⟩ := hS.sees u.tree.tx
  by_cases hv : u.ver < u.index.length
  · cases hn : nextFrom S.env now st u (decide (u.index.getD u.ver 0 ≠ pos)) with
    | ok r => exact ⟨_, .next2 hp hv hnow hst hn⟩
    | error e =>
      by_cases he : ∃ m, e = .err m
      · obtain ⟨m, rfl⟩ := he
        exact ⟨_, .fail2 hp hv hnow hst hn⟩
      · exact ⟨_, .crash2 hp hv hnow hst hn (fun m h => he ⟨m, h⟩)⟩
  · exact ⟨_, .done2 hp hv⟩

theorem own_submit {S : Surroundings} {w : World} {u : Updater} (hp : w.pc = .submit u) : ∃ w', Own S w w' := by
  by_cases hv : u.values = []
  · exact ⟨_, .nothing hp hv⟩
  · cases hu : S.hasUpdater with
    | false => exact ⟨_, .unsupported hp hv hu⟩
    | true => exact ⟨_, .supported hp hv hu⟩

theorem own_await {S : Surroundings} (hS : Responsive S) {w : World} {u : Updater} (hp : w.pc = .await u) (hr : w.reply ≠ none) :
    ∃ w', Own S w w' := by
  cases hq : w.reply with
  | none => exact absurd hq hr
  | some r =>
    cases r with
    | none => exact ⟨_, .refused hp hq⟩
    | some pos =>
      obtain ⟨db, hdb⟩ := hS.reload pos
      cases hn : reloadTree S.env db pos u with
      | ok r => exact ⟨_, .reloaded hp hq hdb hn⟩
      | error e =>
        by_cases he : ∃ m, e = .err m
        · obtain ⟨m, rfl⟩ := he
          exact ⟨_, .notReloaded hp hq hdb hn⟩
        · exact ⟨_, .crashReload hp hq hdb hn (fun m h => he ⟨m, h⟩)⟩

/-- The goroutine never blocks for ever: it has ended, or it can go on by itself, or it waits for the user to receive a
message, or it waits for the sequencer, which then can go on. -/
theorem C81_progress {S : Surroundings} (hS : Responsive S) {u : Updater} {w : World} (h : Reach S u w) :
    w.pc = .closed ∨ w.pc = .crashed ∨ (∃ w', Own S w w') ∨ (∃ w', Receives w w') ∨ ∃ w', Sequences w w' := by
  cases hp : w.pc with
  | first v => exact .inr (.inr (.inl (own_first hS hp)))
  | send1 msg v => exact .inr (.inr (.inr (.inl ⟨_, .one hp⟩)))
  | submit v => exact .inr (.inr (.inl (own_submit hp)))
  | offer v => exact .inr (.inr (.inr (.inr ⟨_, .accepts hp⟩)))
  | await v =>
    by_cases hr : w.reply = none
    · refine .inr (.inr (.inr (.inr ⟨_, .replies (r := none) ?_ hr⟩)))
      have := asking h
      unfold Asking at this
      rw [hp] at this
      rw [this.1.2.2.1]
      simp
    · exact .inr (.inr (.inl (own_await hS hp hr)))
  | second pos v => exact .inr (.inr (.inl (own_second hS hp)))
  | send2 pos msg v => exact .inr (.inr (.inr (.inl ⟨_, .two hp⟩)))
  | last msg => exact .inr (.inr (.inr (.inl ⟨_, .last hp⟩)))
  | closed => exact .inl rfl
  | crashed => exact .inr (.inl rfl)

theorem own_cancelled {S : Surroundings} (hS : Responsive S) {w : World} (hc : w.cancelled = true) :
    w.pc = .closed ∨ w.pc = .crashed ∨ ∃ w', Own S w w' := by
  cases hp : w.pc with
  | first v => exact .inr (.inr (own_first hS hp))
  | send1 msg v => exact .inr (.inr ⟨_, .stop1 hp hc⟩)
  | submit v => exact .inr (.inr (own_submit hp))
  | offer v => exact .inr (.inr ⟨_, .stopOffer hp hc⟩)
  | await v => exact .inr (.inr ⟨_, .stopAwait hp hc⟩)
  | second pos v => exact .inr (.inr (own_second hS hp))
  | send2 pos msg v => exact .inr (.inr ⟨_, .stop2 hp hc⟩)
  | last msg => exact .inr (.inr ⟨_, .stopLast hp hc⟩)
  | closed => exact .inl rfl
  | crashed => exact .inr (.inl rfl)

theorem own_keeps {S : Surroundings} {w w' : World} (h : Own S w w') :
    w'.cancelled = w.cancelled ∧ w'.got = w.got ∧ w'.asked = w.asked := by
  cases h <;> exact ⟨rfl, rfl, rfl⟩

/-- the steps of the goroutine alone -/
inductive Alone (S : Surroundings) : World → World → Prop where
  | refl (w) : Alone S w w
  | step {w w' w''} : Own S w w' → Alone S w' w'' → Alone S w w''

/-- Once the context is cancelled, the goroutine needs nobody to come to its end, and sends nothing more to the sequencer. -/
theorem C81_cancelled_ends {S : Surroundings} (hS : Responsive S) {w : World} (hc : w.cancelled = true) :
    ∃ w', Alone S w w' ∧ (w'.pc = .closed ∨ w'.pc = .crashed) ∧ w'.got = w.got ∧ w'.asked = w.asked := by
  induction w using (C81_finite S).induction with
  | _ w ih =>
    rcases own_cancelled hS hc with h | h | ⟨w1, h⟩
    · exact ⟨w, .refl w, .inl h, rfl, rfl⟩
    · exact ⟨w, .refl w, .inr h, rfl, rfl⟩
    · obtain ⟨a, b, c⟩ := own_keeps h
      obtain ⟨w', h1, h2, h3, h4⟩ := ih w1 (.own h) (a.trans hc)
      exact ⟨w', .step h h1, h2, h3.trans b, h4.trans c⟩

/-! ### Nothing is lost -/

/-- the clock stands still, and the database changes only when the new versions are sequenced -/
structure Quiet (S : Surroundings) (now : Nat) : Prop where
  time : ∀ x, S.time x → x = now
  sees : ∀ a b, S.sees a b → b = a

theorem nextFrom_quiet {env : Env} {now : Nat} {u : Updater} {b : Bool} : nextFrom env now u.tree.tx u b = next env now u b := rfl

/-- what the sequencer did, as far as it is known -/
structure Fate (S : Surroundings) (w : World) (seq : Sequenced) : Prop where
  unsupported : seq = .unsupported ↔ S.hasUpdater = false
  refused : w.cancelled = false → w.asked ≠ [] → seq = .refused → w.reply = some none
  sequenced : ∀ pos db, seq = .sequenced pos db → w.reply = some (some pos) ∧ S.reload pos db

/-- what is still to be sent -/
def Remaining (env : Env) (now : Nat) (seq : Sequenced) : Pc → List (G UpdateResponse)
  | .first v => process env now seq v
  | .send1 msg (some v) => msg :: process env now seq v
  | .send1 msg none => [msg]
  | .submit v => finish env now seq v
  | .offer v => finish env now seq v
  | .await v => finish env now seq v
  | .second pos v => tail env now pos v
  | .send2 pos msg (some v) => msg :: tail env now pos v
  | .send2 _ msg none => [msg]
  | .last msg => [msg]
  | .closed => []
  | .crashed => []

/-- the part of the program before the reply of the sequencer is looked at -/
def Early : Pc → Prop
  | .first _ | .send1 _ _ | .submit _ | .offer _ | .await _ => True
  | _ => False

/-- the invariant behind `C81_complete` -/
def Complete (S : Surroundings) (now : Nat) (u : Updater) (w : World) : Prop :=
  (Early w.pc ∧ ∀ seq, (seq = .unsupported ↔ S.hasUpdater = false) →
    process S.env now seq u = w.got ++ Remaining S.env now seq w.pc) ∨
  (¬ Early w.pc ∧ ∃ seq, Fate S w seq ∧
    match w.pc with
    | .crashed => ∃ e, (∀ m, e ≠ .err m) ∧ process S.env now seq u = w.got ++ [.error e]
    | .closed => w.got <+: process S.env now seq u ∧ (w.cancelled = false → w.got = process S.env now seq u)
    | pc => process S.env now seq u = w.got ++ Remaining S.env now seq pc)

/-- a fate for a request that never got a reply -/
def noReply (S : Surroundings) : Sequenced := if S.hasUpdater then .refused else .unsupported

theorem noReply_unsupported (S : Surroundings) : noReply S = .unsupported ↔ S.hasUpdater = false := by
  unfold noReply
  cases S.hasUpdater <;> simp

theorem noReply_fate {S : Surroundings} {w : World} (h : w.cancelled = true ∨ w.asked = []) : Fate S w (noReply S) where
  unsupported := noReply_unsupported S
  refused hc ha _ := by rcases h with h | h <;> simp_all
  sequenced pos db he := by
    unfold noReply at he
    split at he <;> cases he

theorem complete {S : Surroundings} {now : Nat} (hq : Quiet S now) {u : Updater} {w : World} (h : Reach S u w) : Complete S now u w := by
  induction h with
  | start => exact .inl ⟨trivial, fun seq _ => rfl⟩
  | step hr hs ih =>
    have hask := asking hr
    unfold Asking at hask
    cases hs with
    | own hs =>
      cases hs with
      | next1 hp hv ht hst hn =>
        obtain rfl := hq.time _ ht
        obtain rfl := hq.sees _ _ hst
        unfold Complete at ih; rw [hp] at ih
        rcases ih with ⟨-, ih⟩ | ⟨h, -⟩
        · refine .inl ⟨trivial, fun seq hs => ?_⟩
          rw [ih seq hs]
          simp only [Remaining]
          rw [process_next hv hn]
        · exact absurd trivial h
      | fail1 hp hv ht hst hn =>
        obtain rfl := hq.time _ ht
        obtain rfl := hq.sees _ _ hst
        unfold Complete at ih; rw [hp] at ih
        rcases ih with ⟨-, ih⟩ | ⟨h, -⟩
        · refine .inl ⟨trivial, fun seq hs => ?_⟩
          rw [ih seq hs]
          simp only [Remaining]
          rw [process_fail hv hn]
        · exact absurd trivial h
      | crash1 hp hv ht hst hn he =>
        obtain rfl := hq.time _ ht
        obtain rfl := hq.sees _ _ hst
        unfold Complete at ih; rw [hp] at ih hask
        rcases ih with ⟨-, ih⟩ | ⟨h, -⟩
        · refine .inr ⟨id, noReply S, noReply_fate (.inr hask.1), _, he, ?_⟩
          rw [ih _ (noReply_unsupported S)]
          simp only [Remaining]
          rw [process_fail hv hn]
        · exact absurd trivial h
      | done1 hp hv =>
        unfold Complete at ih; rw [hp] at ih
        rcases ih with ⟨-, ih⟩ | ⟨h, -⟩
        · refine .inl ⟨trivial, fun seq hs => ?_⟩
          rw [ih seq hs]
          simp only [Remaining]
          rw [process_done hv]
        · exact absurd trivial h
      | nothing hp hv =>
        unfold Complete at ih; rw [hp] at ih hask
        rcases ih with ⟨-, ih⟩ | ⟨h, -⟩
        · have e : process S.env now (noReply S) u = _ := ih _ (noReply_unsupported S)
          simp only [Remaining, finish, hv, if_true, List.append_nil] at e
          exact .inr ⟨id, noReply S, noReply_fate (.inr hask.1), ⟨[], by simp [e]⟩, fun _ => e.symm⟩
        · exact absurd trivial h
      | unsupported hp hv hu =>
        unfold Complete at ih; rw [hp] at ih hask
        rcases ih with ⟨-, ih⟩ | ⟨h, -⟩
        · refine .inr ⟨id, noReply S, noReply_fate (.inr hask.1), ?_⟩
          have e : process S.env now (noReply S) u = _ := ih _ (noReply_unsupported S)
          have hn : noReply S = .unsupported := (noReply_unsupported S).2 hu
          rw [hn] at e ⊢
          simp only [Remaining, finish, hv, if_false] at e ⊢
          exact e
        · exact absurd trivial h
      | supported hp hv hu =>
        unfold Complete at ih; rw [hp] at ih
        rcases ih with ⟨-, ih⟩ | ⟨h, -⟩
        · exact .inl ⟨trivial, ih⟩
        · exact absurd trivial h
      | refused hp hrep =>
        unfold Complete at ih; rw [hp] at ih hask
        rcases ih with ⟨-, ih⟩ | ⟨h, -⟩
        · have e := ih .refused (by simp [hask.1.1])
          refine .inr ⟨id, .refused, ⟨by simp [hask.1.1], fun _ _ _ => hrep, by simp⟩, ?_⟩
          simp only [Remaining, finish] at e ⊢
          rw [e, if_neg]
          rw [hask.2.2.2]
          exact hask.1.2.1
        · exact absurd trivial h
      | @reloaded v pos db v' hp hrep hdb hl =>
        unfold Complete at ih; rw [hp] at ih hask
        rcases ih with ⟨-, ih⟩ | ⟨h, -⟩
        · have e := ih (.sequenced pos db) (by simp [hask.1.1])
          refine .inr ⟨id, .sequenced pos db, ⟨by simp [hask.1.1], by simp, ?_⟩, ?_⟩
          · rintro p d ⟨⟩
            exact ⟨hrep, hdb⟩
          simp only [Remaining, finish] at e ⊢
          rw [e, if_neg, hl]
          · rfl
          rw [hask.2.2.2]
          exact hask.1.2.1
        · exact absurd trivial h
      | @notReloaded v pos db m hp hrep hdb hl =>
        unfold Complete at ih; rw [hp] at ih hask
        rcases ih with ⟨-, ih⟩ | ⟨h, -⟩
        · have e := ih (.sequenced pos db) (by simp [hask.1.1])
          refine .inr ⟨id, .sequenced pos db, ⟨by simp [hask.1.1], by simp, ?_⟩, ?_⟩
          · rintro p d ⟨⟩
            exact ⟨hrep, hdb⟩
          simp only [Remaining, finish] at e ⊢
          rw [e, if_neg, hl]
          rw [hask.2.2.2]
          exact hask.1.2.1
        · exact absurd trivial h
      | @crashReload v pos db e hp hrep hdb hl he =>
        unfold Complete at ih; rw [hp] at ih hask
        rcases ih with ⟨-, ih⟩ | ⟨h, -⟩
        · have e' := ih (.sequenced pos db) (by simp [hask.1.1])
          refine .inr ⟨id, .sequenced pos db, ⟨by simp [hask.1.1], by simp, ?_⟩, e, he, ?_⟩
          · rintro p d ⟨⟩
            exact ⟨hrep, hdb⟩
          simp only [Remaining, finish] at e' ⊢
          rw [e', if_neg, hl]
          rw [hask.2.2.2]
          exact hask.1.2.1
        · exact absurd trivial h
      | next2 hp hv ht hst hn =>
        obtain rfl := hq.time _ ht
        obtain rfl := hq.sees _ _ hst
        unfold Complete at ih; rw [hp] at ih
        rcases ih with ⟨h, -⟩ | ⟨-, seq, hf, ih⟩
        · exact h.elim
        · refine .inr ⟨id, seq, ⟨hf.1, hf.2, hf.3⟩, ?_⟩
          simp only [Remaining] at ih ⊢
          rw [ih, tail_next hv hn]
      | fail2 hp hv ht hst hn =>
        obtain rfl := hq.time _ ht
        obtain rfl := hq.sees _ _ hst
        unfold Complete at ih; rw [hp] at ih
        rcases ih with ⟨h, -⟩ | ⟨-, seq, hf, ih⟩
        · exact h.elim
        · refine .inr ⟨id, seq, ⟨hf.1, hf.2, hf.3⟩, ?_⟩
          simp only [Remaining] at ih ⊢
          rw [ih, tail_fail hv hn]
      | crash2 hp hv ht hst hn he =>
        obtain rfl := hq.time _ ht
        obtain rfl := hq.sees _ _ hst
        unfold Complete at ih; rw [hp] at ih
        rcases ih with ⟨h, -⟩ | ⟨-, seq, hf, ih⟩
        · exact h.elim
        · refine .inr ⟨id, seq, ⟨hf.1, hf.2, hf.3⟩, _, he, ?_⟩
          simp only [Remaining] at ih ⊢
          rw [ih, tail_fail hv hn]
      | done2 hp hv =>
        unfold Complete at ih; rw [hp] at ih
        rcases ih with ⟨h, -⟩ | ⟨-, seq, hf, ih⟩
        · exact h.elim
        · simp only [Remaining, tail_done hv, List.append_nil] at ih
          exact .inr ⟨id, seq, ⟨hf.1, hf.2, hf.3⟩, ⟨[], by simp [ih]⟩, fun _ => ih.symm⟩
      | stop1 hp hc =>
        unfold Complete at ih; rw [hp] at ih
        rcases ih with ⟨-, ih⟩ | ⟨h, -⟩
        · exact .inr ⟨id, noReply S, noReply_fate (.inl hc), ⟨_, (ih _ (noReply_unsupported S)).symm⟩, fun h => by rw [hc] at h; cases h⟩
        · exact absurd trivial h
      | stopOffer hp hc =>
        unfold Complete at ih; rw [hp] at ih
        rcases ih with ⟨-, ih⟩ | ⟨h, -⟩
        · exact .inr ⟨id, noReply S, noReply_fate (.inl hc), ⟨_, (ih _ (noReply_unsupported S)).symm⟩, fun h => by rw [hc] at h; cases h⟩
        · exact absurd trivial h
      | stopAwait hp hc =>
        unfold Complete at ih; rw [hp] at ih
        rcases ih with ⟨-, ih⟩ | ⟨h, -⟩
        · exact .inr ⟨id, noReply S, noReply_fate (.inl hc), ⟨_, (ih _ (noReply_unsupported S)).symm⟩, fun h => by rw [hc] at h; cases h⟩
        · exact absurd trivial h
      | stop2 hp hc =>
        unfold Complete at ih; rw [hp] at ih
        rcases ih with ⟨h, -⟩ | ⟨-, seq, hf, ih⟩
        · exact h.elim
        · exact .inr ⟨id, seq, ⟨hf.1, hf.2, hf.3⟩, ⟨_, ih.symm⟩, fun h => by rw [hc] at h; cases h⟩
      | stopLast hp hc =>
        unfold Complete at ih; rw [hp] at ih
        rcases ih with ⟨h, -⟩ | ⟨-, seq, hf, ih⟩
        · exact h.elim
        · exact .inr ⟨id, seq, ⟨hf.1, hf.2, hf.3⟩, ⟨_, ih.symm⟩, fun h => by rw [hc] at h; cases h⟩
    | receives hs =>
      cases hs with
      | @one msg v hp =>
        unfold Complete at ih; rw [hp] at ih hask
        rcases ih with ⟨-, ih⟩ | ⟨h, -⟩
        · cases v with
          | none =>
            have e := ih _ (noReply_unsupported S)
            exact .inr ⟨id, noReply S, noReply_fate (.inr hask.1), ⟨[], by simp [e, Remaining]⟩, fun _ => e.symm⟩
          | some v =>
            refine .inl ⟨trivial, fun seq hs => ?_⟩
            rw [ih seq hs]
            simp [Remaining, after]
        · exact absurd trivial h
      | @two pos msg v hp =>
        unfold Complete at ih; rw [hp] at ih
        rcases ih with ⟨h, -⟩ | ⟨-, seq, hf, ih⟩
        · exact h.elim
        · cases v with
          | none => exact .inr ⟨id, seq, ⟨hf.1, hf.2, hf.3⟩, ⟨[], by simp [ih, Remaining]⟩, fun _ => ih.symm⟩
          | some v =>
            refine .inr ⟨id, seq, ⟨hf.1, hf.2, hf.3⟩, ?_⟩
            simp only [Remaining, after] at ih ⊢
            rw [ih]
            simp
      | last hp =>
        unfold Complete at ih; rw [hp] at ih
        rcases ih with ⟨h, -⟩ | ⟨-, seq, hf, ih⟩
        · exact h.elim
        · exact .inr ⟨id, seq, ⟨hf.1, hf.2, hf.3⟩, ⟨[], by simp [ih, Remaining]⟩, fun _ => ih.symm⟩
    | sequences hs =>
      cases hs with
      | accepts hp =>
        unfold Complete at ih; rw [hp] at ih
        rcases ih with ⟨-, ih⟩ | ⟨h, -⟩
        · exact .inl ⟨trivial, ih⟩
        · exact absurd trivial h
      | replies ha hn =>
        rcases ih with ih | ⟨hE, seq, hf, ih⟩
        · exact .inl ih
        · refine .inr ⟨hE, seq, ⟨hf.1, fun hc h hs => ?_, fun pos db he => ?_⟩, ih⟩
          · have := hf.2 hc h hs
            rw [hn] at this
            cases this
          · have := (hf.3 pos db he).1
            rw [hn] at this
            cases this
    | cancels hs =>
      cases hs
      rcases ih with ih | ⟨hE, seq, hf, ih⟩
      · exact .inl ih
      · refine .inr ⟨hE, seq, ⟨hf.1, by rintro ⟨⟩, hf.3⟩, ?_⟩
        simp only
        split at ih
        · exact ih
        · exact ⟨ih.1, by rintro ⟨⟩⟩
        · exact ih

/-- The messages are those of `process`, in this order, for what the sequencer did; and all of them are received, unless
the user cancels. -/
theorem C81_complete {S : Surroundings} {now : Nat} (hq : Quiet S now) {u : Updater} {w : World} (h : Reach S u w)
    (hc : w.pc = .closed) :
    ∃ seq, Fate S w seq ∧ w.got <+: process S.env now seq u ∧ (w.cancelled = false → w.got = process S.env now seq u) := by
  rcases complete hq h with ⟨hE, -⟩ | ⟨-, seq, hf, h⟩
  · rw [hc] at hE
    exact hE.elim
  · rw [hc] at h
    exact ⟨seq, hf, h⟩

/-- The goroutine does not panic, under the conditions of C17: the request does not advertise a tree of size zero, and the
label has fewer than 2^31 versions. -/
theorem C81_never_crashes {S : Surroundings} {now : Nat} (hq : Quiet S now) (hcs : S.env.cs.Good) (hsm : Prefix.Small S.env.cs) {t : Tree}
    (ht : Serves S.env t) {req : UpdateRequest} (h0 : req.last ≠ some 0) (hf : FewVersionsOf t req.label)
    (hs : ∀ pos db, S.reload pos db → SequencerOk S.env req.label (.sequenced pos db)) {u : Updater}
    (hu : setRequest t req = .ok u) {w : World} (h : Reach S u w) : w.pc ≠ .crashed := by
  intro hc
  rcases complete hq h with ⟨hE, -⟩ | ⟨-, seq, hfate, h⟩
  · rw [hc] at hE
    exact hE.elim
  · rw [hc] at h
    obtain ⟨e, he, h⟩ := h
    have hseq : SequencerOk S.env req.label seq := by
      cases seq with
      | unsupported => trivial
      | refused => trivial
      | sequenced pos db => exact hs pos db (hfate.sequenced pos db rfl).2
    obtain ⟨msgs, hm, hall⟩ := (C17_update_ends_partial hcs hsm ht now).1 req seq h0 hf hseq
    unfold update at hm
    rw [hu, Katie.G.ok_bind] at hm
    cases hm
    rcases hall (.error e) (by rw [h]; simp) with ⟨r, hr⟩ | ⟨m, hr⟩
    · cases hr
    · cases hr
      exact he m rfl

/-! ### A concrete case: the owner of label 10 adds a version, which is sequenced; the log is then that of `toyT2` -/

def toySetting : Surroundings where
  env := toyEnv
  hasUpdater := true
  time x := x = 6
  sees a b := b = a
  reload _ db := db = toyT2.db

theorem toySetting_quiet : Quiet toySetting 6 := ⟨fun _ h => h, fun _ _ h => h⟩

/-- the user knows the two versions that there are, and adds one -/
def toyRequest : UpdateRequest := ⟨none, [10], some 1, [[4]]⟩

def toyUpdater : Updater := ⟨toyT1, none, [10], none, [⟨[4], none⟩], [0, 0], 2⟩

theorem toyUpdater_set : setRequest toyT1 toyRequest = .ok toyUpdater := by
  have : getIndex toyT1.tx [10] = .ok [0, 0] := by decide +kernel
  unfold setRequest
  rw [show toyRequest.label = [10] from rfl, this]
  rfl

/-- a whole execution: the request is submitted, sequenced in log entry 1, and the user receives the only message, an error -/
theorem toyExecution : ∃ w, Reach toySetting toyUpdater w ∧ w.pc = .closed ∧ w.asked = [⟨[10], none, [⟨[4], none⟩]⟩] ∧
    w.got = [goErr "label owner state has not been initialized"] := by
  have hr : (reloadTree toyEnv toyT2.db 1 toyUpdater).toBool = true := by decide +kernel
  cases hu : reloadTree toyEnv toyT2.db 1 toyUpdater with
  | error e => rw [hu] at hr; cases hr
  | ok u =>
    have h1 : u.ver < u.index.length ∧ next toyEnv 6 u (decide (u.index.getD u.ver 0 ≠ 1)) =
        .error (.err "label owner state has not been initialized") := by
      have : (match reloadTree toyEnv toyT2.db 1 toyUpdater with
        | .ok u => decide (u.ver < u.index.length) && decide (next toyEnv 6 u (decide (u.index.getD u.ver 0 ≠ 1)) =
            .error (.err "label owner state has not been initialized"))
        | .error _ => false) = true := by decide +kernel
      rw [hu] at this
      simpa using this
    have s0 : Reach toySetting toyUpdater _ := .start
    have s1 := Reach.step s0 (.own (.done1 rfl (by decide)))
    have s2 := Reach.step s1 (.own (.supported rfl (by decide) rfl))
    have s3 := Reach.step s2 (.sequences (.accepts rfl))
    have s4 := Reach.step s3 (.sequences (.replies (r := some 1) (by simp) rfl))
    have s5 := Reach.step s4 (.own (.reloaded rfl rfl rfl hu))
    have s6 := Reach.step s5 (.own (.fail2 rfl h1.1 rfl rfl h1.2))
    have s7 := Reach.step s6 (.receives (.two rfl))
    exact ⟨_, s7, rfl, rfl, rfl⟩

example : Responsive toySetting := ⟨⟨6, rfl⟩, fun st => ⟨st, rfl⟩, fun _ => ⟨toyT2.db, rfl⟩⟩

example {w : World} (h : Reach toySetting toyUpdater w) : w.pc ≠ .crashed := by
  refine C81_never_crashes toySetting_quiet toySuite_good (by decide : toySuite.hashSize ≤ 32) (t := toyT1) (req := toyRequest)
    ⟨_, _, toyT1, none, toyRuns1, by decide, rfl, rfl, by rintro a ⟨⟩⟩ (by decide) (fun index hi => ?_) (fun pos db h => ?_) toyUpdater_set h
  · have : getIndex toyT1.tx [10] = .ok [0, 0] := by decide +kernel
    rw [show toyRequest.label = [10] from rfl, this] at hi
    cases hi
    decide
  · obtain rfl : db = toyT2.db := h
    refine ⟨toyT2, by decide +kernel, ⟨_, _, toyT2, none, toyRuns2, by decide, rfl, rfl, by rintro a ⟨⟩⟩, fun index hi => ?_⟩
    have : getIndex toyT2.tx [10] = .ok [0, 0, 1] := by decide +kernel
    rw [show toyRequest.label = [10] from rfl, this] at hi
    cases hi
    decide

/-- the user gives up while the request waits for the sequencer -/
example : ∃ w, Reach toySetting toyUpdater w ∧ w.cancelled = true ∧ w.pc = .offer toyUpdater := by
  have s0 : Reach toySetting toyUpdater _ := .start
  have s1 := Reach.step s0 (.own (.done1 rfl (by decide)))
  have s2 := Reach.step s1 (.own (.supported rfl (by decide) rfl))
  exact ⟨_, Reach.step s2 (.cancels (.cancel rfl)), rfl, rfl⟩

end Katie.Props
