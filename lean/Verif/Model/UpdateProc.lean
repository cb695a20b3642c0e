import Verif.Model.ServerOps

/-
Model of the goroutine of /repo/tree/transparency/update.go:162-236 (`process`) and of those it talks to: the user, who
receives on the channel that `Update` returned and may cancel the context, and the goroutine that sequences new versions.
`Model/ServerOps` has the same function as a plain list of messages.

A step is the part of the code between two operations on channels.  What happens concurrently is left open: at each step
the clock may show another time, and the database may have other contents.  A panic in this goroutine ends the whole
program; a computation that does not return counts as one.
-/

namespace Katie.Server
open Katie Katie.Wire Katie.Alg Katie.Ladder

/-- where the goroutine is, and what it remembers -/
inductive Pc where
  /-- update.go:168: the first loop -/
  | first (u : Updater)
  /-- update.go:170: sending `msg`; then the loop goes on with `u`, or ends because `msg` is an error -/
  | send1 (msg : G UpdateResponse) (u : Option Updater)
  /-- update.go:181 -/
  | submit (u : Updater)
  /-- update.go:197-201: offering the request to the sequencer -/
  | offer (u : Updater)
  /-- update.go:207-217: waiting for the position -/
  | await (u : Updater)
  /-- update.go:225: the second loop -/
  | second (pos : Nat) (u : Updater)
  /-- update.go:227 -/
  | send2 (pos : Nat) (msg : G UpdateResponse) (u : Option Updater)
  /-- update.go:184, 210, 219: sending an error before returning -/
  | last (msg : G UpdateResponse)
  /-- update.go:163: the goroutine has returned, the channel is closed -/
  | closed
  | crashed

/-- the request to the sequencer: transparency.go:36-49 `UpdateRequest` -/
structure SequenceRequest where
  label : Bytes
  startingVersion : Option Nat
  values : List UpdateValue
  deriving DecidableEq

structure World where
  pc : Pc
  /-- the messages that the user received -/
  got : List (G UpdateResponse) := []
  /-- the context is cancelled -/
  cancelled : Bool := false
  /-- the requests that the sequencer received -/
  asked : List SequenceRequest := []
  /-- the channel `res` of update.go:189: nothing yet, closed, or a position -/
  reply : Option (Option Nat) := none

/-- what is the same throughout an execution -/
structure Surroundings where
  env : Env
  /-- `t.updater != nil` -/
  hasUpdater : Bool
  /-- the times at which the code runs -/
  time : Nat → Prop
  /-- what may be read through the connection of a tree -/
  sees : Store → Store → Prop
  /-- what may be in the database when the tree is reloaded, after the position was received -/
  reload : Nat → Store → Prop

/-- the updater after a response: update.go:176-177, 233-234 -/
def Updater.told (u : Updater) (ver : Nat) : Updater := { u with ver := ver, last := some u.tree.size }

/-- `u.next`, reading from `st` -/
def nextFrom (env : Env) (now : Nat) (st : Store) (u : Updater) (withValues : Bool) : G (UpdateResponse × Nat) :=
  next env now { u with tree := { u.tree with tx := st } } withValues

/-- the goroutine goes on by itself -/
inductive Own (S : Surroundings) : World → World → Prop where
  | next1 {w u now st res ver} : w.pc = .first u → u.ver < u.index.length → S.time now → S.sees u.tree.tx st →
      nextFrom S.env now st u true = .ok (res, ver) → Own S w { w with pc := .send1 (.ok res) (some (u.told ver)) }
  | fail1 {w u now st m} : w.pc = .first u → u.ver < u.index.length → S.time now → S.sees u.tree.tx st →
      nextFrom S.env now st u true = .error (.err m) → Own S w { w with pc := .send1 (.error (.err m)) none }
  | crash1 {w u now st e} : w.pc = .first u → u.ver < u.index.length → S.time now → S.sees u.tree.tx st →
      nextFrom S.env now st u true = .error e → (∀ m, e ≠ .err m) → Own S w { w with pc := .crashed }
  | done1 {w u} : w.pc = .first u → ¬ u.ver < u.index.length → Own S w { w with pc := .submit u }
  | nothing {w u} : w.pc = .submit u → u.values = [] → Own S w { w with pc := .closed }
  | unsupported {w u} : w.pc = .submit u → u.values ≠ [] → S.hasUpdater = false →
      Own S w { w with pc := .last (goErr "transparency tree does not support user-submitted label updates") }
  | supported {w u} : w.pc = .submit u → u.values ≠ [] → S.hasUpdater = true → Own S w { w with pc := .offer u }
  | refused {w u} : w.pc = .await u → w.reply = some none →
      Own S w { w with pc := .last (goErr "failed to sequence requested new versions of label") }
  | reloaded {w u pos db u'} : w.pc = .await u → w.reply = some (some pos) → S.reload pos db →
      reloadTree S.env db pos u = .ok u' → Own S w { w with pc := .second pos u' }
  | notReloaded {w u pos db m} : w.pc = .await u → w.reply = some (some pos) → S.reload pos db →
      reloadTree S.env db pos u = .error (.err m) → Own S w { w with pc := .last (.error (.err m)) }
  | crashReload {w u pos db e} : w.pc = .await u → w.reply = some (some pos) → S.reload pos db →
      reloadTree S.env db pos u = .error e → (∀ m, e ≠ .err m) → Own S w { w with pc := .crashed }
  | next2 {w pos u now st res ver} : w.pc = .second pos u → u.ver < u.index.length → S.time now → S.sees u.tree.tx st →
      nextFrom S.env now st u (decide (u.index.getD u.ver 0 ≠ pos)) = .ok (res, ver) →
      Own S w { w with pc := .send2 pos (.ok res) (some (u.told ver)) }
  | fail2 {w pos u now st m} : w.pc = .second pos u → u.ver < u.index.length → S.time now → S.sees u.tree.tx st →
      nextFrom S.env now st u (decide (u.index.getD u.ver 0 ≠ pos)) = .error (.err m) →
      Own S w { w with pc := .send2 pos (.error (.err m)) none }
  | crash2 {w pos u now st e} : w.pc = .second pos u → u.ver < u.index.length → S.time now → S.sees u.tree.tx st →
      nextFrom S.env now st u (decide (u.index.getD u.ver 0 ≠ pos)) = .error e → (∀ m, e ≠ .err m) →
      Own S w { w with pc := .crashed }
  | done2 {w pos u} : w.pc = .second pos u → ¬ u.ver < u.index.length → Own S w { w with pc := .closed }
  /-- update.go:157: the context is cancelled while sending -/
  | stop1 {w msg u} : w.pc = .send1 msg u → w.cancelled = true → Own S w { w with pc := .closed }
  | stop2 {w pos msg u} : w.pc = .send2 pos msg u → w.cancelled = true → Own S w { w with pc := .closed }
  | stopLast {w msg} : w.pc = .last msg → w.cancelled = true → Own S w { w with pc := .closed }
  /-- update.go:199 -/
  | stopOffer {w u} : w.pc = .offer u → w.cancelled = true → Own S w { w with pc := .closed }
  /-- update.go:215 -/
  | stopAwait {w u} : w.pc = .await u → w.cancelled = true → Own S w { w with pc := .closed }

/-- the position of the goroutine after a message was received -/
def after (goOn : Updater → Pc) : Option Updater → Pc
  | none => .closed
  | some u => goOn u

/-- the user receives a message: update.go:155 -/
inductive Receives : World → World → Prop where
  | one {w msg u} : w.pc = .send1 msg u → Receives w { w with pc := after .first u, got := w.got ++ [msg] }
  | two {w pos msg u} : w.pc = .send2 pos msg u → Receives w { w with pc := after (.second pos) u, got := w.got ++ [msg] }
  | last {w msg} : w.pc = .last msg → Receives w { w with pc := .closed, got := w.got ++ [msg] }

/-- the sequencer receives the request: update.go:198; or replies to it, by a position or by closing the channel
(the channel has room for one reply: update.go:189) -/
inductive Sequences : World → World → Prop where
  | accepts {w u} : w.pc = .offer u →
      Sequences w { w with pc := .await u, asked := w.asked ++ [⟨u.label, u.signedVer, u.values⟩] }
  | replies {w r} : w.asked ≠ [] → w.reply = none → Sequences w { w with reply := some r }

/-- the user cancels the context -/
inductive Cancels : World → World → Prop where
  | cancel {w} : w.cancelled = false → Cancels w { w with cancelled := true }

inductive Step (S : Surroundings) (w w' : World) : Prop where
  | own : Own S w w' → Step S w w'
  | receives : Receives w w' → Step S w w'
  | sequences : Sequences w w' → Step S w w'
  | cancels : Cancels w w' → Step S w w'

/-- the executions of the goroutine that `Update` or `ManagerUpdate` starts -/
inductive Reach (S : Surroundings) (u : Updater) : World → Prop where
  | start : Reach S u ⟨.first u, [], false, [], none⟩
  | step {w w'} : Reach S u w → Step S w w' → Reach S u w'

end Katie.Server
