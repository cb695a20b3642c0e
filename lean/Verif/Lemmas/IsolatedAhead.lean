import Verif.Lemmas.IsolatedOps
import Verif.Lemmas.ServeFinal
import Verif.Props.C62_Served

/-
A search for the greatest version that has read a newer index than its tree head.
-/

namespace Katie.Alg
open Katie Katie.Wire Katie.Ladder Prog Katie.SearchTree Katie.SearchSpec

section
variable {ts : Nat → Nat} {g : Nat → Int} {stop : Nat → Int → Bool} {n : Nat}

theorem greatestLoop_ahead (hg : SearchSpec.Grows g n) {v : Nat} (hv : g (n - 1) < v) (h0 : v ≠ 0) :
    ∀ (m lo fuel : Nat) (anc : List Nat) (term : Option Nat), At n lo n anc → n - lo ≤ m → m ≤ fuel →
    eval (honest ts g stop) (greatestLoop v n fuel (rt lo n) term) =
      goErr "rightmost log entry not consistent with claimed greatest version of label" := by
  intro m
  induction m with
  | zero => intro lo fuel anc term h h1; have := h.bounds; omega
  | succ m ih =>
    intro lo fuel anc term h h1 h2
    obtain ⟨f, rfl⟩ : ∃ f, fuel = f + 1 := ⟨fuel - 1, by omega⟩
    have hb := h.bounds
    have hgm := hg (rt lo n) (n - 1) (by omega) (by omega)
    unfold greatestLoop
    rw [eval_bind, eval_search]
    simp only [G.ok_bind]
    rw [if_pos (by omega : g (rt lo n) < (v : Int)), eval_ite, if_neg (by decide), eval_ite]
    by_cases hx : rt lo n = n - 1
    · rw [if_neg (by simp [hx]), eval_ite, if_neg (by tauto), eval_ite, if_pos (by decide)]
      rfl
    · rw [if_pos hx, eval_bind, eval_lift, right_rt h (by omega)]
      simp only [G.ok_bind]
      exact ih _ f _ _ (.right h (by omega)) (by omega) (by omega)

theorem greatest_ahead {cfg : Config} (hn : 0 < n) (ht : GoodTimes ts n) (hg : SearchSpec.Grows g n) {v : Nat} (hv : g (n - 1) < v) (h0 : v ≠ 0) :
    eval (honest ts g stop) (greatestVersionSearch cfg v n) =
      goErr "rightmost log entry not consistent with claimed greatest version of label" := by
  obtain ⟨start, anc, lo, ⟨h1, rfl⟩, -, h2⟩ := greatestVersionSearch_eval (cfg := cfg) (g := g) (stop := stop) (v := v) hn ht
  rw [h2]
  exact greatestLoop_ahead hg hv h0 n lo n anc none h1 (by omega) (le_refl _)

end

end Katie.Alg

namespace Katie.Server
open Katie Katie.Wire Katie.Alg Katie.Ladder Katie.ServerSpec Katie.PrefixSpec

section
variable {env : Env} {n : Nat} {t : Tree} {st' : Store} {index index' : List Nat} {bs : List Batch} {E : Nat → LogEntry}

theorem bind_pure_unit (p : Prog Unit) : (p >>= fun _ => (pure () : Prog Unit)) = p := by
  change p.bind _ = p
  induction p with
  | ret r => cases r <;> rfl
  | op q k ih =>
    unfold Prog.bind
    congr 1
    funext a
    exact ih a

theorem Same.search_ahead (h : Same env n t st' index index') (hh : Honest env.cs (serverDB env t.tx) bs n E)
    (hn : ∀ th, t.head = some th → th.treeSize = n) {req : SearchRequest} (hreq : req.version = none)
    (hi' : getIndex st' req.label = .ok index') (hil : index.length ≤ 2 ^ 32)
    (hlt : greatestAt index (n - 1) < (index'.length - 1 : Nat)) (h1 : 1 < index'.length) (h2 : index'.length < 2 ^ 31)
    (now : Nat) (res : SearchResponse) : Server.search env now (reading t st') req ≠ .ok res := by
  intro hs
  unfold Server.search at hs
  rw [hreq] at hs
  obtain ⟨hd, k1, hs⟩ := G.bind_eq_ok.1 hs
  obtain ⟨ix, k2, hs⟩ := G.bind_eq_ok.1 hs
  obtain ⟨ladder, k3, hs⟩ := G.bind_eq_ok.1 hs
  obtain ⟨ov, k4, hs⟩ := G.bind_eq_ok.1 hs
  obtain ⟨⟨steps, s⟩, k5, hs⟩ := G.bind_eq_ok.1 hs
  obtain ⟨p1, k6, hs⟩ := G.bind_eq_ok.1 hs
  obtain ⟨p2, k7, hs⟩ := G.bind_eq_ok.1 hs
  clear hs
  have : ix = index' := Except.ok.inj (k2.symm.trans hi')
  subst this
  rw [fullTreeHead_reading] at k1
  obtain ⟨th, hth, hdn, hlast⟩ := fullTreeHead_facts k1
  have hsz := hn th hth
  rw [hsz] at hdn hlast
  obtain ⟨-, hs5⟩ := addLadder_calm (env := env) (l := req.label) (vs := ladder) (s := {}) (by intro v k hk; cases hk)
  obtain ⟨-, s1, s2, s3⟩ := hs5 _ k5
  -- the update of the view
  rw [(h.updateView hh.pos hth hsz hlast now (small_new (n := n) s3)).1] at k6
  unfold Server.updateView at k6
  simp only [hth] at k6
  obtain ⟨p0, k8, k6⟩ := G.bind_eq_ok.1 k6
  obtain ⟨⟨u, p1'⟩, k9, k6⟩ := G.bind_eq_ok.1 k6
  cases k6
  have hl0 := (loadRetained_same (env := env) (t := t) h.entries h.size hlast (small_new (n := n) s3)).2 p0 k8
  obtain ⟨fk, hfk⟩ := retained_exists (n := n) hh.size (fun k hk => ⟨hl0.2 k hk, hlast k hk⟩)
  rw [loadRetained_ok (env := env) (st := t.tx) hh.entry hh.times hfk] at k8
  cases k8
  have hf := retainedTables_fresh hh.times hfk.nodup hfk.lt (s := s) [] s1 s2 s3
  unfold Server.runOn handleFor at k9
  split at k9
  · cases k9
  next a q hrun =>
  cases k9
  -- the search
  have hT : searchTarget none ix = ix.length - 1 := by
    unfold searchTarget
    exact Nat.mod_eq_of_lt (by omega)
  have hrs : p1'.run (Produced.handle (serverDB env st') ix) (greatestVersionSearch env.cfg (ix.length - 1) n) =
      p1'.run (Produced.handle (serverDB env t.tx) index) (greatestVersionSearch env.cfg (ix.length - 1) n) :=
    h.below.run greatestVersionSearch_stays p1'
  unfold Server.runSearch handleFor at k7
  simp only [hT, hdn] at k7
  rw [show (reading t st').tx = st' from rfl, hrs] at k7
  have hup : Asks (fun x => x < n) (Alg.updateView env.cfg now n req.last) :=
    updateView_asks_lt hh.pos h.size (fun k hk => ⟨hl0.2 k hk, hlast k hk⟩)
  have hfit : FitsP (fun x => (E x).timestamp) (greatestAt index) (fun _ _ => false) n false []
      (Alg.updateView env.cfg now n req.last >>= fun _ => greatestVersionSearch env.cfg (ix.length - 1) n) :=
    .asks_bind hup (fun _ _ => greatestVersionSearch_fits hh.pos hh.times (Props.grows_greatestAt index n) (by omega) (by omega))
  have hev := (session (cs := env.cs) hh.entry hh.times hil hfit hf.agrees hf.tracker).1
  have hev1 := (session (cs := env.cs) (stop := fun _ _ => false) hh.entry hh.times hil (prog := Alg.updateView env.cfg now n req.last)
    (by
      have := FitsP.asks_bind (ts := fun x => (E x).timestamp) (g := greatestAt index) (stop := fun _ _ => false) (more := false)
        (done := []) (f := fun _ : Unit => (pure () : Prog Unit)) hup (fun _ _ => .ret _)
      rwa [bind_pure_unit] at this) hf.agrees hf.tracker).1
  rw [hsz] at hrun
  rw [run_bind, hrun, eval_bind, ← hev1, hrun] at hev
  simp only [Katie.G.ok_bind] at hev
  rw [greatest_ahead hh.pos hh.times (Props.grows_greatestAt index n) hlt (by omega)] at hev
  split at k7
  · next hr => rw [hr] at hev; cases hev
  · next e _ hr =>
    rw [hr] at hev
    cases hev
    rw [if_neg (by decide)] at k7
    cases k7

end

end Katie.Server
