import Verif.Lemmas.ServeInit

/-
What the server has checked when it answers: the timestamps that its algorithms see are those of the log.
-/

namespace Katie.Server
open Katie Katie.Wire Katie.Alg Katie.Ladder Katie.ServerSpec Katie.ServedSpec Katie.SearchSpec Katie.SearchTree Katie.Props

/-- every timestamp that was looked up is the one of the entry -/
def TimesRight {σ : Type} (n : Nat) (ts : Nat → Nat) (p : Provider σ) : Prop := ∀ e ∈ p.timestamps, e.1 < n ∧ e.2 = ts e.1

section
variable {db : ServerDB} {index : List Nat} {n : Nat} {ts : Nat → Nat} {p : Provider Produced}

theorem TimesRight.getTimestamp (hdb : ∀ x e, db.entry x = .ok e → x < n ∧ e.timestamp = ts x) (hp : TimesRight n ts p) (x : Nat) :
    TimesRight n ts (p.getTimestamp (Produced.handle db index) x).2 := by
  unfold Provider.getTimestamp
  split
  · exact hp
  split
  · exact hp
  next t s h =>
    split
    · exact hp
    next m hm =>
      unfold Produced.handle Produced.getTs at h
      simp only at h
      split at h
      · cases h
      next e he =>
      have h1 : e.timestamp = t := Except.ok.inj (Prod.mk.inj h).1
      unfold addTimestamp at hm
      split at hm
      · cases hm
      split at hm
      · cases hm
      have hm' : (x, t) :: p.timestamps = m := Except.ok.inj hm
      intro e' he'
      simp only at he'
      rw [← hm'] at he'
      rcases List.mem_cons.1 he' with rfl | he'
      · exact ⟨(hdb x e he).1, by rw [← h1]; exact (hdb x e he).2⟩
      · exact hp _ he'

theorem record_timestamps {σ β : Type} (x : Nat) (root : Bytes) (b : β) (p : Provider σ) :
    (Provider.record x root b p).2.timestamps = p.timestamps := by
  unfold Provider.record
  split <;> rfl

theorem TimesRight.answer (hdb : ∀ x e, db.entry x = .ok e → x < n ∧ e.timestamp = ts x) (hp : TimesRight n ts p) (q : Req) :
    TimesRight n ts (p.answer (Produced.handle db index) q).2 := by
  cases q with
  | ts x => exact hp.getTimestamp hdb x
  | search x v om =>
    have := hp.getTimestamp (index := index) hdb x
    change TimesRight n ts (p.getSearch (Produced.handle db index) x v om).2
    unfold Provider.getSearch
    split
    · next h => rw [h] at this; exact this
    next h =>
      rw [h] at this
      split
      · exact this
      · intro e he
        rw [record_timestamps] at he
        exact this e he
  | monitor x v =>
    have := hp.getTimestamp (index := index) hdb x
    change TimesRight n ts (p.getMonitor (Produced.handle db index) x v).2
    unfold Provider.getMonitor
    split
    · next h => rw [h] at this; exact this
    next h =>
      rw [h] at this
      split
      · exact this
      · intro e he
        rw [record_timestamps] at he
        exact this e he
  | incl x vs =>
    have := hp.getTimestamp (index := index) hdb x
    change TimesRight n ts (p.getIncl (Produced.handle db index) x vs).2
    unfold Provider.getIncl
    split
    · exact hp
    split
    · next h => rw [h] at this; exact this
    next h =>
      rw [h] at this
      split
      · exact this
      · intro e he
        rw [record_timestamps] at he
        exact this e he
  | stop x v => exact hp
  | addLadder x om g l => exact hp

theorem TimesRight.run {α : Type} (hdb : ∀ x e, db.entry x = .ok e → x < n ∧ e.timestamp = ts x) (prog : Prog α)
    (hp : TimesRight n ts p) : TimesRight n ts (p.run (Produced.handle db index) prog).2 := by
  induction prog generalizing p with
  | ret r => exact hp
  | op q k ih => exact ih _ (hp.answer hdb q)

/-- the trace of a run of the server has the timestamps of the log -/
theorem run_tsTrace {α : Type} (hdb : ∀ x e, db.entry x = .ok e → x < n ∧ e.timestamp = ts x) (prog : Prog α) (hm : TsMap p.timestamps)
    (hp : TimesRight n ts p) {r : G α} {q : Provider Produced} (h : p.run (Produced.handle db index) prog = (r, q)) :
    TsMap q.timestamps ∧ TimesRight n ts q ∧ ∃ tr, TsTrace tr ts ∧ Runs prog tr r := by
  obtain ⟨-, h1, h2, h3, -⟩ := run_spec (Produced.handle db index) prog p hm
  have h4 := hp.run (index := index) hdb prog
  rw [h] at h1 h2 h3 h4
  exact ⟨h1, h4, _, fun x a hxa => (h4 _ (h3 x a hxa)).2, h2⟩

end

section
variable {env : Env} {cs : List Change} {us : List AuditorUpdate} {t : Tree}

/-- the entries that the server finds in its database are those of the log -/
theorem entry_only {st : Store} {head : Option TreeHead} (hinv : Inv env cs us st head) (hh : Honest env.cs (serverDB env st) bs us.length (entryAt env.cs us))
    (x : Nat) (e : LogEntry) (h : (serverDB env st).entry x = .ok e) :
    x < us.length ∧ e.timestamp = (entryAt env.cs us x).timestamp := by
  have hx : x < us.length := by
    by_contra hc
    have h1 := hinv.entries x
    rw [List.getElem?_eq_none (by rw [logOf_length]; omega)] at h1
    change getEntry env st x = .ok e at h
    unfold getEntry at h
    cases hl : st.entries.lookup x with
    | none => rw [hl] at h; cases h
    | some raw => rw [hl] at h1; exact h1
  refine ⟨hx, ?_⟩
  have := hh.entry x hx
  rw [h] at this
  rw [Except.ok.inj this]

/-- What the server has when it starts on a monitoring request. -/
theorem startMonitor_only (hcs : env.cs.Good) (hsm : Prefix.Small env.cs) (hruns : ServerSpec.Runs env cs us t)
    {aud : Option AuditorTreeHead} {now : Nat} {last : Option Nat} {l : Bytes} {op : MonitorOp}
    (h : startMonitor env now { t with auditor := aud } last l = .ok op) :
    0 < us.length ∧ GoodTimes (fun x => (entryAt env.cs us x).timestamp) us.length ∧
    (∀ x e, (serverDB env t.tx).entry x = .ok e → x < us.length ∧ e.timestamp = (entryAt env.cs us x).timestamp) ∧
    op.index = (versionsOf l cs).map Version.pos ∧ op.heads.n = us.length ∧
    op.monitor = ⟨env.cfg, (entryAt env.cs us (us.length - 1)).timestamp, us.length, none, none⟩ ∧
    TsMap op.provider.timestamps ∧ TimesRight us.length (fun x => (entryAt env.cs us x).timestamp) op.provider := by
  obtain ⟨htx, hinv⟩ := runs_inv hcs hsm hruns
  have hlen := hinv.len
  have hsize := hinv.size
  unfold startMonitor at h
  obtain ⟨heads, h1, h⟩ := G.bind_eq_ok.1 h
  obtain ⟨index, h2, h⟩ := G.bind_eq_ok.1 h
  obtain ⟨p, h3, h⟩ := G.bind_eq_ok.1 h
  obtain ⟨⟨m, q⟩, h4, h⟩ := G.bind_eq_ok.1 h
  have h' := Except.ok.inj h
  clear h
  subst h'
  have hne : cs ≠ [] := by
    rintro rfl
    have h5 := hinv.head
    unfold fullTreeHead at h1
    simp only at h1
    rcases h5 with ⟨-, -, h5⟩ | ⟨h5, -⟩
    · rw [h5] at h1; cases h1
    · have : us = [] := List.length_eq_zero_iff.1 hlen
      subst this
      simp [logOf] at h5
  obtain ⟨th, tbs, hhead, hths, -, -⟩ := head_of_inv hinv hne
  rw [← hlen] at hths
  have hh := honest_of_inv hcs hsm hinv hne
  rw [← hlen] at hh
  have hdb := entry_only hinv hh
  have hpos : 0 < us.length := by rw [hlen]; exact List.length_pos_iff.2 hne
  have hn : heads.n = us.length ∧ ∀ k, last = some k → k ≤ us.length := by
    unfold fullTreeHead at h1
    simp only [hhead] at h1
    cases last with
    | none => cases h1; exact ⟨hths, by simp⟩
    | some k =>
      simp only at h1
      split at h1
      · next hk => cases h1; exact ⟨hths, fun k' hk' => by cases hk'; rw [hk, hths]⟩
      split at h1
      · cases h1
      · next hk => cases h1; exact ⟨hths, fun k' hk' => by cases hk'; rw [← hths]; omega⟩
  have hindex : index = (versionsOf l cs).map Version.pos := by
    have h5 : getIndex t.tx l = .ok ((versionsOf l cs).map Version.pos) := by rw [htx]; exact hinv.getIndex l
    exact Except.ok.inj (h2.symm.trans h5)
  unfold updateView at h3
  simp only [hhead] at h3
  obtain ⟨p0, h5, h3⟩ := G.bind_eq_ok.1 h3
  obtain ⟨⟨u, p1⟩, h6, h3⟩ := G.bind_eq_ok.1 h3
  have h3 := Except.ok.inj h3
  subst h3
  have hlast : ∀ k, last = some k → 0 < k ∧ k ≤ us.length := by
    intro k hk
    refine ⟨?_, hn.2 k hk⟩
    subst hk
    rcases Nat.eq_zero_or_pos k with rfl | h0
    · exfalso
      unfold loadRetained at h5
      obtain ⟨f, hf, -⟩ := G.bind_eq_ok.1 h5
      cases hf
    · exact h0
  obtain ⟨fk, hfk⟩ := retained_exists (n := us.length) (by omega) hlast
  have hload := loadRetained_ok (env := env) (st := t.db) (E := entryAt env.cs us) hh.entry hh.times hfk {}
  rw [← htx] at hload hdb
  rw [hload] at h5
  cases h5
  have hf := retainedTables_fresh hh.times hfk.nodup hfk.lt (s := ({} : Produced)) [] rfl rfl rfl
  have hr : ∀ {α : Type} {prog : Prog α} {p q : Provider Produced} {a : α}, runOn (handleFor env { t with auditor := aud } index) prog p = .ok (a, q) →
      p.run (Produced.handle (serverDB env t.tx) index) prog = (.ok a, q) := by
    intro α prog p q a h
    unfold runOn handleFor at h
    split at h
    · cases h
    next b q' e =>
    have := Except.ok.inj h
    cases this
    exact e
  obtain ⟨k1, k2, -⟩ := run_tsTrace hdb _ hf.ts hf.agrees.ts (hr h6)
  obtain ⟨k3, k4, tr, k5, k6⟩ := run_tsTrace hdb _ k1 k2 (hr h4)
  refine ⟨hpos, hh.times, hdb, hindex, hn.1, ?_, k3, k4⟩
  rw [hn.1] at k6
  unfold newMonitor at k6
  rw [if_neg (by omega)] at k6
  obtain ⟨a, t1, t2, rfl, r1, r2⟩ := runs_bind_ok.1 k6
  obtain ⟨-, r3⟩ := runs_pure.1 r2
  have r4 := runs_getTs k5.left r1
  rw [r4] at r3
  exact (Except.ok.inj r3)

/-- The server answers only requests whose starting position is a distinguished entry that has not expired. -/
theorem init_only (hcs : env.cs.Good) (hsm : Prefix.Small env.cs) (hruns : ServerSpec.Runs env cs us t)
    {aud : Option AuditorTreeHead} {now : Nat} {req : OwnerInitRequest} {res : OwnerInitResponse}
    (h : Server.ownerInit env now { t with auditor := aud } req = .ok res) :
    SearchSpec.Live env.cfg (fun x => (entryAt env.cs us x).timestamp) us.length req.start := by
  unfold Server.ownerInit at h
  obtain ⟨op, h1, h⟩ := G.bind_eq_ok.1 h
  obtain ⟨⟨es, p⟩, h2, h⟩ := G.bind_eq_ok.1 h
  obtain ⟨all, h3, h⟩ := G.bind_eq_ok.1 h
  obtain ⟨ladder, h4, h⟩ := G.bind_eq_ok.1 h
  obtain ⟨⟨r, q⟩, h5, h⟩ := G.bind_eq_ok.1 h
  obtain ⟨hpos, ht, hdb, -, -, hm, k1, k2⟩ := startMonitor_only hcs hsm hruns h1
  have hr : ∀ {α : Type} {prog : Prog α} {p q : Provider Produced} {a : α}, runOn (handleFor env { t with auditor := aud } op.index) prog p = .ok (a, q) →
      p.run (Produced.handle (serverDB env t.tx) op.index) prog = (.ok a, q) := by
    intro α prog p q a h
    unfold runOn handleFor at h
    split at h
    · cases h
    next b q' e =>
    have := Except.ok.inj h
    cases this
    exact e
  obtain ⟨k3, k4, -⟩ := run_tsTrace hdb _ k1 k2 (hr h2)
  obtain ⟨-, -, tr, k5, k6⟩ := run_tsTrace hdb _ k3 k4 (hr h5)
  have := C30_init_sound (m := op.monitor) (m' := r.1) (xs := r.2) (by rw [hm]; exact hpos) (by rw [hm]; exact ht) (by rw [hm]) k5 k6
  rw [hm] at this
  exact this.1

end

end Katie.Server
