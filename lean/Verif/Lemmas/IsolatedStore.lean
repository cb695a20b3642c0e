import Verif.Lemmas.Isolated
import Verif.Lemmas.ServerStep
import Verif.Lemmas.ServerVersions
import Verif.Spec.Isolated
import Verif.Props.C14_C15_PrefixTiles

/-
What a reader sees that reads each key of the database at a moment of its own.
-/

namespace Katie.Server
open Katie Katie.Wire Katie.Alg Katie.Ladder Katie.ServerSpec Katie.PrefixSpec
open Katie.AuditSpec (batchOf leafHash)

theorem logOf_prefix (cs : Log.Suite) (us vs : List AuditorUpdate) : ∃ M, logOf cs (us ++ vs) = logOf cs us ++ M := by
  induction vs using List.reverseRecOn with
  | nil => exact ⟨[], by simp⟩
  | append_singleton vs v ih =>
    obtain ⟨M, hM⟩ := ih
    rw [← List.append_assoc, logOf_snoc, hM]
    exact ⟨M ++ _, List.append_assoc ..⟩

theorem entryStored_same {r s : Option Bytes} {e : LogEntry} (h : EntryStored r (some e)) (h' : EntryStored s (some e)) : r = s := by
  cases r with
  | none => exact h.elim
  | some r =>
    cases s with
    | none => exact h'.elim
    | some s =>
      have : (Except.ok r : G Bytes) = Except.ok s := by rw [← show e.marshal = _ from h, ← show e.marshal = _ from h']
      rw [Except.ok.inj this]

/-- the two databases agree on everything that concerns the tree of size `n`; the tables of labels are left out -/
structure Agrees (env : Env) (n : Nat) (st st' : Store) : Prop where
  size : n < 2 ^ 64
  entries : ∀ x < n, st'.entries.lookup x = st.entries.lookup x
  sees : Sees env.cs n (serverDB env st) (serverDB env st')

theorem agrees_of_moments {env : Env} (hcs : env.cs.Good) (hsm : Prefix.Small env.cs) {cs : List Change} {us : List AuditorUpdate}
    {st st' : Store} {head : Option TreeHead} (h : Inv env cs us st head) {ok : Change → Prop}
    (hr : ReadsFrom (Moment env cs us ok) st') : Agrees env cs.length st st' := by
  have hent : ∀ x < cs.length, st'.entries.lookup x = st.entries.lookup x := by
    intro x hx
    obtain ⟨s, ⟨cs', us', t', hruns, rfl, -⟩, hs⟩ := hr.entries x
    obtain ⟨-, hinv⟩ := runs_inv hcs hsm hruns
    obtain ⟨M, hM⟩ := logOf_prefix env.cs us us'
    have h1 := h.entries x
    have h2 := hinv.entries x
    have hx' : x < (logOf env.cs us).length := by rw [logOf_length, h.len]; exact hx
    rw [hM, List.getElem?_append_left hx', List.getElem?_eq_getElem hx'] at h2
    rw [List.getElem?_eq_getElem hx'] at h1
    rw [hs]
    exact entryStored_same h2 h1
  have hn : cs.length < 2 ^ 64 := by have := h.size; omega
  refine ⟨hn, hent, ⟨fun x hx => ?_, fun ss hss => ?_, fun leaves nP m => ?_⟩⟩
  · change getEntry env st' x = getEntry env st x
    unfold getEntry
    rw [hent x hx]
  · have hlen : (us.map batchOf).length = cs.length := by rw [List.length_map, h.len]
    refine Props.search_agree hcs hsm h.hist (fun id hid => ?_) ss (fun s hs => by rw [hlen]; exact hss s hs)
    obtain ⟨s, ⟨cs', us', t', hruns, rfl, -⟩, hs⟩ := hr.tiles id
    obtain ⟨-, hinv⟩ := runs_inv hcs hsm hruns
    have hh := hinv.hist
    rw [List.map_append] at hh
    obtain ⟨st2, h2, h3⟩ := Props.history_agree hcs hsm hh (us.map batchOf).length (by simp)
    rw [List.take_left'] at h2
    · change st'.tiles.lookup _ = _
      rw [hs, h3 id hid, Props.history_unique h.hist _ h2]
    · rfl
  · have hL : ∀ v ∈ (logOf env.cs us).map (leafHash env.cs), v.length = env.cs.hashSize := by
      intro v hv
      obtain ⟨e, _, rfl⟩ := List.mem_map.1 hv
      exact Audit.leafHash_len hcs e
    have hlen : ((logOf env.cs us).map (leafHash env.cs)).length = cs.length := by rw [List.length_map, logOf_length, h.len]
    rw [← hlen]
    refine Log.getBatch_torn hcs hL h.log.torn ?_ leaves nP m
    intro q c
    obtain ⟨s, ⟨cs', us', t', hruns, rfl, -⟩, hs⟩ := hr.log (Log.ck q c)
    obtain ⟨-, hinv⟩ := runs_inv hcs hsm hruns
    obtain ⟨M, hM⟩ := logOf_prefix env.cs us us'
    refine ⟨M.map (leafHash env.cs), fun v hv => ?_, ?_⟩
    · obtain ⟨e, _, rfl⟩ := List.mem_map.1 hv
      exact Audit.leafHash_len hcs e
    · change st'.log.lookup _ = _
      rw [hs, ← List.map_append, ← hM]
      exact hinv.log q c

/-- the index that is read is that of the snapshot, and possibly later versions -/
theorem index_of_moments {env : Env} (hcs : env.cs.Good) (hsm : Prefix.Small env.cs) {cs : List Change} {us : List AuditorUpdate}
    {st' : Store} {l : Bytes} (hr : ReadsFrom (Moment env cs us (Keeps l)) st') :
    ∃ ext, getIndex st' l = .ok ((versionsOf l cs).map Version.pos ++ ext) ∧ (∀ x ∈ ext, cs.length ≤ x) ∧
      ((versionsOf l cs).map Version.pos ++ ext).Pairwise (· ≤ ·) := by
  obtain ⟨s, ⟨cs', us', t', hruns, rfl, hk⟩, hs⟩ := hr.index l
  obtain ⟨-, hinv⟩ := runs_inv hcs hsm hruns
  obtain ⟨rest, h1, -, h3⟩ := versionsOf_append l cs cs' hk
  refine ⟨rest.map Version.pos, ?_, fun x hx => ?_, by rw [← List.map_append, ← h1]; exact (versionsOf_pos l _).1⟩
  · have := hinv.getIndex l
    rw [h1, List.map_append] at this
    rw [← this]
    unfold getIndex
    rw [hs]
  · obtain ⟨y, hy, rfl⟩ := List.mem_map.1 hx
    exact h3 y hy

theorem index_of_quiet {env : Env} (hcs : env.cs.Good) (hsm : Prefix.Small env.cs) {cs : List Change} {us : List AuditorUpdate}
    {st' : Store} {l : Bytes} (hr : ReadsFrom (Moment env cs us (LeavesAlone l)) st') :
    getIndex st' l = .ok ((versionsOf l cs).map Version.pos) := by
  obtain ⟨s, ⟨cs', us', t', hruns, rfl, hk⟩, hs⟩ := hr.index l
  obtain ⟨-, hinv⟩ := runs_inv hcs hsm hruns
  obtain ⟨rest, h1, h2, -⟩ := versionsOf_append l cs cs' (fun c hc => (hk c hc).1)
  have hnil : cs'.flatMap (added l) = [] := by
    rw [List.flatMap_eq_nil_iff]
    intro c hc
    have := (hk c hc).2
    unfold added
    rw [List.map_eq_nil_iff, List.filter_eq_nil_iff]
    intro p hp he
    exact this (List.mem_map.2 ⟨p, hp, by simpa using he⟩)
  rw [hnil, List.map_eq_nil_iff] at h2
  rw [h2, List.append_nil] at h1
  have := hinv.getIndex l
  rw [h1] at this
  rw [← this]
  unfold getIndex
  rw [hs]

theorem version_of_moments {env : Env} (hcs : env.cs.Good) (hsm : Prefix.Small env.cs) {cs : List Change} {us : List AuditorUpdate}
    {st st' : Store} {head : Option TreeHead} (h : Inv env cs us st head) {l : Bytes}
    (hr : ReadsFrom (Moment env cs us (Keeps l)) st') {v : Nat} (hv : v < (versionsOf l cs).length) :
    getVersion env st' l v = getVersion env st l v := by
  obtain ⟨s, ⟨cs', us', t', hruns, rfl, hk⟩, hs⟩ := hr.versions (l, v)
  obtain ⟨-, hinv⟩ := runs_inv hcs hsm hruns
  obtain ⟨rest, h1, -, -⟩ := versionsOf_append l cs cs' hk
  have e1 := hinv.getVersion l v
  rw [h1, List.getElem?_append_left hv, ← h.getVersion l v] at e1
  rw [← e1]
  unfold getVersion
  rw [hs]

theorem version_of_quiet {env : Env} (hcs : env.cs.Good) (hsm : Prefix.Small env.cs) {cs : List Change} {us : List AuditorUpdate}
    {st st' : Store} {head : Option TreeHead} (h : Inv env cs us st head) {l : Bytes}
    (hr : ReadsFrom (Moment env cs us (LeavesAlone l)) st') (v : Nat) :
    getVersion env st' l v = getVersion env st l v := by
  obtain ⟨s, ⟨cs', us', t', hruns, rfl, hk⟩, hs⟩ := hr.versions (l, v)
  obtain ⟨-, hinv⟩ := runs_inv hcs hsm hruns
  obtain ⟨rest, h1, h2, -⟩ := versionsOf_append l cs cs' (fun c hc => (hk c hc).1)
  have hnil : cs'.flatMap (added l) = [] := by
    rw [List.flatMap_eq_nil_iff]
    intro c hc
    have := (hk c hc).2
    unfold added
    rw [List.map_eq_nil_iff, List.filter_eq_nil_iff]
    intro p hp he
    exact this (List.mem_map.2 ⟨p, hp, by simpa using he⟩)
  rw [hnil, List.map_eq_nil_iff] at h2
  rw [h2, List.append_nil] at h1
  have e1 := hinv.getVersion l v
  rw [h1, ← h.getVersion l v] at e1
  rw [← e1]
  unfold getVersion
  rw [hs]

/-! ### the handlers -/

section
variable {env : Env} {n : Nat} {t : Tree} {st' : Store} {index index' : List Nat}

theorem frontierEntries_same (h : ∀ x < n, st'.entries.lookup x = t.tx.entries.lookup x) : ∀ {f : List Nat}, (∀ x ∈ f, x < n) →
    frontierEntries env st' f = frontierEntries env t.tx f
  | [], _ => rfl
  | x :: f, hf => by
    unfold frontierEntries
    rw [h x (hf x (by simp)), frontierEntries_same h (fun y hy => hf y (by simp [hy]))]

theorem frontierEntries_keys : ∀ {st : Store} {f : List Nat} {es : List (Nat × LogEntry)}, frontierEntries env st f = .ok es →
    es.map (·.1) = f
  | _, [], es, h => by cases h; rfl
  | st, x :: f, es, h => by
    unfold frontierEntries at h
    cases hl : st.entries.lookup x with
    | none => rw [hl] at h; cases h
    | some raw =>
      rw [hl] at h
      obtain ⟨e, -, h⟩ := G.bind_eq_ok.1 h
      obtain ⟨rest, hr, h⟩ := G.bind_eq_ok.1 h
      cases h
      simp [frontierEntries_keys hr]

theorem small_retainLoop : ∀ {es : List (Nat × LogEntry)} {p : Provider Produced}, Small n p → (∀ e ∈ es, e.1 < n) →
    Small n (Provider.retainLoop es p).2
  | [], p, hp, _ => hp
  | (x, e) :: es, p, hp, hes => by
    unfold Provider.retainLoop
    cases ha : addTimestamp p.timestamps x e.timestamp with
    | error f => exact hp
    | ok ts =>
      have hp' : ∀ a ∈ ts, a.1 < n := by
        rw [(addTimestamp_ok ha).1]
        intro a h
        rcases List.mem_cons.1 h with rfl | h
        · exact hes (x, e) (by simp)
        · exact hp.ts a h
      simp only
      split
      · exact ⟨hp', hp.proofs⟩
      · exact small_retainLoop (p := Provider.mk _ _ _ _ _) ⟨hp', hp.proofs⟩ (fun a ha => hes a (by simp [ha]))

theorem loadRetained_same (h : ∀ x < n, st'.entries.lookup x = t.tx.entries.lookup x) (hn : n < 2 ^ 64) {last : Option Nat}
    (hl : ∀ l, last = some l → l ≤ n) {p : Provider Produced} (hp : Small n p) :
    loadRetained env st' last p = loadRetained env t.tx last p ∧
      ∀ q, loadRetained env t.tx last p = .ok q → Small n q ∧ ∀ l, last = some l → 0 < l := by
  unfold loadRetained
  cases last with
  | none =>
    refine ⟨rfl, fun q hq => ?_⟩
    cases hq
    exact ⟨hp, by simp⟩
  | some l =>
    by_cases h0 : l = 0
    · subst h0
      exact ⟨rfl, fun q hq => by cases hq⟩
    have hle := hl l rfl
    obtain ⟨fr, hf, -, -, hlt, -⟩ := SearchTree.frontier_spine (n := l) (by omega) (by omega)
    simp only [hf, Katie.G.ok_bind]
    rw [frontierEntries_same h (fun x hx => by have := hlt x hx; omega)]
    refine ⟨rfl, fun q hq => ?_⟩
    obtain ⟨es, hes, hq⟩ := G.bind_eq_ok.1 hq
    cases hq
    refine ⟨?_, fun k hk => by cases hk; omega⟩
    unfold Provider.addRetained
    refine small_retainLoop (p := Provider.mk _ _ _ _ _) ⟨hp.ts, hp.proofs⟩ (fun e he => ?_)
    have : e.1 ∈ fr := by rw [← frontierEntries_keys hes]; exact List.mem_map.2 ⟨e, he, rfl⟩
    have := hlt _ this
    omega

/-- both connections have the same entries, and the same versions of the label in them -/
structure Same (env : Env) (n : Nat) (t : Tree) (st' : Store) (index index' : List Nat) : Prop extends
  Agrees env n t.tx st' where
  great : ∀ x < n, greatestAt index' x = greatestAt index x

theorem Same.below (h : Same env n t st' index index') : SameBelow n (serverDB env t.tx) (serverDB env st') index index' :=
  ⟨h.sees.entry, h.great⟩

theorem Same.runOn (h : Same env n t st' index index') {α : Type} {Q : α → Prop} {prog : Prog α} (hs : Stays n Q prog)
    {p : Provider Produced} (hp : Small n p) :
    runOn (handleFor env (reading t st') index') prog p = runOn (handleFor env t index) prog p ∧
      ∀ a q, runOn (handleFor env t index) prog p = .ok (a, q) → Q a ∧ Small n q := by
  unfold Server.runOn handleFor
  have e := h.below.run hs p
  have hq := hp.run (db := serverDB env t.tx) (index := index) hs
  change p.run (Produced.handle (serverDB env (reading t st').tx) index') prog = _ at e
  rw [e]
  refine ⟨rfl, fun a q ha => ?_⟩
  split at ha
  · cases ha
  next b q' hb =>
    cases ha
    rw [hb] at hq
    exact ⟨hq.2 a rfl, hq.1⟩

theorem Same.updateView (h : Same env n t st' index index') (h0 : 0 < n) {th : TreeHead} (hth : t.head = some th) (hn : th.treeSize = n)
    {last : Option Nat} (hl : ∀ l, last = some l → l ≤ n) (now : Nat) {p : Provider Produced} (hp : Small n p) :
    updateView env now (reading t st') index' last p = updateView env now t index last p ∧
      ∀ q, updateView env now t index last p = .ok q → Small n q := by
  unfold Server.updateView
  simp only [reading, hth]
  obtain ⟨e1, e2⟩ := loadRetained_same (env := env) (t := t) h.entries h.size hl hp
  rw [e1]
  cases hlr : loadRetained env t.tx last p with
  | error e => exact ⟨rfl, fun q hq => by cases hq⟩
  | ok p1 =>
    obtain ⟨s1, s2⟩ := e2 p1 hlr
    simp only [Katie.G.ok_bind]
    have hst : Stays n (fun _ => True) (Alg.updateView env.cfg now th.treeSize last) := by
      rw [hn]
      exact .of_asks (updateView_asks_lt h0 h.size (fun k hk => ⟨s2 k hk, hl k hk⟩))
    obtain ⟨r1, r2⟩ := h.runOn hst s1
    change Server.runOn (handleFor env { db := t.db, tx := st', head := some th, auditor := t.auditor } index') _ p1 = _ at r1
    rw [r1]
    refine ⟨rfl, fun q hq => ?_⟩
    obtain ⟨⟨a, q'⟩, ha, hq⟩ := G.bind_eq_ok.1 hq
    cases hq
    exact (r2 a q' ha).2

theorem Same.outputOf (h : Same env n t st' index index') {hd : Heads} (hn : hd.n = n) {p : Provider Produced} (hp : Small n p) :
    outputOf env (reading t st') index' hd p = outputOf env t index hd p := by
  unfold Server.outputOf
  have := h.sees.output (index := index) (index' := index') hp hd.nP hd.m
  rw [hn]
  change p.output env.cs (serverDB env (reading t st').tx) index' n hd.nP hd.m = _ at this
  rw [this]

theorem fullTreeHead_reading (t : Tree) (st' : Store) (last : Option Nat) : fullTreeHead (reading t st') last = fullTreeHead t last := rfl

theorem fullTreeHead_facts {last : Option Nat} {hd : Heads} (h : fullTreeHead t last = .ok hd) :
    ∃ th, t.head = some th ∧ hd.n = th.treeSize ∧ ∀ l, last = some l → l ≤ th.treeSize := by
  unfold fullTreeHead at h
  cases hh : t.head with
  | none => rw [hh] at h; cases h
  | some th =>
    rw [hh] at h
    simp only at h
    refine ⟨th, rfl, ?_⟩
    cases last with
    | none => cases h; exact ⟨rfl, by simp⟩
    | some l =>
      simp only at h
      split at h
      · cases h
        exact ⟨rfl, fun k hk => by cases hk; omega⟩
      · split at h
        · cases h
        · cases h
          exact ⟨rfl, fun k hk => by cases hk; omega⟩

theorem greatestAt_append {index ext : List Nat} {n x : Nat} (hx : x < n) (he : ∀ y ∈ ext, n ≤ y) :
    greatestAt (index ++ ext) x = greatestAt index x := by
  have hnil : ext.takeWhile (fun p => decide (p < x + 1)) = [] := by
    cases ext with
    | nil => rfl
    | cons y ext =>
      have := he y (by simp)
      rw [List.takeWhile_cons_of_neg (by simp; omega)]
  unfold greatestAt
  rw [List.takeWhile_append, hnil, List.append_nil]
  split
  · next h => rw [h]
  · rfl

end

end Katie.Server
