import Verif.Lemmas.ServerStep
import Verif.Model.ServerOps

/-
What the server stores about the log and the prefix tree is a function of the updates that it has returned for the
auditor.
-/

namespace Katie.Server
open Katie Katie.Wire Katie.Alg Katie.ServerSpec Katie.PrefixSpec

/-- the change to the public part of the store that an update for the auditor describes -/
def pubStep (env : Env) (n : Nat) (u : AuditorUpdate) (s : Store) : G Store := do
  let res ← Prefix.mutate env.cs s.tiles n u.added (u.removed.map Prefix.Entry.vrf)
  match issueTreeHead env n u.timestamp res.root { s with tiles := res.store } with
  | (.ok _, s) => .ok s
  | (.error e, _) => .error e

/-- all updates, one after the other -/
def replay (env : Env) : Nat → List AuditorUpdate → Store → G Store
  | _, [], s => .ok s
  | n, u :: us, s => do
    let s ← pubStep env n u s
    replay env (n + 1) us s

theorem replay_snoc {env : Env} {us : List AuditorUpdate} {u : AuditorUpdate} : ∀ {n : Nat} {s a b : Store},
    replay env n us s = .ok a → pubStep env (n + us.length) u a = .ok b → replay env n (us ++ [u]) s = .ok b := by
  induction us with
  | nil =>
    intro n s a b h1 h2
    cases h1
    simp only [List.nil_append, replay]
    simp only [List.length_nil, Nat.add_zero] at h2
    rw [h2]
    rfl
  | cons v us ih =>
    intro n s a b h1 h2
    simp only [replay, List.cons_append] at h1 ⊢
    obtain ⟨s1, h3, h4⟩ := G.bind_eq_ok.1 h1
    rw [h3]
    refine ih h4 ?_
    rw [List.length_cons, show n + (us.length + 1) = n + 1 + us.length by omega] at h2
    exact h2

theorem issueTreeHead_same {env : Env} {n t : Nat} {r : Bytes} {a b b' : Store} {hd : TreeHead} (hs : SameRest a b)
    (h : issueTreeHead env n t r b = (.ok hd, b')) :
    ∃ a', issueTreeHead env n t r a = (.ok hd, a') ∧ SameRest a' b' := by
  unfold issueTreeHead at h ⊢
  obtain ⟨raw, h1, k1⟩ := St.lift_bind_ok.1 h
  rw [St.modify_bind] at k1
  obtain ⟨leaf, h3, k2⟩ := St.lift_bind_ok.1 k1
  obtain ⟨⟨log', subs⟩, h4, k3⟩ := St.read_bind_ok.1 k2
  simp only [] at h4 k3
  rw [St.modify_bind] at k3
  obtain ⟨root, h6, k4⟩ := St.lift_bind_ok.1 k3
  obtain ⟨tbs, h7, k5⟩ := St.lift_bind_ok.1 k4
  obtain ⟨sig, h8, k6⟩ := St.lift_bind_ok.1 k5
  obtain ⟨rh, h9, k7⟩ := St.lift_bind_ok.1 k6
  rw [St.modify_bind] at k7
  obtain ⟨rfl, rfl⟩ := St.pure_ok.1 k7
  rw [hs.log] at h4
  refine ⟨{ a with entries := (n, raw) :: a.entries, log := log', head := some rh }, St.lift_bind_ok.2 ⟨raw, h1, ?_⟩, ?_⟩
  · rw [St.modify_bind]
    refine St.lift_bind_ok.2 ⟨leaf, h3, St.read_bind_ok.2 ⟨(log', subs), h4, ?_⟩⟩
    simp only []
    rw [St.modify_bind]
    refine St.lift_bind_ok.2 ⟨root, h6, St.lift_bind_ok.2 ⟨tbs, h7, St.lift_bind_ok.2 ⟨sig, h8, St.lift_bind_ok.2 ⟨rh, h9, ?_⟩⟩⟩⟩
    rw [St.modify_bind]
    exact St.pure_ok.2 ⟨rfl, rfl⟩
  · exact ⟨by simp [hs.entries], rfl, hs.tiles, rfl, hs.auditor⟩

/-- A server's execution leaves in the store what the updates for the auditor say. -/
theorem runs_replay {env : Env} (hcs : env.cs.Good) (hsm : Prefix.Small env.cs) {cs : List Change} {us : List AuditorUpdate}
    {t : Tree} (h : ServerSpec.Runs env cs us t) : ∃ s, replay env 0 us {} = .ok s ∧ SameRest s t.db := by
  induction h with
  | start ht =>
    refine ⟨{}, rfl, ?_⟩
    unfold newTree at ht
    obtain ⟨_, _, ht⟩ := G.bind_eq_ok.1 ht
    obtain ⟨_, _, ht⟩ := G.bind_eq_ok.1 ht
    rw [← Except.ok.inj ht]
    exact .refl _
  | @change cs us t t' c u hr hm hc hrange hne ih =>
    obtain ⟨s, hs, hsame⟩ := ih
    obtain ⟨htx, h⟩ := runs_inv hcs hsm hr
    obtain ⟨hd, st', hms, rfl⟩ := mutate_ok_iff hm
    rw [h.head.size, logOf_length, h.len, htx] at hms
    have hnd := nodup_labelsOf hc.order
    unfold mutateStore at hms
    obtain ⟨d, hd1, k1⟩ := St.read_bind_ok.1 hms
    obtain ⟨ms, hg, k2⟩ := St.read_bind_ok.1 k1
    rw [groupByLabel_eq (vs := fun l => versionsOf l cs) (labelsOf c) (fun l _ => h.getIndex l)] at hg
    obtain rfl := Except.ok.inj hg
    obtain ⟨rs, s1, hf, k3⟩ := St.bind_ok.1 k2
    obtain ⟨f1, f2, f3, f4⟩ := forEach_labels _ _ _ _ hnd (fun l _ => h.repr l)
      (fun l _ => by rw [← versionsOf_snoc]; exact hrange.versions l) hf
    obtain ⟨res, hres, k4⟩ := St.read_bind_ok.1 k3
    rw [St.modify_bind] at k4
    obtain ⟨hd', s2, hi, k5⟩ := St.bind_ok.1 k4
    obtain ⟨k6, rfl⟩ := St.pure_ok.1 k5
    obtain ⟨rfl, hau⟩ := Prod.mk.inj k6
    clear hms k1 k2 k3 k4 k5 k6
    obtain ⟨u1, u2, u3, u4, u5⟩ := auditorUpdate_ok (Prefix.mutate_removed_length hres) hau
    have hsr := hsame.trans f1
    rw [hsr.tiles] at hres
    have hsr' : SameRest { s with tiles := res.store } { s1 with tiles := res.store } :=
      ⟨hsr.entries, hsr.log, rfl, hsr.head, hsr.auditor⟩
    obtain ⟨a', ha, hsame'⟩ := issueTreeHead_same hsr' hi
    refine ⟨a', replay_snoc hs ?_, hsame'⟩
    unfold pubStep
    rw [Nat.zero_add, h.len, u2, u3, hres, G.ok_bind, u1, ha]
  | restart hr ht ih =>
    obtain ⟨s, hs, hsame⟩ := ih
    refine ⟨s, hs, ?_⟩
    unfold newTree at ht
    obtain ⟨_, _, ht⟩ := G.bind_eq_ok.1 ht
    obtain ⟨_, _, ht⟩ := G.bind_eq_ok.1 ht
    rw [← Except.ok.inj ht]
    exact hsame
  | failed hr hm ht ih =>
    obtain ⟨s, hs, hsame⟩ := ih
    refine ⟨s, hs, ?_⟩
    rw [(mutate_error hm).1] at ht
    unfold newTree at ht
    obtain ⟨_, _, ht⟩ := G.bind_eq_ok.1 ht
    obtain ⟨_, _, ht⟩ := G.bind_eq_ok.1 ht
    rw [← Except.ok.inj ht]
    exact hsame

/-- Two servers that publish the same updates have the same log and the same prefix trees in the same places. -/
theorem runs_same {env : Env} (hcs : env.cs.Good) (hsm : Prefix.Small env.cs) {cs cs' : List Change} {us : List AuditorUpdate}
    {t t' : Tree} (h : ServerSpec.Runs env cs us t) (h' : ServerSpec.Runs env cs' us t') :
    SameRest t.tx t'.tx ∧ t'.head = t.head := by
  obtain ⟨s, hs, k⟩ := runs_replay hcs hsm h
  obtain ⟨s', hs', k'⟩ := runs_replay hcs hsm h'
  rw [hs] at hs'
  obtain rfl := Except.ok.inj hs'
  obtain ⟨e, i⟩ := runs_inv hcs hsm h
  obtain ⟨e', i'⟩ := runs_inv hcs hsm h'
  have hl : (logOf env.cs us).length < 2 ^ 64 := by rw [logOf_length, i.len]; have := i.size; omega
  have r := i.head.read hl
  have r' := i'.head.read hl
  rw [k.head] at r
  rw [k'.head, r] at r'
  rw [e, e']
  exact ⟨⟨k'.1.trans k.1.symm, k'.2.trans k.2.symm, k'.3.trans k.3.symm, k'.4.trans k.4.symm, k'.5.trans k.5.symm⟩,
    (Except.ok.inj r').symm⟩

/-- What the handlers read of a store when they answer a request about `l` is the same in both. -/
structure SameFor (env : Env) (l : Bytes) (t t' : Tree) : Prop where
  head : t'.head = t.head
  auditor : t'.auditor = t.auditor
  entries : t'.tx.entries = t.tx.entries
  db : serverDB env t'.tx = serverDB env t.tx
  tiles : t'.tx.tiles = t.tx.tiles
  index : getIndex t'.tx l = getIndex t.tx l
  versions : ∀ v, getVersion env t'.tx l v = getVersion env t.tx l v

theorem runs_sameFor {env : Env} (hcs : env.cs.Good) (hsm : Prefix.Small env.cs) {cs cs' : List Change} {us : List AuditorUpdate}
    {t t' : Tree} (h : ServerSpec.Runs env cs us t) (h' : ServerSpec.Runs env cs' us t') {l : Bytes}
    (hv : versionsOf l cs' = versionsOf l cs) (aud : Option AuditorTreeHead) :
    SameFor env l { t with auditor := aud } { t' with auditor := aud } := by
  obtain ⟨s, hd⟩ := runs_same hcs hsm h h'
  obtain ⟨e, i⟩ := runs_inv hcs hsm h
  obtain ⟨e', i'⟩ := runs_inv hcs hsm h'
  refine ⟨hd, rfl, s.entries, ?_, s.tiles, ?_, fun v => ?_⟩
  · unfold serverDB getEntry
    rw [s.entries, s.tiles, s.log]
  · change getIndex t'.tx l = getIndex t.tx l
    rw [e, e', i.getIndex, i'.getIndex, hv]
  · change getVersion env t'.tx l v = getVersion env t.tx l v
    have a := (i.repr l).versions v
    have b := (i'.repr l).versions v
    rw [hv] at b
    have key : t'.db.versions.lookup (l, v) = t.db.versions.lookup (l, v) := by
      revert a b
      cases t.db.versions.lookup (l, v) <;> cases t'.db.versions.lookup (l, v) <;> cases (versionsOf l cs)[v]? <;>
        simp only [Stored, imp_self, forall_true_left, forall_const, false_imp_iff, implies_true]
      intro a b
      rw [a] at b
      rw [Except.ok.inj b]
    unfold getVersion
    rw [e, e', key]

namespace SameFor
variable {env : Env} {l : Bytes} {t t' : Tree}

theorem fullTreeHead (h : SameFor env l t t') (last : Option Nat) : Server.fullTreeHead t' last = Server.fullTreeHead t last := by
  unfold Server.fullTreeHead
  rw [h.head, h.auditor]

theorem frontierEntries (h : SameFor env l t t') : ∀ xs, Server.frontierEntries env t'.tx xs = Server.frontierEntries env t.tx xs
  | [] => rfl
  | x :: xs => by
    unfold Server.frontierEntries
    rw [h.entries, frontierEntries h xs]

theorem loadRetained (h : SameFor env l t t') (last : Option Nat) (p : Provider Produced) :
    Server.loadRetained env t'.tx last p = Server.loadRetained env t.tx last p := by
  unfold Server.loadRetained
  cases last with
  | none => rfl
  | some m => simp only [h.frontierEntries]

theorem handleFor (h : SameFor env l t t') (index : List Nat) : Server.handleFor env t' index = Server.handleFor env t index := by
  unfold Server.handleFor
  rw [h.db]

theorem updateView (h : SameFor env l t t') (now : Nat) (index : List Nat) (last : Option Nat) (p : Provider Produced) :
    Server.updateView env now t' index last p = Server.updateView env now t index last p := by
  unfold Server.updateView
  rw [h.head, h.loadRetained, h.handleFor]

theorem outputOf (h : SameFor env l t t') (index : List Nat) (hd : Heads) (p : Provider Produced) :
    Server.outputOf env t' index hd p = Server.outputOf env t index hd p := by
  unfold Server.outputOf
  rw [h.db]

theorem search {req : SearchRequest} (h : SameFor env req.label t t') (now : Nat) :
    Server.search env now t' req = Server.search env now t req := by
  unfold Server.search
  simp only [h.fullTreeHead, h.index, h.versions, h.updateView, h.handleFor, h.outputOf]

theorem startMonitor (h : SameFor env l t t') (now : Nat) (last : Option Nat) :
    Server.startMonitor env now t' last l = Server.startMonitor env now t last l := by
  unfold Server.startMonitor
  simp only [h.fullTreeHead, h.index, h.updateView, h.handleFor]

theorem finishMonitor (h : SameFor env l t t') (op : MonitorOp) :
    Server.finishMonitor env t' l op = Server.finishMonitor env t l op := by
  unfold Server.finishMonitor
  simp only [h.outputOf]

theorem contactMonitor {req : ContactMonitorRequest} (h : SameFor env req.label t t') (now : Nat) :
    Server.contactMonitor env now t' req = Server.contactMonitor env now t req := by
  unfold Server.contactMonitor
  simp only [h.startMonitor, h.handleFor, h.finishMonitor]

theorem ownerMonitor {req : OwnerMonitorRequest} (h : SameFor env req.label t t') (now : Nat) :
    Server.ownerMonitor env now t' req = Server.ownerMonitor env now t req := by
  unfold Server.ownerMonitor
  simp only [h.startMonitor, h.handleFor, h.finishMonitor]

theorem getBinaryLadder (h : SameFor env l t t') (versions : List Nat) (g : Int) (n : Nat) :
    Server.getBinaryLadder env t' l versions g n = Server.getBinaryLadder env t l versions g n := by
  unfold Server.getBinaryLadder
  rw [h.tiles]

theorem ownerInit {req : OwnerInitRequest} (h : SameFor env req.label t t') (now : Nat) :
    Server.ownerInit env now t' req = Server.ownerInit env now t req := by
  unfold Server.ownerInit
  simp only [h.startMonitor, h.handleFor, h.finishMonitor, h.getBinaryLadder]

theorem infos (h : SameFor env l t t') (pos : Nat) (w : Bool) : ∀ (ps : List Nat) (ver : Nat),
    Server.infos env t'.tx l pos w ver ps = Server.infos env t.tx l pos w ver ps
  | [], _ => rfl
  | p :: ps, ver => by
    unfold Server.infos
    rw [h.versions, infos h pos w ps]

theorem next {u : Updater} (h : SameFor env u.label u.tree t') (now : Nat) (w : Bool) :
    Server.next env now { u with tree := t' } w = Server.next env now u w := by
  have hl : ∀ a b, Server.updaterLadder env { u with tree := t' } a b = Server.updaterLadder env u a b := by
    intro a b
    unfold Server.updaterLadder
    simp only [h.head, h.getBinaryLadder]
  unfold Server.next
  simp only [h.infos, hl, h.fullTreeHead, h.updateView, h.handleFor, h.outputOf]

theorem size (h : SameFor env l t t') : t'.size = t.size := by
  unfold Tree.size
  rw [h.head]

theorem sendAll (now : Nat) (w : Nat → Bool) : ∀ (fuel : Nat) (u : Updater) (t' : Tree), SameFor env u.label u.tree t' →
    Server.sendAll env now w fuel { u with tree := t' } =
      ((Server.sendAll env now w fuel u).1, (Server.sendAll env now w fuel u).2.map (fun v => { v with tree := t' })) ∧
    ∀ v, (Server.sendAll env now w fuel u).2 = some v → v.label = u.label ∧ v.tree = u.tree ∧ v.values = u.values
  | 0, u, t', h => ⟨rfl, fun v hv => by cases hv; exact ⟨rfl, rfl, rfl⟩⟩
  | fuel + 1, u, t', h => by
    unfold Server.sendAll
    simp only []
    split
    · rw [h.next]
      cases hn : Server.next env now u (w (u.index.getD u.ver 0)) with
      | error e => exact ⟨rfl, fun v hv => by cases hv⟩
      | ok r =>
        obtain ⟨res, ver⟩ := r
        simp only []
        obtain ⟨h1, h2⟩ := sendAll now w fuel { u with ver := ver, last := some u.tree.size } t' h
        rw [h.size]
        exact ⟨by rw [h1], h2⟩
    · exact ⟨rfl, fun v hv => by cases hv; exact ⟨rfl, rfl, rfl⟩⟩

/-- what became of the request to the sequencing goroutine is the same, up to the parts of the database that are not
looked at -/
inductive SameSeq (env : Env) (l : Bytes) : Sequenced → Sequenced → Prop
  | unsupported : SameSeq env l .unsupported .unsupported
  | refused : SameSeq env l .refused .refused
  | sequenced {pos : Nat} {db db' : Store} {t t' : Tree} : newTree env db = .ok t → newTree env db' = .ok t' →
      SameFor env l t t' → SameSeq env l (.sequenced pos db) (.sequenced pos db')

theorem newTree_tx {env : Env} {db : Store} {t : Tree} (h : newTree env db = .ok t) : t.tx = db := by
  unfold newTree at h
  obtain ⟨_, _, h⟩ := G.bind_eq_ok.1 h
  obtain ⟨_, _, h⟩ := G.bind_eq_ok.1 h
  rw [← Except.ok.inj h]

theorem process {u : Updater} {seq seq' : Sequenced} (h : SameFor env u.label u.tree t') (hs : SameSeq env u.label seq seq')
    (now : Nat) : Server.process env now seq' { u with tree := t' } = Server.process env now seq u := by
  unfold Server.process
  obtain ⟨h1, h2⟩ := sendAll now (fun _ => true) (u.index.length + 1) u t' h
  simp only []
  rw [h1]
  cases hv : (Server.sendAll env now (fun _ => true) (u.index.length + 1) u).2 with
  | none => rfl
  | some v =>
    obtain ⟨e1, e2, e3⟩ := h2 v hv
    simp only [Option.map_some]
    congr 1
    split
    · rfl
    · cases hs with
      | unsupported => rfl
      | refused => rfl
      | @sequenced pos db db' a a' ha ha' hsf =>
        have i : getIndex db' v.label = getIndex db v.label := by
          have := hsf.index
          rw [newTree_tx ha, newTree_tx ha'] at this
          rw [e1]
          exact this
        have key : Server.reloadTree env db' pos { v with tree := t' } =
            (Server.reloadTree env db pos v).map (fun w => { w with tree := a' }) ∧
            ∀ w, Server.reloadTree env db pos v = .ok w → w.tree = a ∧ w.label = v.label := by
          unfold Server.reloadTree
          rw [ha, ha']
          simp only [G.ok_bind, hsf.head, hsf.size, i]
          split
          · exact ⟨rfl, fun w hw => by cases hw⟩
          · split
            · exact ⟨rfl, fun w hw => by cases hw⟩
            · cases hg : getIndex db v.label with
              | error e => exact ⟨rfl, fun w hw => by cases hw⟩
              | ok ix =>
                simp only [G.ok_bind]
                split
                · exact ⟨rfl, fun w hw => by cases hw⟩
                · exact ⟨rfl, fun w hw => by cases hw; exact ⟨rfl, rfl⟩⟩
        simp only []
        rw [key.1]
        cases hr : Server.reloadTree env db pos v with
        | error e => rfl
        | ok w =>
          obtain ⟨k1, k2⟩ := key.2 w hr
          simp only [Except.map]
          rw [(sendAll now (fun p => decide (p ≠ pos)) (w.index.length + 1) w a' (by rw [k1, k2, e1]; exact hsf)).1]

theorem update {req : UpdateRequest} {seq seq' : Sequenced} (h : SameFor env req.label t t') (hs : SameSeq env req.label seq seq')
    (now : Nat) : Server.update env now seq' t' req = Server.update env now seq t req := by
  unfold Server.update setRequest
  rw [h.index]
  cases getIndex t.tx req.label with
  | error e => rfl
  | ok index =>
    simp only [G.ok_bind, G.pure_eq]
    exact congrArg Except.ok (process (u := ⟨t, req.last, req.label, none, _, index, nextVer req.greatestVersion⟩) h hs now)

theorem managerUpdate {req : ManagerUpdateRequest} {seq seq' : Sequenced} (verify : Bytes → Bytes → Bool)
    (h : SameFor env req.label t t') (hs : SameSeq env req.label seq seq') (now : Nat) :
    Server.managerUpdate env now verify seq' t' req = Server.managerUpdate env now verify seq t req := by
  unfold Server.managerUpdate setManagerRequest
  rw [h.index]
  cases verifyOperator env.cfg verify req.label req.signedVersion 0 req.values with
  | error e => rfl
  | ok _ =>
    cases getIndex t.tx req.label with
    | error e => rfl
    | ok index =>
      simp only [G.ok_bind, G.pure_eq]
      exact congrArg Except.ok (process (u := ⟨t, req.last, req.label, _, _, index, nextVer req.greatestVersion⟩) h hs now)

end SameFor

theorem runs_sameSeq {env : Env} (hcs : env.cs.Good) (hsm : Prefix.Small env.cs) {cs cs' : List Change} {us : List AuditorUpdate}
    {t t' : Tree} (h : ServerSpec.Runs env cs us t) (h' : ServerSpec.Runs env cs' us t') {l : Bytes}
    (hv : versionsOf l cs' = versionsOf l cs) (pos : Nat) :
    SameFor.SameSeq env l (.sequenced pos t.db) (.sequenced pos t'.db) := by
  have hs := (runs_same hcs hsm h h').1
  obtain ⟨e, i⟩ := runs_inv hcs hsm h
  obtain ⟨e', i'⟩ := runs_inv hcs hsm h'
  have hl : (logOf env.cs us).length < 2 ^ 64 := by rw [logOf_length, i.len]; have := i.size; omega
  have aud : ∀ {cs us t}, ServerSpec.Runs env cs us t → t.db.auditor = none := by
    intro cs us t h
    obtain ⟨s, hs, hd⟩ := runs_replay hcs hsm h
    rw [hd.auditor]
    have key : ∀ (us : List AuditorUpdate) (n : Nat) (a b : Store), replay env n us a = .ok b → b.auditor = a.auditor := by
      intro us
      induction us with
      | nil => intro n a b h; cases h; rfl
      | cons u us ih =>
        intro n a b h
        obtain ⟨c, h1, h2⟩ := G.bind_eq_ok.1 h
        rw [ih _ _ _ h2]
        unfold pubStep at h1
        obtain ⟨res, _, h3⟩ := G.bind_eq_ok.1 h1
        split at h3
        · rename_i hd s hi
          cases h3
          obtain ⟨a', k1, k2⟩ := issueTreeHead_same (SameRest.refl _) hi
          rw [k1] at hi
          unfold issueTreeHead at k1
          obtain ⟨raw, h1, k1⟩ := St.lift_bind_ok.1 k1
          rw [St.modify_bind] at k1
          obtain ⟨leaf, h3, k2⟩ := St.lift_bind_ok.1 k1
          obtain ⟨⟨log', subs⟩, h4, k3⟩ := St.read_bind_ok.1 k2
          simp only [] at h4 k3
          rw [St.modify_bind] at k3
          obtain ⟨root, h6, k4⟩ := St.lift_bind_ok.1 k3
          obtain ⟨tbs, h7, k5⟩ := St.lift_bind_ok.1 k4
          obtain ⟨sig, h8, k6⟩ := St.lift_bind_ok.1 k5
          obtain ⟨rh, h9, k7⟩ := St.lift_bind_ok.1 k6
          rw [St.modify_bind] at k7
          obtain ⟨rfl, rfl⟩ := St.pure_ok.1 k7
          cases hi
          rfl
        · cases h3
    exact key _ _ _ _ hs
  have hn : newTree env t.db = .ok ⟨t.db, t.db, t.head, none⟩ := by
    unfold newTree
    rw [i.head.read hl, aud h]
    rfl
  have hn' : newTree env t'.db = .ok ⟨t'.db, t'.db, t'.head, none⟩ := by
    unfold newTree
    rw [i'.head.read hl, aud h']
    rfl
  refine .sequenced hn hn' ?_
  have := runs_sameFor hcs hsm h h' hv none
  rwa [e, e'] at this
end Katie.Server
