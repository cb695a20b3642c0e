import Verif.Lemmas.ServerBatch
import Verif.Lemmas.Structs
import Verif.Lemmas.LogStore

/-
The invariant of the server.
-/

namespace Katie.Server
open Katie Katie.Wire Katie.Alg Katie.ServerSpec Katie.PrefixSpec Katie.AuditSpec Katie.SearchSpec

/-! ### small facts -/

theorem readAll_ok {α : Type} {P : α → Prop} {w : α → G Bytes} {r : Rd α} (h : Codec P w r) {a : α} {raw : Bytes}
    (hp : P a) (hw : w a = .ok raw) (msg : String) : readAll r msg raw = .ok a := by
  have := h.rt a raw [] hp hw
  rw [List.append_nil] at this
  unfold readAll
  rw [this]
  simp

theorem rootHash_len {cs : Log.Suite} (hcs : cs.Good) (S : List Pair) : (rootHash cs.H cs.hashSize S).length = cs.hashSize := by
  unfold rootHash
  match S, h : 8 * cs.hashSize with
  | [], _ => simp [trieHash]
  | [(v, c)], _ => simp only [trieHash]; exact hcs.len _
  | _ :: _ :: _, 0 => simp only [trieHash, List.length_nil]; omega
  | _ :: _ :: _, k + 1 => simp only [trieHash]; exact hcs.len _

theorem entry_marshal (t : Nat) (r : Bytes) : (⟨t, r⟩ : LogEntry).marshal = .ok (putBE 8 t ++ r) := rfl

theorem logOf_length (cs : Log.Suite) (us : List AuditorUpdate) : (logOf cs us).length = us.length := by
  unfold logOf; simp

theorem logOf_snoc (cs : Log.Suite) (us : List AuditorUpdate) (u : AuditorUpdate) :
    logOf cs (us ++ [u]) = logOf cs us ++
      [⟨u.timestamp, rootHash cs.H cs.hashSize (contents ((us ++ [u]).map batchOf))⟩] := by
  unfold logOf
  rw [List.mapIdx_append]
  congr 1
  · apply List.ext_getElem?
    intro i
    rw [List.getElem?_mapIdx, List.getElem?_mapIdx]
    by_cases hi : i < us.length
    · rw [List.getElem?_eq_getElem hi, Option.map_some, Option.map_some, List.take_append_of_le_length (by omega)]
    · rw [List.getElem?_eq_none (by omega)]
      rfl
  · simp [List.take_of_length_le]

theorem logOf_get {cs : Log.Suite} {us : List AuditorUpdate} {x : Nat} {e : LogEntry} (h : (logOf cs us)[x]? = some e) :
    e.prefixTree = rootHash cs.H cs.hashSize (contents ((us.take (x + 1)).map batchOf)) := by
  unfold logOf at h
  rw [List.getElem?_mapIdx] at h
  cases hu : us[x]? with
  | none => rw [hu] at h; cases h
  | some u =>
    rw [hu] at h
    simp only [Option.map_some, Option.some.injEq] at h
    rw [← h]

theorem pairOf_vrf {env : Env} {l : Bytes} {v : Nat} {x : Version} {p : Pair} (h : pairOf env l v x = .ok p) :
    ∃ pr, computeVrf env l v = .ok (p.1, pr) := by
  unfold pairOf at h
  obtain ⟨⟨o, pr⟩, h1, h⟩ := G.bind_eq_ok.1 h
  obtain ⟨b, _, h⟩ := G.bind_eq_ok.1 h
  rw [← Except.ok.inj h]
  exact ⟨pr, h1⟩

/-! ### the invariant -/

/-- the stored bytes of a log entry -/
def EntryStored : Option Bytes → Option LogEntry → Prop
  | none, none => True
  | some raw, some e => e.marshal = .ok raw
  | _, _ => False

/-- the tree head, in memory and stored -/
def HeadOk (env : Env) (W : List LogEntry) (raw : Option Bytes) (head : Option TreeHead) : Prop :=
  (W = [] ∧ raw = none ∧ head = none) ∨
  (W ≠ [] ∧ ∃ sig tbs b, raw = some b ∧ head = some ⟨W.length, sig⟩ ∧ (⟨W.length, sig⟩ : TreeHead).marshal = .ok b ∧
    treeHeadTBS env.cfg W.length (LogSpec.rootHash env.cs.H (W.map (leafHash env.cs))) = .ok tbs ∧ env.sign tbs = .ok sig)

structure Inv (env : Env) (cs : List Change) (us : List AuditorUpdate) (st : Store) (head : Option TreeHead) : Prop where
  len : us.length = cs.length
  size : cs.length < 2 ^ 63
  repr : ∀ l, Repr st l (versionsOf l cs)
  typed : ∀ l, ∀ x ∈ versionsOf l cs, (⟨x.opening, x.value⟩ : OpeningAndValue).Typed env.cfg env.sz
  entries : ∀ x, EntryStored (st.entries.lookup x) (logOf env.cs us)[x]?
  times : GoodTimes (timeOf (logOf env.cs us)) us.length
  log : Log.StoreOK env.cs ((logOf env.cs us).map (leafHash env.cs)) st.log
  hist : History env.cs (us.map batchOf) st.tiles
  total : ∀ l v x, (versionsOf l cs)[v]? = some x → ∃ p, pairOf env l v x = .ok p
  mem : ∀ p, p ∈ contents (us.map batchOf) ↔ ∃ l v x, (versionsOf l cs)[v]? = some x ∧ pairOf env l v x = .ok p
  inj : ∀ l v x p l' v' x' p', (versionsOf l cs)[v]? = some x → pairOf env l v x = .ok p →
    (versionsOf l' cs)[v']? = some x' → pairOf env l' v' x' = .ok p' → p.1 = p'.1 → l = l' ∧ v = v'
  count : (contents (us.map batchOf)).length ≤ (cs.flatMap Change.add).length
  head : HeadOk env (logOf env.cs us) st.head head

theorem inv_start (env : Env) : Inv env [] [] {} none where
  len := rfl
  size := by simp
  repr l := ⟨.inl ⟨rfl, rfl⟩, fun v => by simp [versionsOf_nil, Stored]⟩
  typed l x hx := by simp [versionsOf_nil] at hx
  entries x := by simp [logOf, EntryStored]
  times := ⟨fun i j _ h => by simp at h, fun i h => by simp at h⟩
  log := Log.storeOK_nil
  hist := .nil
  total l v x h := by simp [versionsOf_nil] at h
  mem p := by simp [contents, versionsOf_nil]
  inj l v x p _ _ _ _ h := by simp [versionsOf_nil] at h
  count := by simp [contents]
  head := .inl ⟨rfl, rfl, rfl⟩

theorem Inv.getIndex {env : Env} {cs : List Change} {us : List AuditorUpdate} {st : Store} {head : Option TreeHead}
    (h : Inv env cs us st head) (l : Bytes) : getIndex st l = .ok ((versionsOf l cs).map Version.pos) := by
  have hp := versionsOf_pos l cs
  exact (h.repr l).getIndex hp.1 (fun x hx => by have := hp.2 x hx; have := h.size; omega)

theorem Inv.getEntry {env : Env} (hcs : env.cs.Good) {cs : List Change} {us : List AuditorUpdate} {st : Store}
    {head : Option TreeHead} (h : Inv env cs us st head) (x : Nat) (e : LogEntry) (hx : (logOf env.cs us)[x]? = some e) :
    getEntry env st x = .ok e := by
  have he := h.entries x
  rw [hx] at he
  unfold Server.getEntry
  cases hl : st.entries.lookup x with
  | none => rw [hl] at he; exact he.elim
  | some raw =>
    rw [hl] at he
    simp only []
    refine readAll_ok (codec_logEntry env.cs.hashSize) ⟨?_, ?_⟩ he _
    · have hlt : x < us.length := by
        rw [← logOf_length env.cs us]
        by_contra hc
        rw [List.getElem?_eq_none (by omega)] at hx
        cases hx
      have ht := h.times.2 x hlt
      unfold timeOf at ht
      rw [hx] at ht
      exact ht
    · rw [logOf_get hx]
      exact rootHash_len hcs _

theorem Inv.entry_none {env : Env} {cs : List Change} {us : List AuditorUpdate} {st : Store}
    {head : Option TreeHead} (h : Inv env cs us st head) (x : Nat) (hx : us.length ≤ x) :
    Server.getEntry env st x = goErr "requested log entry not found" := by
  have he := h.entries x
  rw [List.getElem?_eq_none (by rw [logOf_length]; omega)] at he
  unfold Server.getEntry
  cases hl : st.entries.lookup x with
  | none => rfl
  | some raw => rw [hl] at he; exact he.elim

theorem Inv.getVersion {env : Env} {cs : List Change} {us : List AuditorUpdate} {st : Store}
    {head : Option TreeHead} (h : Inv env cs us st head) (l : Bytes) (v : Nat) :
    Server.getVersion env st l v = .ok (match (versionsOf l cs)[v]? with
      | some x => ⟨x.opening, x.value⟩
      | none => ⟨List.replicate env.sz.opening 0, ⟨[], none⟩⟩) := by
  have hs := (h.repr l).versions v
  unfold Server.getVersion
  cases hx : (versionsOf l cs)[v]? with
  | none =>
    rw [hx] at hs
    cases hl : st.versions.lookup (l, v) with
    | none => rfl
    | some raw => rw [hl] at hs; exact hs.elim
  | some x =>
    rw [hx] at hs
    cases hl : st.versions.lookup (l, v) with
    | none => rw [hl] at hs; exact hs.elim
    | some raw =>
      rw [hl] at hs
      exact readAll_ok (codec_openingAndValue env.cfg env.sz) (h.typed l x (List.mem_of_getElem? hx)) hs _

/-- the size of the tree -/
theorem HeadOk.size {env : Env} {W : List LogEntry} {raw : Option Bytes} {t : Tree} (h : HeadOk env W raw t.head) :
    t.size = W.length := by
  unfold Tree.size
  rcases h with ⟨rfl, _, h⟩ | ⟨_, sig, _, _, _, h, _⟩ <;> rw [h]
  rfl

theorem HeadOk.read {env : Env} {W : List LogEntry} {raw : Option Bytes} {head : Option TreeHead}
    (h : HeadOk env W raw head) (hn : W.length < 2 ^ 64) : readHead raw = .ok head := by
  rcases h with ⟨_, rfl, rfl⟩ | ⟨_, sig, _, b, rfl, rfl, hm, _⟩
  · rfl
  · unfold readHead
    simp only []
    rw [readAll_ok codec_treeHead (a := ⟨W.length, sig⟩) hn hm]
    rfl

/-! ### one change -/

/-- what is known about a successful change -/
structure StepFacts (env : Env) (cs : List Change) (us : List AuditorUpdate) (st : Store) (c : Change) (u : AuditorUpdate)
    (res : Prefix.MutateResult) (prevDLE : Option Nat) : Prop where
  dle : previousDistinguished env st cs.length c.now = .ok prevDLE
  mutate : Prefix.mutate env.cs st.tiles (us.map batchOf).length (PrefixSpec.entries (batchOf u).add) (batchOf u).remove = .ok res
  time : u.timestamp = c.now
  proof : u.proof = res.proof
  sortedAdd : Prefix.Sorted Prefix.Entry.vrf u.added
  sortedRemove : Prefix.Sorted id (batchOf u).remove
  removed : u.removed.map Prefix.Entry.com = res.removed
  valid : (batchOf u).Valid env.cs.hashSize (contents (us.map batchOf))
  addedPos : ∀ e ∈ u.added, ∃ l v x pr, (versionsOf l (cs ++ [c]))[v]? = some x ∧ x.pos = cs.length ∧
    computeVrf env l v = .ok (e.vrf, pr)
  recent : ∀ o ∈ (batchOf u).remove, ∃ l v x d pr, l ∈ c.remove ∧ (versionsOf l cs)[v]? = some x ∧
    computeVrf env l v = .ok (o, pr) ∧ prevDLE = some d ∧ ∀ y ∈ (versionsOf l cs).map Version.pos, y ≤ d

theorem issueTreeHead_ok {env : Env} (hcs : env.cs.Good) {W : List LogEntry} {t : Nat} {r : Bytes} {st st' : Store}
    {hd : TreeHead} (hlog : Log.StoreOK env.cs (W.map (leafHash env.cs)) st.log) (hn : W.length + 1 < 2 ^ 63)
    (h : issueTreeHead env W.length t r st = (.ok hd, st')) :
    ∃ log sig tbs b, st' = { st with entries := (W.length, putBE 8 t ++ r) :: st.entries, log := log, head := some b } ∧
      Log.StoreOK env.cs ((W ++ [(⟨t, r⟩ : LogEntry)]).map (leafHash env.cs)) log ∧ hd = ⟨W.length + 1, sig⟩ ∧
      (⟨W.length + 1, sig⟩ : TreeHead).marshal = .ok b ∧
      treeHeadTBS env.cfg (W.length + 1) (LogSpec.rootHash env.cs.H ((W ++ [(⟨t, r⟩ : LogEntry)]).map (leafHash env.cs))) = .ok tbs ∧
      env.sign tbs = .ok sig := by
  have hL : ∀ v ∈ W.map (leafHash env.cs) ++ [leafHash env.cs ⟨t, r⟩], v.length = env.cs.hashSize := by
    intro v hv
    rcases List.mem_append.1 hv with hv | hv
    · obtain ⟨e, _, rfl⟩ := List.mem_map.1 hv; exact Audit.leafHash_len hcs e
    · rw [List.mem_singleton] at hv; rw [hv]; exact Audit.leafHash_len hcs _
  have hmax : LogMath.maxTreeSize = 2 ^ 63 := by decide +kernel
  obtain ⟨log, ha, hlog'⟩ := Log.treeAppend_ok hcs hL (by rw [List.length_map, hmax]; omega) hlog
  rw [List.length_map] at ha
  have hroot := Log.root_heads hcs hL (by simp) (by simp [hmax]; omega)
  have hlen : (W.map (leafHash env.cs) ++ [leafHash env.cs ⟨t, r⟩]).length = W.length + 1 := by simp
  rw [hlen] at hroot
  have hmap : (W ++ [(⟨t, r⟩ : LogEntry)]).map (leafHash env.cs) = W.map (leafHash env.cs) ++ [leafHash env.cs ⟨t, r⟩] := by simp
  rw [hmap]
  unfold issueTreeHead at h
  obtain ⟨raw, h1, k1⟩ := St.lift_bind_ok.1 h
  rw [entry_marshal] at h1
  obtain rfl := Except.ok.inj h1
  rw [St.modify_bind] at k1
  obtain ⟨leaf, h3, k2⟩ := St.lift_bind_ok.1 k1
  have hleaf : leaf = leafHash env.cs ⟨t, r⟩ := (Except.ok.inj h3).symm
  subst hleaf
  obtain ⟨⟨log', subs⟩, h4, k3⟩ := St.read_bind_ok.1 k2
  simp only [] at h4 k3
  rw [ha] at h4
  obtain ⟨rfl, rfl⟩ := Prod.mk.inj (Except.ok.inj h4)
  rw [St.modify_bind] at k3
  obtain ⟨root, h6, k4⟩ := St.lift_bind_ok.1 k3
  rw [hroot] at h6
  obtain rfl := Except.ok.inj h6
  obtain ⟨tbs, h7, k5⟩ := St.lift_bind_ok.1 k4
  obtain ⟨sig, h8, k6⟩ := St.lift_bind_ok.1 k5
  obtain ⟨b, h9, k7⟩ := St.lift_bind_ok.1 k6
  rw [St.modify_bind] at k7
  obtain ⟨rfl, rfl⟩ := St.pure_ok.1 k7
  exact ⟨log, sig, tbs, b, rfl, hlog', rfl, h9, h7, h8⟩

/-- the updates for the auditor, in terms of what was mutated -/
theorem auditorUpdate_ok {t : Nat} {added : List Prefix.Entry} {removed coms : List Bytes} {proof : Prefix.Proof}
    {u : AuditorUpdate} (hl : coms.length = removed.length) (h : auditorUpdate t added removed coms proof = .ok u) :
    u.timestamp = t ∧ u.added = added ∧ u.removed.map Prefix.Entry.vrf = removed ∧ u.removed.map Prefix.Entry.com = coms ∧
      u.proof = proof := by
  unfold auditorUpdate at h
  rw [if_neg (by omega)] at h
  rw [← Except.ok.inj h]
  refine ⟨rfl, rfl, ?_, ?_, rfl⟩
  · simp only [List.map_map, Function.comp_def]
    rw [List.map_fst_zip (by omega)]
  · simp only [List.map_map, Function.comp_def]
    rw [List.map_snd_zip (by omega)]

theorem auditorUpdate_total {t : Nat} {added : List Prefix.Entry} {removed coms : List Bytes} {proof : Prefix.Proof}
    (hl : coms.length = removed.length) : ∃ u, auditorUpdate t added removed coms proof = .ok u := by
  unfold auditorUpdate
  rw [if_neg (by omega)]
  exact ⟨_, rfl⟩

theorem entries_pairs (l : List Prefix.Entry) : PrefixSpec.entries (l.map (fun e => (e.vrf, e.com))) = l := by
  unfold PrefixSpec.entries
  rw [List.map_map]
  simp [Function.comp_def]

theorem step_get {l : Bytes} {n : Nat} {c : Change} {vs : List Version} {v : Nat} {x : Version} :
    (step l n c vs)[v]? = some x ↔ (l ∉ c.remove ∧ vs[v]? = some x) ∨
      ∃ i, (fresh l n c (kept l c vs).length)[i]? = some x ∧ v = (kept l c vs).length + i := by
  unfold step
  by_cases hv : v < (kept l c vs).length
  · rw [List.getElem?_append_left hv]
    constructor
    · intro h
      left
      unfold kept at h hv
      by_cases hl : l ∈ c.remove
      · rw [if_pos hl] at hv; simp at hv
      · rw [if_neg hl] at h; exact ⟨hl, h⟩
    · rintro (⟨hl, h⟩ | ⟨i, _, hi⟩)
      · unfold kept; rw [if_neg hl]; exact h
      · omega
  · rw [List.getElem?_append_right (by omega)]
    constructor
    · intro h
      exact .inr ⟨_, h, by omega⟩
    · rintro (⟨hl, h⟩ | ⟨i, h, hi⟩)
      · exfalso
        unfold kept at hv
        rw [if_neg hl] at hv
        rw [List.getElem?_eq_none (by omega)] at h
        cases h
      · rw [hi]
        simpa using h

theorem mutate_step {env : Env} (hcs : env.cs.Good) (hsm : Prefix.Small env.cs) {cs : List Change} {us : List AuditorUpdate}
    {st st' : Store} {head : Option TreeHead} {c : Change} {hd : TreeHead} {u : AuditorUpdate} (h : Inv env cs us st head)
    (hc : ChangeOk env c) (hr : InRange (cs ++ [c])) (hm : mutateStore env c cs.length st = (.ok (hd, .ok u), st'))
    (hne : cs = [] ∨ u.added ≠ [] ∨ u.removed ≠ []) :
    Inv env (cs ++ [c]) (us ++ [u]) st' (some hd) ∧ ∃ res d, StepFacts env cs us st c u res d := by
  have hsize := h.size
  have hsize' := hr.size
  rw [List.length_append, List.length_singleton] at hsize'
  have hWl : (logOf env.cs us).length = cs.length := by rw [logOf_length, h.len]
  have hnd := nodup_labelsOf hc.order
  unfold mutateStore at hm
  obtain ⟨d, hd1, k1⟩ := St.read_bind_ok.1 hm
  obtain ⟨ms, hg, k2⟩ := St.read_bind_ok.1 k1
  rw [groupByLabel_eq (vs := fun l => versionsOf l cs) (labelsOf c) (fun l _ => h.getIndex l)] at hg
  obtain rfl := Except.ok.inj hg
  obtain ⟨rs, s1, hf, k3⟩ := St.bind_ok.1 k2
  obtain ⟨f1, f2, f3, f4⟩ := forEach_labels _ _ _ _ hnd (fun l _ => h.repr l)
    (fun l _ => by rw [← versionsOf_snoc]; exact hr.versions l) hf
  obtain ⟨res, hres, k4⟩ := St.read_bind_ok.1 k3
  rw [St.modify_bind] at k4
  obtain ⟨hd', s2, hi, k5⟩ := St.bind_ok.1 k4
  obtain ⟨k6, rfl⟩ := St.pure_ok.1 k5
  obtain ⟨rfl, hau⟩ := Prod.mk.inj k6
  clear hm k1 k2 k3 k4 k5 k6
  rw [f1.tiles] at hres
  -- the update
  obtain ⟨u1, u2, u3, u4, u5⟩ := auditorUpdate_ok (Prefix.mutate_removed_length hres) hau
  have hb1 : PrefixSpec.entries (batchOf u).add = u.added := entries_pairs _
  have hb2 : (batchOf u).remove = Prefix.sortBy id (rs.flatMap (·.2)) := u3
  have hbadd : ∀ p : Pair, p ∈ (batchOf u).add ↔ (⟨p.1, p.2⟩ : Prefix.Entry) ∈ rs.flatMap (·.1) := by
    intro p
    unfold batchOf
    simp only [List.mem_map]
    rw [u2]
    constructor
    · rintro ⟨e, he, rfl⟩
      exact (Prefix.sortBy_perm _).mem_iff.1 he
    · intro he
      exact ⟨_, (Prefix.sortBy_perm _).mem_iff.2 he, rfl⟩
  have hbrem : ∀ o, o ∈ (batchOf u).remove ↔ o ∈ rs.flatMap (·.2) := by
    intro o
    rw [hb2]
    exact (Prefix.sortBy_perm _).mem_iff
  have hmut : Prefix.mutate env.cs st.tiles (us.map batchOf).length (PrefixSpec.entries (batchOf u).add) (batchOf u).remove = .ok res := by
    rw [hb1, hb2, List.length_map, h.len, u2]
    exact hres
  have hlenadd : (batchOf u).add.length ≤ c.add.length := by
    have : (batchOf u).add.length = (rs.flatMap (·.1)).length := by
      unfold batchOf
      rw [List.length_map, u2, (Prefix.sortBy_perm _).length_eq]
    rw [this]
    exact added_length f4 hnd
  have hcount : (contents (us.map batchOf ++ [batchOf u])).length ≤ ((cs ++ [c]).flatMap Change.add).length := by
    rw [Prefix.contents_snoc, List.flatMap_append, List.length_append]
    unfold Batch.apply
    rw [List.length_append]
    have h1 := List.length_filter_le (fun e => decide (e.1 ∉ (batchOf u).remove)) (contents (us.map batchOf))
    have h2 := h.count
    have h3 : ([c].flatMap Change.add).length = c.add.length := by simp
    rw [h3]
    omega
  have hne' : us.map batchOf = [] ∨ (batchOf u).add ≠ [] ∨ (batchOf u).remove ≠ [] := by
    rcases hne with hne | hne | hne
    · left
      have : us.length = 0 := by rw [h.len, hne]; rfl
      rw [List.length_eq_zero_iff.1 this]; rfl
    · right; left; unfold batchOf; simpa using hne
    · right; right; unfold batchOf; simpa using hne
  have hver : (us.map batchOf).length + 1 < 2 ^ 64 := by rw [List.length_map, h.len]; omega
  have hc54 : (contents (us.map batchOf ++ [batchOf u])).length < 2 ^ 54 := Nat.lt_of_le_of_lt hcount hr.pairs
  have hhist := History.step h.hist hmut hne' hver hc54
  obtain ⟨hmap, X, hinv⟩ := Prefix.history_inv hcs hsm h.hist
  obtain ⟨hvalid, hout⟩ := Prefix.mutate_ok hcs hsm hinv hmap hmut hne' hver hc54
  have hroot : res.root = rootHash env.cs.H env.cs.hashSize (contents ((us ++ [u]).map batchOf)) := by
    rw [hout.root, Prefix.current_versions, List.map_append, List.map_singleton, Prefix.contents_snoc]
  -- the log entry
  have hentry := h.getEntry hcs
  have htime : 0 < (logOf env.cs us).length → timeOf (logOf env.cs us) ((logOf env.cs us).length - 1) ≤ c.now := by
    have := (previousDistinguished_spec hentry (by rw [logOf_length]; exact h.times) hc.now (by rw [hWl]; exact hsize)).1 d
    rw [hWl] at this ⊢
    exact this hd1
  rw [← hWl] at hi
  obtain ⟨log, sig, tbs, b, rfl, i2, rfl, i4, i5, i6⟩ := issueTreeHead_ok hcs (by
    have := h.log
    rw [← f1.log] at this
    exact this) (by rw [hWl]; omega) hi
  have hW : logOf env.cs (us ++ [u]) = logOf env.cs us ++ [⟨c.now, res.root⟩] := by rw [logOf_snoc, u1, hroot]
  -- label by label
  have hrepr : ∀ l, Repr s1 l (versionsOf l (cs ++ [c])) := by
    intro l
    rw [versionsOf_snoc]
    by_cases hl : l ∈ labelsOf c
    · exact f2 l hl
    · rw [step_other hc.order hl]
      exact f3 l hl _ (h.repr l)
  have hlabel : ∀ l (i : Nat) x, (fresh l cs.length c (kept l c (versionsOf l cs)).length)[i]? = some x → l ∈ labelsOf c := by
    intro l i x hx
    obtain ⟨p, hp, _⟩ := fresh_get.1 hx
    rw [mem_labelsOf hc.order]
    have := List.mem_filter.1 (List.mem_of_getElem? hp)
    exact .inl ⟨p, this.1, by simpa using this.2⟩
  have hnew : ∀ l (i : Nat) x, (fresh l cs.length c (kept l c (versionsOf l cs)).length)[i]? = some x →
      ∃ p, pairOf env l ((kept l c (versionsOf l cs)).length + i) x = .ok p ∧ p ∈ (batchOf u).add := by
    intro l i x hx
    obtain ⟨r, hr', ho⟩ := forall₂_left f4 l (hlabel l i x hx)
    obtain ⟨e, he, hp⟩ := ho.add i x hx
    exact ⟨_, hp, (hbadd _).2 (List.mem_flatMap.2 ⟨r, hr', List.mem_of_getElem? he⟩)⟩
  have hstay : ∀ l (v : Nat) x p, l ∉ c.remove → (versionsOf l cs)[v]? = some x → pairOf env l v x = .ok p →
      p ∈ contents (us.map batchOf) ∧ p.1 ∉ (batchOf u).remove := by
    intro l v x p hl hx hp
    refine ⟨(h.mem p).2 ⟨l, v, x, hx, hp⟩, ?_⟩
    intro hrem
    obtain ⟨l', _, hl', v', hv', pr, hpr⟩ := (mem_removed f4 _).1 ((hbrem _).1 hrem)
    have hx' := List.getElem?_eq_getElem hv'
    obtain ⟨p', hp'⟩ := h.total l' v' _ hx'
    obtain ⟨pr', hpr'⟩ := pairOf_vrf hp'
    rw [hpr] at hpr'
    obtain ⟨e, _⟩ := Prod.mk.inj (Except.ok.inj hpr')
    obtain ⟨rfl, _⟩ := h.inj l v x p l' v' _ p' hx hp hx' hp' e
    exact hl hl'
  refine ⟨?_, res, d, ?_⟩
  · refine
      { len := by simp [h.len]
        size := by simp; omega
        repr := fun l => ⟨(hrepr l).index, (hrepr l).versions⟩
        typed := ?_
        entries := ?_
        times := ?_
        log := by rw [hW]; exact i2
        hist := by rw [List.map_append]; exact hhist
        total := ?_
        mem := ?_
        inj := ?_
        count := by rw [List.map_append]; exact hcount
        head := ?_ }
    · intro l x hx
      rw [versionsOf_snoc] at hx
      rcases List.mem_append.1 hx with hx | hx
      · unfold kept at hx
        split at hx
        · cases hx
        · exact h.typed l x hx
      · obtain ⟨i, hi⟩ := List.mem_iff_getElem?.1 hx
        obtain ⟨p, hp, rfl⟩ := fresh_get.1 hi
        exact ⟨hc.opening _ _, hc.value p (List.mem_filter.1 (List.mem_of_getElem? hp)).1⟩
    · intro x
      rw [hW]
      simp only []
      by_cases hx : x = (logOf env.cs us).length
      · subst hx
        rw [lookup_cons_eq, List.getElem?_append_right (le_refl _)]
        simp only [Nat.sub_self, List.getElem?_cons_zero]
        exact entry_marshal _ _
      · rw [lookup_cons_ne hx, f1.entries]
        have := h.entries x
        by_cases hlt : x < (logOf env.cs us).length
        · rw [List.getElem?_append_left hlt]; exact this
        · rw [List.getElem?_eq_none (by simp; omega)]
          rw [List.getElem?_eq_none (by omega)] at this
          exact this
    · have := Audit.goodTimes_snoc (e := ⟨c.now, res.root⟩) (by rw [logOf_length]; exact h.times) htime hc.now
      rw [← hW, logOf_length] at this
      exact this
    · intro l v x hx
      rw [versionsOf_snoc] at hx
      rcases step_get.1 hx with ⟨_, hx⟩ | ⟨i, hx2, rfl⟩
      · exact h.total l v x hx
      · obtain ⟨p, hp, _⟩ := hnew l i x hx2
        exact ⟨p, hp⟩
    · intro p
      rw [List.map_append, List.map_singleton, Prefix.contents_snoc]
      unfold Batch.apply
      rw [List.mem_append, List.mem_filter]
      constructor
      · rintro (⟨hp, hrem⟩ | hp)
        · obtain ⟨l, v, x, hx, hpx⟩ := (h.mem p).1 hp
          refine ⟨l, v, x, ?_, hpx⟩
          rw [versionsOf_snoc]
          refine step_get.2 (.inl ⟨?_, hx⟩)
          intro hl
          have : p.1 ∈ (batchOf u).remove := by
            rw [hbrem, mem_removed f4]
            obtain ⟨pr, hpr⟩ := pairOf_vrf hpx
            refine ⟨l, (mem_labelsOf hc.order l).2 (.inr hl), hl, v, ?_, pr, hpr⟩
            by_contra hcon
            rw [List.getElem?_eq_none (by omega)] at hx
            cases hx
          simp [this] at hrem
        · obtain ⟨l, _, v, i, x, hx, rfl, hpx⟩ := (mem_added f4 _).1 ((hbadd p).1 hp)
          refine ⟨l, _, x, ?_, hpx⟩
          rw [versionsOf_snoc]
          exact step_get.2 (.inr ⟨i, hx, rfl⟩)
      · rintro ⟨l, v, x, hx, hpx⟩
        rw [versionsOf_snoc] at hx
        rcases step_get.1 hx with ⟨hl, hx⟩ | ⟨i, hx2, rfl⟩
        · obtain ⟨g1, g2⟩ := hstay l v x p hl hx hpx
          exact .inl ⟨g1, by simp [g2]⟩
        · obtain ⟨p', hp', hmem⟩ := hnew l i x hx2
          rw [hpx] at hp'
          rw [Except.ok.inj hp']
          exact .inr hmem
    · intro l v x p l' v' x' p' hx hp hx' hp' he
      rw [versionsOf_snoc] at hx hx'
      have cross : ∀ {l} {v : Nat} {x} {p : Pair} {l'} {i : Nat} {x'} {p' : Pair}, l ∉ c.remove → (versionsOf l cs)[v]? = some x → pairOf env l v x = .ok p →
          (fresh l' cs.length c (kept l' c (versionsOf l' cs)).length)[i]? = some x' →
          pairOf env l' ((kept l' c (versionsOf l' cs)).length + i) x' = .ok p' → p.1 ≠ p'.1 := by
        intro l v x p l' i x' p' hl hx hp hx' hp' he
        obtain ⟨g1, g2⟩ := hstay l v x p hl hx hp
        obtain ⟨p2, hp2, hmem⟩ := hnew l' i x' hx'
        rw [hp'] at hp2
        have hp3 := Except.ok.inj hp2
        subst hp3
        have := hvalid.fresh p' hmem (by rw [← he]; exact List.mem_map.2 ⟨p, g1, rfl⟩)
        rw [← he] at this
        exact g2 this
      rcases step_get.1 hx with ⟨hl, hx⟩ | ⟨i, hx2, rfl⟩
      · rcases step_get.1 hx' with ⟨hl', hx'⟩ | ⟨i', hx3, rfl⟩
        · exact h.inj l v x p l' v' x' p' hx hp hx' hp' he
        · exact absurd he (cross hl hx hp hx3 hp')
      · rcases step_get.1 hx' with ⟨hl', hx'⟩ | ⟨i', hx3, rfl⟩
        · exact absurd he.symm (cross hl' hx' hp' hx2 hp)
        · refine newPair_inj f4 ?_ (hlabel l i x hx2) (hlabel l' i' x' hx3) ⟨i, x, hx2, rfl, hp⟩ ⟨i', x', hx3, rfl, hp'⟩ he
          have := hvalid.addDistinct
          have e : (batchOf u).add.map Prod.fst = (Prefix.sortBy Prefix.Entry.vrf (rs.flatMap (·.1))).map Prefix.Entry.vrf := by
            unfold batchOf
            simp only [List.map_map, Function.comp_def]
            rw [u2]
          rw [e] at this
          exact ((Prefix.sortBy_perm _).map _).nodup_iff.1 this
    · right
      rw [hW]
      have hl : (logOf env.cs us ++ [(⟨c.now, res.root⟩ : LogEntry)]).length = (logOf env.cs us).length + 1 := by simp
      rw [hl]
      exact ⟨by simp, sig, tbs, b, rfl, rfl, i4, i5, i6⟩
  · refine ⟨hd1, hmut, u1, u5, ?_, ?_, u4, hvalid, ?_, ?_⟩
    · rw [u2]; exact Prefix.sortBy_sorted _
    · rw [hb2]; exact Prefix.sortBy_sorted _
    · intro e he
      rw [u2] at he
      obtain ⟨l, _, v, i, x, hx, rfl, hpx⟩ := (mem_added f4 _).1 ((Prefix.sortBy_perm _).mem_iff.1 he)
      obtain ⟨pr, hpr⟩ := pairOf_vrf hpx
      refine ⟨l, _, x, pr, ?_, ?_, hpr⟩
      · rw [versionsOf_snoc]
        exact step_get.2 (.inr ⟨i, hx, rfl⟩)
      · obtain ⟨p, _, rfl⟩ := fresh_get.1 hx
        rfl
    · intro o ho
      obtain ⟨l, hl, hrem, v, hv, pr, hpr⟩ := (mem_removed f4 _).1 ((hbrem _).1 ho)
      obtain ⟨r, _, hout'⟩ := forall₂_left f4 l hl
      have hlo := hout'.remove
      rw [if_pos hrem] at hlo
      obtain ⟨d', last, rfl, hlast, hle⟩ := hlo.2 (by intro he; rw [he] at hv; simp at hv)
      refine ⟨l, v, _, d', pr, hrem, List.getElem?_eq_getElem hv, hpr, rfl, ?_⟩
      intro y hy
      refine le_trans ?_ hle
      obtain ⟨pre, he⟩ := List.getLast?_eq_some_iff.1 hlast
      have hpw := (versionsOf_pos l cs).1
      rw [he] at hpw hy
      rcases List.mem_append.1 hy with hy | hy
      · exact (List.pairwise_append.1 hpw).2.2 y hy last (by simp)
      · rw [List.mem_singleton] at hy; omega

end Katie.Server
