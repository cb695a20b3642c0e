import Verif.Spec.Memory
import Verif.Props.C37_C40_Database

/-
C88: the in-memory database and the LevelDB database are interchangeable.

False for clones: a clone of the in-memory store can be written to, sees writes that were not committed, and never sees a new
tree head.  Proved for all uses in which clones are not used after further writes.
-/

namespace Katie.Props
open Katie Katie.DB Katie.MemorySpec

/-! ### keys -/

theorem hexBytes_iff {a b : Bytes} : hexBytes a = hexBytes b ↔ a = b := ⟨hexBytes_inj a b, fun h => by rw [h]⟩

theorem decimal_iff {a b : Nat} : decimal a = decimal b ↔ a = b :=
  ⟨toDigits_inj (by omega) (by omega) a b, fun h => by rw [h]⟩

theorem memVersionKey_iff {l l' : Bytes} {v v' : Nat} : memVersionKey l' v' = memVersionKey l v ↔ l' = l ∧ v' = v := by
  constructor
  · intro h
    obtain ⟨h1, h2⟩ := split_colon (colon_not_mem_hexBytes l') (colon_not_mem_hexBytes l) h
    exact ⟨hexBytes_iff.1 h1, decimal_iff.1 h2⟩
  · rintro ⟨rfl, rfl⟩; rfl

theorem versionKey_iff {l l' : Bytes} {v v' : Nat} : versionKey l' v' = versionKey l v ↔ l' = l ∧ v' = v := by
  constructor
  · intro h
    have := C39_keys_distinct (.version l' v') (.version l v) h
    cases this
    exact ⟨rfl, rfl⟩
  · rintro ⟨rfl, rfl⟩; rfl

theorem indexKey_iff {l l' : Bytes} : indexKey l' = indexKey l ↔ l' = l := by
  unfold indexKey
  rw [List.cons.injEq, hexBytes_iff]
  simp

theorem entryKey_iff {a b : Nat} : entryKey a = entryKey b ↔ a = b := by
  unfold entryKey
  rw [List.cons.injEq, decimal_iff]
  simp

theorem chunkKey_iff {a b : Nat} : chunkKey a = chunkKey b ↔ a = b := by
  unfold chunkKey
  rw [List.cons.injEq, decimal_iff]
  simp

/-- keys whose first characters differ -/
theorem key_ne {x y : Key} (a b : Char) (hx : x.head? = some a) (hy : y.head? = some b) (h : a ≠ b) : x ≠ y := by
  rintro rfl
  rw [hx] at hy
  exact h (Option.some.inj hy)

/-! ### the two stores with the same contents -/

/-- what is read from the LevelDB store is what is read from the in-memory store -/
structure Match (g : Key → Option Bytes) (m : Maps) (h : Heads) : Prop where
  head : g treeHeadKey = h.treeHead
  auditor : g auditorKey = h.auditor
  indices : ∀ l, g (indexKey l) = m.indices (hexBytes l)
  versions : ∀ l v, g (versionKey l v) = m.versions (memVersionKey l v)
  entries : ∀ k, g (entryKey k) = m.entries k
  chunks : ∀ k, g (chunkKey k) = m.chunks k
  tiles : ∀ k, g ('p' :: k) = m.tiles k
  order : h.treeHead = none → h.auditor = none

theorem read_same {g : Key → Option Bytes} {m : Maps} {h : Heads} (hm : Match g m h) {c : Conn} (hc : ∀ k, c.get k = g k) {o : Call}
    (ho : Reads o) : ∃ r, ldbCall o c = (r, c) ∧ memCall o m h = (r, m, h) := by
  have hg : c.get = g := funext hc
  cases o with
  | getTreeHead =>
    refine ⟨_, ?_, rfl⟩
    unfold ldbCall
    simp only [hg, hm.head, hm.auditor]
    cases ht : h.treeHead with
    | none => simp only [hm.order ht]
    | some th => rfl
  | getIndexes ls => exact ⟨_, rfl, by simp only [memCall, hg, hm.indices]⟩
  | getVersion l v => exact ⟨_, rfl, by simp only [memCall, hg, hm.versions]⟩
  | getEntries ks => exact ⟨_, rfl, by simp only [memCall, hg, hm.entries]⟩
  | getChunks ks => exact ⟨_, rfl, by simp only [memCall, hg, hm.chunks]⟩
  | getTiles ks => exact ⟨_, rfl, by simp only [memCall, hg, hm.tiles]⟩
  | _ => exact absurd ho (by simp [Reads])

/-- the effect of a write on what is read -/
def wrote (g : Key → Option Bytes) (key : Key) (v : Option Bytes) : Key → Option Bytes := fun k => if k = key then v else g k

theorem wrote_ne {g : Key → Option Bytes} {key : Key} {v : Option Bytes} {k : Key} {r : Option Bytes} (h : k ≠ key) (hr : g k = r) :
    wrote g key v k = r := by
  rw [wrote, if_neg h, hr]

section
variable {g : Key → Option Bytes} {m : Maps} {h : Heads} (hm : Match g m h)
include hm

theorem match_head {raw : Option Bytes} (hr : raw ≠ none) : Match (wrote g treeHeadKey raw) m { h with treeHead := raw } where
  head := by simp [wrote]
  auditor := wrote_ne (key_ne 'a' 't' rfl rfl (by decide)) (hm.auditor)
  indices l := wrote_ne (key_ne 'i' 't' rfl rfl (by decide)) (hm.indices l)
  versions l v := wrote_ne (key_ne 'v' 't' rfl rfl (by decide)) (hm.versions l v)
  entries k := by
    have : entryKey k ≠ treeHeadKey := fun e => decimal_head k _ (List.cons.inj e).2
    simp only [wrote, if_neg this, hm.entries]
  chunks k := wrote_ne (key_ne 'l' 't' rfl rfl (by decide)) (hm.chunks k)
  tiles k := wrote_ne (key_ne 'p' 't' rfl rfl (by decide)) (hm.tiles k)
  order e := absurd e hr

theorem match_auditor {raw : Option Bytes} (hr : raw = none ∨ h.treeHead ≠ none) :
    Match (wrote g auditorKey raw) m { h with auditor := raw } where
  head := wrote_ne (key_ne 't' 'a' rfl rfl (by decide)) (hm.head)
  auditor := by simp [wrote]
  indices l := wrote_ne (key_ne 'i' 'a' rfl rfl (by decide)) (hm.indices l)
  versions l v := wrote_ne (key_ne 'v' 'a' rfl rfl (by decide)) (hm.versions l v)
  entries k := wrote_ne (key_ne 't' 'a' rfl rfl (by decide)) (hm.entries k)
  chunks k := wrote_ne (key_ne 'l' 'a' rfl rfl (by decide)) (hm.chunks k)
  tiles k := wrote_ne (key_ne 'p' 'a' rfl rfl (by decide)) (hm.tiles k)
  order e := by
    rcases hr with rfl | hr
    · rfl
    · exact absurd e hr

theorem match_index (l : Bytes) (d : Option Bytes) :
    Match (wrote g (indexKey l) d) { m with indices := assign m.indices (hexBytes l) d } h where
  head := wrote_ne (key_ne 't' 'i' rfl rfl (by decide)) (hm.head)
  auditor := wrote_ne (key_ne 'a' 'i' rfl rfl (by decide)) (hm.auditor)
  indices l' := by simp only [wrote, indexKey_iff, assign, hexBytes_iff, hm.indices]
  versions l' v := wrote_ne (key_ne 'v' 'i' rfl rfl (by decide)) (hm.versions l' v)
  entries k := wrote_ne (key_ne 't' 'i' rfl rfl (by decide)) (hm.entries k)
  chunks k := wrote_ne (key_ne 'l' 'i' rfl rfl (by decide)) (hm.chunks k)
  tiles k := wrote_ne (key_ne 'p' 'i' rfl rfl (by decide)) (hm.tiles k)
  order := hm.order

theorem match_version (l : Bytes) (v : Nat) (d : Option Bytes) :
    Match (wrote g (versionKey l v) d) { m with versions := assign m.versions (memVersionKey l v) d } h where
  head := wrote_ne (key_ne 't' 'v' rfl rfl (by decide)) (hm.head)
  auditor := wrote_ne (key_ne 'a' 'v' rfl rfl (by decide)) (hm.auditor)
  indices l' := wrote_ne (key_ne 'i' 'v' rfl rfl (by decide)) (hm.indices l')
  versions l' v' := by simp only [wrote, versionKey_iff, assign, memVersionKey_iff, hm.versions]
  entries k := wrote_ne (key_ne 't' 'v' rfl rfl (by decide)) (hm.entries k)
  chunks k := wrote_ne (key_ne 'l' 'v' rfl rfl (by decide)) (hm.chunks k)
  tiles k := wrote_ne (key_ne 'p' 'v' rfl rfl (by decide)) (hm.tiles k)
  order := hm.order

theorem match_entry (k : Nat) (d : Option Bytes) : Match (wrote g (entryKey k) d) { m with entries := assign m.entries k d } h where
  head := by
    have : treeHeadKey ≠ entryKey k := fun e => decimal_head k _ (List.cons.inj e).2.symm
    simp only [wrote, if_neg this, hm.head]
  auditor := wrote_ne (key_ne 'a' 't' rfl rfl (by decide)) (hm.auditor)
  indices l' := wrote_ne (key_ne 'i' 't' rfl rfl (by decide)) (hm.indices l')
  versions l' v' := wrote_ne (key_ne 'v' 't' rfl rfl (by decide)) (hm.versions l' v')
  entries k' := by simp only [wrote, entryKey_iff, assign, hm.entries]
  chunks k := wrote_ne (key_ne 'l' 't' rfl rfl (by decide)) (hm.chunks k)
  tiles k := wrote_ne (key_ne 'p' 't' rfl rfl (by decide)) (hm.tiles k)
  order := hm.order

theorem match_chunk (k : Nat) (d : Option Bytes) : Match (wrote g (chunkKey k) d) { m with chunks := assign m.chunks k d } h where
  head := wrote_ne (key_ne 't' 'l' rfl rfl (by decide)) (hm.head)
  auditor := wrote_ne (key_ne 'a' 'l' rfl rfl (by decide)) (hm.auditor)
  indices l' := wrote_ne (key_ne 'i' 'l' rfl rfl (by decide)) (hm.indices l')
  versions l' v' := wrote_ne (key_ne 'v' 'l' rfl rfl (by decide)) (hm.versions l' v')
  entries k' := wrote_ne (key_ne 't' 'l' rfl rfl (by decide)) (hm.entries k')
  chunks k := by simp only [wrote, chunkKey_iff, assign, hm.chunks]
  tiles k := wrote_ne (key_ne 'p' 'l' rfl rfl (by decide)) (hm.tiles k)
  order := hm.order

theorem match_tile (k : Key) (d : Option Bytes) : Match (wrote g ('p' :: k) d) { m with tiles := assign m.tiles k d } h where
  head := wrote_ne (key_ne 't' 'p' rfl rfl (by decide)) (hm.head)
  auditor := wrote_ne (key_ne 'a' 'p' rfl rfl (by decide)) (hm.auditor)
  indices l' := wrote_ne (key_ne 'i' 'p' rfl rfl (by decide)) (hm.indices l')
  versions l' v' := wrote_ne (key_ne 'v' 'p' rfl rfl (by decide)) (hm.versions l' v')
  entries k' := wrote_ne (key_ne 't' 'p' rfl rfl (by decide)) (hm.entries k')
  chunks k := wrote_ne (key_ne 'l' 'p' rfl rfl (by decide)) (hm.chunks k)
  tiles k' := by simp [wrote, assign, ← hm.tiles]
  order := hm.order

end

/-- a connection that is not read-only performs a write -/
theorem write_ok (c : Conn) (hro : c.readonly = false) (key : Key) (v : Option Bytes) :
    ∃ c', c.write key v = (.done, c') ∧ c'.readonly = false ∧ c'.db = c.db ∧ (∀ k, c'.get k = wrote c.get key v k) ∧
      (∀ k, k ≠ key → c'.batch.lookup k = c.batch.lookup k) ∧ c'.batch.lookup key = some v := by
  have hp : c.put key v = .ok { c with batch := (key, v) :: c.batch.filter (fun e => e.1 ≠ key) } := by
    unfold Conn.put
    rw [if_neg (by simp [hro])]
    rfl
  refine ⟨{ c with batch := (key, v) :: c.batch.filter (fun e => e.1 ≠ key) }, by unfold Conn.write; rw [hp], hro, rfl, fun k => Conn.get_put hp k, fun k hk => ?_, by simp⟩
  have h1 : (k == key) = false := by simpa using hk
  simp only [List.lookup_cons, h1, lookup_filter_ne _ hk]

/-- the two stores after the same steps -/
structure Related (p : Phase) (l : LdbWorld) (w : MemWorld) (b : List (Key × Option Bytes)) (h : Heads) : Prop where
  count : l.handles.length = p.count ∧ w.handles.length = p.count
  main : l.handles[0]? = some (false, b) ∧ w.handles[0]? = some h
  same : Match (Conn.get ⟨l.db, false, b⟩) w.maps h
  clean : p.pending = false → ∀ k, l.db k = Conn.get ⟨l.db, false, b⟩ k
  quiet : p.fresh ≠ [] → p.pending = false
  fresh : ∀ i ∈ p.fresh, i ≠ 0 ∧ l.handles[i]? = some (true, []) ∧ w.handles[i]? = some h
  head : p.headPut = true → h.treeHead ≠ none
  batch : b.lookup treeHeadKey ≠ some none

theorem Related.pos {p : Phase} {l : LdbWorld} {w : MemWorld} {b : List (Key × Option Bytes)} {h : Heads} (hr : Related p l w b h) :
    0 < p.count := by
  have := (List.getElem?_eq_some_iff.1 hr.main.1).1
  have := hr.count.1
  omega

theorem ldb_step {l : LdbWorld} {i : Nat} {ro : Bool} {b : List (Key × Option Bytes)} (h : l.handles[i]? = some (ro, b)) {o : Call}
    {r : Reply} {c' : Conn} (hc : ldbCall o ⟨l.db, ro, b⟩ = (r, c')) :
    l.step (.call i o) = (some r, ⟨c'.db, l.handles.set i (c'.readonly, c'.batch)⟩) := by
  simp only [LdbWorld.step, h, hc]

theorem mem_step {w : MemWorld} {i : Nat} {h : Heads} (hh : w.handles[i]? = some h) {o : Call} {r : Reply} {m' : Maps} {h' : Heads}
    (hc : memCall o w.maps h = (r, m', h')) : w.step (.call i o) = (some r, ⟨m', w.handles.set i h'⟩) := by
  simp only [MemWorld.step, hh, hc]

theorem set_same {α : Type} {l : List α} {i : Nat} {a : α} (h : l[i]? = some a) : l.set i a = l := by
  obtain ⟨h1, h2⟩ := List.getElem?_eq_some_iff.1 h
  rw [← h2, List.set_getElem_self]

/-- a write by the original store -/
theorem write_related {p : Phase} {l : LdbWorld} {w : MemWorld} {b : List (Key × Option Bytes)} {h : Heads} (hr : Related p l w b h)
    {o : Call} {key : Key} {v : Option Bytes} {m' : Maps} {h' : Heads} (hl : ldbCall o ⟨l.db, false, b⟩ = Conn.write ⟨l.db, false, b⟩ key v)
    (hw : memCall o w.maps h = (.done, m', h')) (hmatch : Match (wrote (Conn.get ⟨l.db, false, b⟩) key v) m' h')
    {hp : Bool} (hhead : hp = true → h'.treeHead ≠ none) (hk : key = treeHeadKey → v ≠ none) :
    ∃ l' w' b', l.step (.call 0 o) = (some .done, l') ∧ w.step (.call 0 o) = (some .done, w') ∧
      Related { p with pending := true, fresh := [], headPut := hp } l' w' b' h' := by
  obtain ⟨c', h1, h2, h3, h4, h5, h6⟩ := write_ok ⟨l.db, false, b⟩ rfl key v
  rw [h1] at hl
  refine ⟨_, _, c'.batch, ldb_step hr.main.1 hl, mem_step hr.main.2 hw, ?_⟩
  have hpos := hr.pos
  have hget : Conn.get ⟨c'.db, false, c'.batch⟩ = wrote (Conn.get ⟨l.db, false, b⟩) key v := by
    funext k
    have : c' = ⟨c'.db, false, c'.batch⟩ := by rw [← h2]
    rw [← this, h4]
  refine ⟨by simpa using hr.count, ⟨?_, ?_⟩, ?_, fun e => absurd e (by simp), fun e => absurd rfl e, fun i hi => by simp at hi, hhead, ?_⟩
  · rw [List.getElem?_set_self (by have := hr.count.1; omega), h2]
  · rw [List.getElem?_set_self (by have := hr.count.2; omega)]
  · simp only
    rw [hget]
    exact hmatch
  · by_cases e : treeHeadKey = key
    · rw [e, h6]
      intro e'
      exact hk e.symm (Option.some.inj e')
    · rw [h5 _ e]
      exact hr.batch

/-- a refused write -/
theorem refused_related {p : Phase} {l : LdbWorld} {w : MemWorld} {b : List (Key × Option Bytes)} {h : Heads} (hr : Related p l w b h)
    {o : Call} (hl : ldbCall o ⟨l.db, false, b⟩ = (.failed, ⟨l.db, false, b⟩)) (hw : memCall o w.maps h = (.failed, w.maps, h)) :
    ∃ l' w' b', l.step (.call 0 o) = (some .failed, l') ∧ w.step (.call 0 o) = (some .failed, w') ∧
      Related { p with pending := true, fresh := [] } l' w' b' h := by
  have hpos := hr.pos
  refine ⟨_, _, b, ldb_step hr.main.1 hl, mem_step hr.main.2 hw,
    by simpa using hr.count, ⟨?_, ?_⟩, hr.same, fun e => absurd e (by simp), fun e => absurd rfl e, fun i hi => by simp at hi, hr.head, hr.batch⟩
  · rw [List.getElem?_set_self (by have := hr.count.1; omega)]
  · rw [List.getElem?_set_self (by have := hr.count.2; omega)]

theorem commit_related {p : Phase} {l : LdbWorld} {w : MemWorld} {b : List (Key × Option Bytes)} {h : Heads} (hr : Related p l w b h) :
    ∃ l' w' b', l.step (.call 0 .commit) = (some .done, l') ∧ w.step (.call 0 .commit) = (some .done, w') ∧
      Related { p with pending := false } l' w' b' h := by
  have hpos := hr.pos
  have hl : ldbCall .commit ⟨l.db, false, b⟩ = (.done, ⟨(Conn.writes ⟨l.db, false, b⟩).foldl (fun db w => w db) l.db, false, []⟩) := rfl
  refine ⟨_, _, [], ldb_step hr.main.1 hl, mem_step hr.main.2 rfl,
    by simpa using hr.count, ⟨?_, ?_⟩, ?_, fun _ k => rfl, fun _ => rfl, fun i hi => ?_, hr.head, by simp⟩
  · rw [List.getElem?_set_self (by have := hr.count.1; omega)]
  · rw [List.getElem?_set_self (by have := hr.count.2; omega)]
  · have : Conn.get ⟨(Conn.writes ⟨l.db, false, b⟩).foldl (fun db w => w db) l.db, false, []⟩ = Conn.get ⟨l.db, false, b⟩ :=
      funext (fun k => commit_get (c := ⟨l.db, false, b⟩) hr.batch k)
    simp only
    rw [this]
    exact hr.same
  · obtain ⟨h1, h2, h3⟩ := hr.fresh i hi
    simp only
    rw [List.getElem?_set_ne (by omega), List.getElem?_set_ne (by omega)]
    exact ⟨h1, h2, h3⟩

theorem read_related {p : Phase} {l : LdbWorld} {w : MemWorld} {b : List (Key × Option Bytes)} {h : Heads} (hr : Related p l w b h)
    {i : Nat} (hi : i = 0 ∨ i ∈ p.fresh) {o : Call} (ho : Reads o) :
    ∃ r, l.step (.call i o) = (some r, l) ∧ w.step (.call i o) = (some r, w) := by
  have key : ∀ (ro : Bool) (b' : List (Key × Option Bytes)), l.handles[i]? = some (ro, b') → w.handles[i]? = some h →
      (∀ k, Conn.get ⟨l.db, ro, b'⟩ k = Conn.get ⟨l.db, false, b⟩ k) → ∃ r, l.step (.call i o) = (some r, l) ∧ w.step (.call i o) = (some r, w) := by
    intro ro b' h1 h2 h3
    obtain ⟨r, e1, e2⟩ := read_same hr.same h3 ho
    refine ⟨r, ?_, ?_⟩
    · rw [ldb_step h1 e1, set_same h1]
    · rw [mem_step h2 e2, set_same h2]
  rcases hi with rfl | hi
  · exact key _ _ hr.main.1 hr.main.2 (fun _ => rfl)
  · obtain ⟨-, h2, h3⟩ := hr.fresh i hi
    refine key _ _ h2 h3 (fun k => ?_)
    exact hr.clean (hr.quiet (List.ne_nil_of_mem hi)) k

theorem call_related {p : Phase} {l : LdbWorld} {w : MemWorld} {b : List (Key × Option Bytes)} {h : Heads} (hr : Related p l w b h)
    {o : Call} (ho : ¬ Reads o) (hs : Sensible p o) :
    ∃ r l' w' b' h', l.step (.call 0 o) = (some r, l') ∧ w.step (.call 0 o) = (some r, w') ∧ Related (p.after o) l' w' b' h' := by
  have put : ∀ {key : Key} {v : Option Bytes} {m' : Maps} {h' : Heads}, ldbCall o ⟨l.db, false, b⟩ = Conn.write ⟨l.db, false, b⟩ key v →
      memCall o w.maps h = (.done, m', h') → Match (wrote (Conn.get ⟨l.db, false, b⟩) key v) m' h' → ((p.after o).headPut = true → h'.treeHead ≠ none) →
      (key = treeHeadKey → v ≠ none) → p.after o = { p with pending := true, fresh := [], headPut := (p.after o).headPut } →
      ∃ r l' w' b' h', l.step (.call 0 o) = (some r, l') ∧ w.step (.call 0 o) = (some r, w') ∧ Related (p.after o) l' w' b' h' := by
    intro key v m' h' h1 h2 h3 h4 h5 h6
    obtain ⟨l', w', b', e1, e2, e3⟩ := write_related hr h1 h2 h3 h4 h5
    exact ⟨_, l', w', b', h', e1, e2, by rw [h6]; exact e3⟩
  have refuse : ldbCall o ⟨l.db, false, b⟩ = (.failed, ⟨l.db, false, b⟩) → memCall o w.maps h = (.failed, w.maps, h) →
      p.after o = { p with pending := true, fresh := [] } →
      ∃ r l' w' b' h', l.step (.call 0 o) = (some r, l') ∧ w.step (.call 0 o) = (some r, w') ∧ Related (p.after o) l' w' b' h' := by
    intro h1 h2 h3
    obtain ⟨l', w', b', e1, e2, e3⟩ := refused_related hr h1 h2
    exact ⟨_, l', w', b', h, e1, e2, by rw [h3]; exact e3⟩
  have hent : ∀ k, entryKey k ≠ treeHeadKey := fun k e => decimal_head k _ (List.cons.inj e).2
  cases o with
  | getTreeHead | getIndexes _ | getVersion _ _ | getEntries _ | getChunks _ | getTiles _ => exact absurd trivial ho
  | putTreeHead raw => exact put rfl rfl (match_head hr.same hs) (fun _ => hs) (fun _ => hs) rfl
  | putAuditorTreeHead raw =>
    exact put rfl rfl (match_auditor hr.same (hs.imp id hr.head)) hr.head (fun e => absurd e (key_ne 'a' 't' rfl rfl (by decide))) rfl
  | putIndex l d =>
    cases d with
    | none => exact refuse rfl rfl rfl
    | some d => exact put rfl rfl (match_index hr.same l _) hr.head (fun e => absurd e (indexKey_ne_head l)) rfl
  | deleteIndex l => exact put rfl rfl (match_index hr.same l _) hr.head (fun e => absurd e (indexKey_ne_head l)) rfl
  | putVersion l v d =>
    cases d with
    | none => exact refuse rfl rfl rfl
    | some d => exact put rfl rfl (match_version hr.same l v _) hr.head (fun e => absurd e (key_ne 'v' 't' rfl rfl (by decide))) rfl
  | deleteVersion l v => exact put rfl rfl (match_version hr.same l v _) hr.head (fun e => absurd e (key_ne 'v' 't' rfl rfl (by decide))) rfl
  | putEntry k d =>
    cases d with
    | none => exact refuse rfl rfl rfl
    | some d => exact put rfl rfl (match_entry hr.same k _) hr.head (fun e => absurd e (hent k)) rfl
  | deleteEntry k => exact put rfl rfl (match_entry hr.same k _) hr.head (fun e => absurd e (hent k)) rfl
  | putChunk k d =>
    cases d with
    | none => exact refuse rfl rfl rfl
    | some d => exact put rfl rfl (match_chunk hr.same k _) hr.head (fun e => absurd e (key_ne 'l' 't' rfl rfl (by decide))) rfl
  | deleteChunk k => exact put rfl rfl (match_chunk hr.same k _) hr.head (fun e => absurd e (key_ne 'l' 't' rfl rfl (by decide))) rfl
  | putTile k d =>
    cases d with
    | none => exact refuse rfl rfl rfl
    | some d => exact put rfl rfl (match_tile hr.same k _) hr.head (fun e => absurd e (key_ne 'p' 't' rfl rfl (by decide))) rfl
  | deleteTile k => exact put rfl rfl (match_tile hr.same k _) hr.head (fun e => absurd e (key_ne 'p' 't' rfl rfl (by decide))) rfl
  | commit =>
    obtain ⟨l', w', b', e1, e2, e3⟩ := commit_related hr
    exact ⟨_, l', w', b', h, e1, e2, e3⟩

theorem replies_same : ∀ (ss : List Step) {p : Phase} {l : LdbWorld} {w : MemWorld} {b : List (Key × Option Bytes)} {h : Heads},
    Related p l w b h → Disciplined p ss → l.replies ss = w.replies ss
  | [], _, _, _, _, _, _, _ => rfl
  | .clone i :: ss, p, l, w, b, h, hr, hd => by
    obtain ⟨hi, hd⟩ := hd
    have hmem : w.handles[i]? = some h := by
      rcases hi with rfl | hi
      · exact hr.main.2
      · exact (hr.fresh i hi).2.2
    have hldb : ∃ x, l.handles[i]? = some x := by
      rcases hi with rfl | hi
      · exact ⟨_, hr.main.1⟩
      · exact ⟨_, (hr.fresh i hi).2.1⟩
    obtain ⟨x, hx⟩ := hldb
    simp only [LdbWorld.replies, MemWorld.replies, LdbWorld.step, MemWorld.step, hx, hmem]
    congr 1
    refine replies_same ss (b := b) (h := h) ?_ hd
    have old : ∀ j (y : Bool × List (Key × Option Bytes)), l.handles[j]? = some y → (l.handles ++ [(true, [])])[j]? = some y := fun j y hj => by
      rw [List.getElem?_append_left (List.getElem?_eq_some_iff.1 hj).1]; exact hj
    have old' : ∀ j (y : Heads), w.handles[j]? = some y → (w.handles ++ [h])[j]? = some y := fun j y hj => by
      rw [List.getElem?_append_left (List.getElem?_eq_some_iff.1 hj).1]; exact hj
    refine ⟨by simpa using hr.count, ⟨old _ _ hr.main.1, old' _ _ hr.main.2⟩, hr.same, hr.clean, ?_, ?_, hr.head, hr.batch⟩
    · simp only
      intro hne
      by_cases hp : p.pending = true
      · rw [if_pos hp] at hne
        exact hr.quiet hne
      · simpa using hp
    · simp only
      intro j hj
      by_cases hp : p.pending = true
      · rw [if_pos hp] at hj
        obtain ⟨h1, h2, h3⟩ := hr.fresh j hj
        exact ⟨h1, old _ _ h2, old' _ _ h3⟩
      · rw [if_neg hp] at hj
        rcases List.mem_cons.1 hj with rfl | hj
        · refine ⟨by have := hr.pos; omega, ?_, ?_⟩
          · rw [← hr.count.1]; simp
          · rw [← hr.count.2]; simp
        · obtain ⟨h1, h2, h3⟩ := hr.fresh j hj
          exact ⟨h1, old _ _ h2, old' _ _ h3⟩
  | .call i o :: ss, p, l, w, b, h, hr, hd => by
    rcases hd with ⟨h1, h2, h3⟩ | ⟨h1, rfl, h2, h3⟩
    · obtain ⟨r, e1, e2⟩ := read_related hr h2 h1
      simp only [LdbWorld.replies, MemWorld.replies, e1, e2]
      rw [replies_same ss hr h3]
    · obtain ⟨r, l', w', b', h', e1, e2, e3⟩ := call_related hr h1 h2
      simp only [LdbWorld.replies, MemWorld.replies, e1, e2]
      rw [replies_same ss e3 h3]

/-- **C88**, for uses in which clones are only read, and only until the next write: both implementations give the same
replies to any sequence of calls. -/
theorem C88_same_partial (ss : List Step) (h : Disciplined {} ss) : LdbWorld.replies {} ss = MemWorld.replies {} ss := by
  refine replies_same ss (b := []) (h := {}) ?_ h
  exact ⟨⟨rfl, rfl⟩, ⟨rfl, rfl⟩, ⟨rfl, rfl, fun _ => rfl, fun _ _ => rfl, fun _ => rfl, fun _ => rfl, fun _ => rfl, fun _ => rfl⟩,
    fun _ _ => rfl, fun e => absurd rfl e, fun i hi => by simp at hi, fun e => by simp at e, by simp⟩

/-- a writer stores a head, an index and a version, and commits; a clone reads them -/
example : Disciplined {} [.call 0 (.putIndex [1] (some [7])), .call 0 (.putVersion [1] 0 (some [8])), .call 0 (.putTreeHead (some [9])),
    .call 0 .commit, .clone 0, .call 1 .getTreeHead, .call 1 (.getIndexes [[1], [2]]), .call 0 (.putIndex [1] none)] := by
  simp [Disciplined, Reads, Sensible, Phase.after]

example : MemWorld.replies {} [.call 0 (.putIndex [1] (some [7])), .call 0 (.putVersion [1] 0 (some [8])), .call 0 (.putTreeHead (some [9])),
    .call 0 .commit, .clone 0, .call 1 .getTreeHead, .call 1 (.getIndexes [[1], [2]]), .call 0 (.putIndex [1] none)] =
    [some .done, some .done, some .done, some .done, some .done, some (.heads (some [9]) none), some (.raws [some [7], none]), some .failed] := by
  decide

/-! ### clones -/

/-- **C88 is false**: a clone can be written to, and the original sees it.  (LevelDB: the write panics.) -/
theorem C88_clone_writable (l d : Bytes) (w : MemWorld) (h : Heads) (hw : w.handles = [h]) :
    w.replies [.clone 0, .call 1 (.putIndex l (some d)), .call 0 (.getIndexes [l])] = [some .done, some .done, some (.raws [some d])] ∧
    ∀ v : LdbWorld, v.handles.length = 1 →
      v.replies [.clone 0, .call 1 (.putIndex l (some d)), .call 0 (.getIndexes [l])] ≠ [some .done, some .done, some (.raws [some d])] := by
  constructor
  · simp [MemWorld.replies, MemWorld.step, hw, memCall, assign]
  · intro v hv hc
    obtain ⟨x, hx⟩ := List.length_eq_one_iff.1 hv
    simp [LdbWorld.replies, LdbWorld.step, hx, ldbCall, Conn.write, Conn.put, goPanic] at hc

/-- **C88 is false**: a clone sees what is not committed.  (LevelDB: it sees what was there before.) -/
theorem C88_uncommitted_visible (l d : Bytes) (w : MemWorld) (h : Heads) (hw : w.handles = [h]) :
    w.replies [.clone 0, .call 0 (.putIndex l (some d)), .call 1 (.getIndexes [l])] = [some .done, some .done, some (.raws [some d])] ∧
    ∀ v : LdbWorld, v.handles = [(false, [])] →
      v.replies [.clone 0, .call 0 (.putIndex l (some d)), .call 1 (.getIndexes [l])] = [some .done, some .done, some (.raws [v.db (indexKey l)])] := by
  constructor
  · simp [MemWorld.replies, MemWorld.step, hw, memCall, assign]
  · intro v hv
    simp [LdbWorld.replies, LdbWorld.step, hv, ldbCall, Conn.write, Conn.put, Conn.get]

/-- **C88 is false**: a clone never sees a new tree head, also when it is committed.  (LevelDB: it does.  `updater.reloadTree`
relies on it.) -/
theorem C88_stale_head (th : Bytes) (w : MemWorld) (h : Heads) (hw : w.handles = [h]) :
    w.replies [.clone 0, .call 0 (.putTreeHead (some th)), .call 0 .commit, .call 1 .getTreeHead] =
      [some .done, some .done, some .done, some (.heads h.treeHead h.auditor)] ∧
    ∀ v : LdbWorld, v.handles = [(false, [])] →
      v.replies [.clone 0, .call 0 (.putTreeHead (some th)), .call 0 .commit, .call 1 .getTreeHead] =
        [some .done, some .done, some .done, some (.heads (some th) (v.db auditorKey))] := by
  constructor
  · simp [MemWorld.replies, MemWorld.step, hw, memCall]
  · intro v hv
    obtain ⟨c', h1, h2, h3, h4, h5, h6⟩ := write_ok ⟨v.db, false, []⟩ rfl treeHeadKey (some th)
    have hget := fun k => commit_get (c := c') (by rw [h6]; simp) k
    have hcommit : ldbCall .commit ⟨c'.db, false, c'.batch⟩ = (.done, ⟨c'.writes.foldl (fun db w => w db) c'.db, false, []⟩) := by
      rw [← h2]
      unfold ldbCall Conn.commit
      rw [h2]
      rfl
    have hread : ldbCall .getTreeHead ⟨c'.writes.foldl (fun db w => w db) c'.db, true, []⟩ =
        (.heads (some th) (v.db auditorKey), ⟨c'.writes.foldl (fun db w => w db) c'.db, true, []⟩) := by
      have e : ∀ k, Conn.get ⟨c'.writes.foldl (fun db w => w db) c'.db, true, []⟩ k = wrote (Conn.get ⟨v.db, false, []⟩) treeHeadKey (some th) k :=
        fun k => (hget k).trans (h4 k)
      unfold ldbCall
      rw [e, e, wrote, if_pos rfl, wrote_ne (key_ne 'a' 't' rfl rfl (by decide)) rfl]
      rfl
    have s1 : v.step (.clone 0) = (some .done, ⟨v.db, [(false, []), (true, [])]⟩) := by simp only [LdbWorld.step, hv]; rfl
    have s2 : LdbWorld.step ⟨v.db, [(false, []), (true, [])]⟩ (.call 0 (.putTreeHead (some th))) =
        (some .done, ⟨c'.db, [(false, c'.batch), (true, [])]⟩) := by
      rw [ldb_step (l := ⟨v.db, [(false, []), (true, [])]⟩) (i := 0) (o := .putTreeHead (some th)) (ro := false) (b := []) rfl
        (c' := c') (r := .done) h1, h2]
      rfl
    have s3 : LdbWorld.step ⟨c'.db, [(false, c'.batch), (true, [])]⟩ (.call 0 .commit) =
        (some .done, ⟨c'.writes.foldl (fun db w => w db) c'.db, [(false, []), (true, [])]⟩) := by
      rw [ldb_step (i := 0) rfl hcommit]; rfl
    have s4 := ldb_step (l := ⟨c'.writes.foldl (fun db w => w db) c'.db, [(false, []), (true, [])]⟩) (i := 1) rfl hread
    simp only [LdbWorld.replies, s1, s2, s3, s4]

/-- **C88 is false** without a tree head: LevelDB does not return the head of the auditor. -/
theorem C88_auditor_only :
    MemWorld.replies {} [.call 0 (.putAuditorTreeHead (some [1])), .call 0 .getTreeHead] = [some .done, some (.heads none (some [1]))] ∧
    LdbWorld.replies {} [.call 0 (.putAuditorTreeHead (some [1])), .call 0 .getTreeHead] = [some .done, some (.heads none none)] := by
  decide +kernel

/-- **C88 is false** for a tree head that is nil: after a commit LevelDB returns an empty one. -/
theorem C88_nil_head :
    MemWorld.replies {} [.call 0 (.putTreeHead none), .call 0 .commit, .call 0 .getTreeHead] = [some .done, some .done, some (.heads none none)] ∧
    LdbWorld.replies {} [.call 0 (.putTreeHead none), .call 0 .commit, .call 0 .getTreeHead] = [some .done, some .done, some (.heads (some []) none)] := by
  decide +kernel

end Katie.Props
