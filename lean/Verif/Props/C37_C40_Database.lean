import Verif.Spec.DB
import Verif.Lemmas.Uvarint
import Verif.Lemmas.Codec

/-
C37 (label index encoding), C38 (crash during commit), C39 (database keys), C40 (uncommitted writes).
-/

namespace Katie.Props
open Katie Katie.DB Katie.DBSpec

/-! ### C39 -/

theorem digitChar_inj : ∀ a < 16, ∀ b < 16, Nat.digitChar a = Nat.digitChar b → a = b := by decide

theorem toDigits_inj {b : Nat} (hb : 1 < b) (hb' : b ≤ 16) : ∀ (n m : Nat), Nat.toDigits b n = Nat.toDigits b m → n = m := by
  intro n
  induction n using Nat.strongRecOn with
  | _ n ih =>
    intro m h
    rw [Nat.toDigits_eq_if hb, Nat.toDigits_eq_if hb (n := m)] at h
    split at h
    · next hn =>
      split at h
      · next hm => exact digitChar_inj n (by omega) m (by omega) (by simpa using h)
      · next hm =>
        have := congrArg List.length h
        have hl := @Nat.length_toDigits_pos b (m / b)
        simp only [List.length_append, List.length_singleton] at this
        omega
    · next hn =>
      split at h
      · next hm =>
        have := congrArg List.length h
        have hl := @Nat.length_toDigits_pos b (n / b)
        simp only [List.length_append, List.length_singleton] at this
        omega
      · next hm =>
        obtain ⟨h1, h2⟩ := List.append_inj' h rfl
        have hd := ih (n / b) (Nat.div_lt_self (by omega) hb) (m / b) h1
        have hr := digitChar_inj (n % b) (by have := Nat.mod_lt n (by omega : b > 0); omega) (m % b)
          (by have := Nat.mod_lt m (by omega : b > 0); omega) (by simpa using h2)
        rw [← Nat.div_add_mod n b, ← Nat.div_add_mod m b, hd, hr]

theorem hexBytes_inj : ∀ (a b : Bytes), hexBytes a = hexBytes b → a = b
  | [], [], _ => rfl
  | [], _ :: _, h => by simp [hexBytes] at h
  | _ :: _, [], h => by simp [hexBytes] at h
  | x :: a, y :: b, h => by
    simp only [hexBytes, List.cons.injEq] at h
    obtain ⟨h1, h2, h3⟩ := h
    have hx := x.toNat_lt
    have hy := y.toNat_lt
    have e1 := digitChar_inj _ (by omega) _ (by omega) h1
    have e2 := digitChar_inj _ (by omega) _ (by omega) h2
    have : x = y := UInt8.toNat_inj.1 (by omega)
    rw [this, hexBytes_inj a b h3]

theorem digitChar_ne_colon : ∀ a < 16, Nat.digitChar a ≠ ':' := by decide

theorem colon_not_mem_hexBytes : ∀ (a : Bytes), ':' ∉ hexBytes a
  | [] => by simp [hexBytes]
  | x :: a => by
    have hx := x.toNat_lt
    simp only [hexBytes, List.mem_cons, not_or]
    exact ⟨(digitChar_ne_colon _ (by omega)).symm, (digitChar_ne_colon _ (by omega)).symm, colon_not_mem_hexBytes a⟩

theorem colon_not_mem_toDigits {b : Nat} (hb : 1 < b) (hb' : b ≤ 16) (n : Nat) : ':' ∉ Nat.toDigits b n := by
  induction n using Nat.strongRecOn with
  | _ n ih =>
    rw [Nat.toDigits_eq_if hb]
    split
    · simp only [List.mem_singleton]; exact (digitChar_ne_colon _ (by omega)).symm
    · simp only [List.mem_append, List.mem_singleton, not_or]
      exact ⟨ih _ (Nat.div_lt_self (by omega) hb),
        (digitChar_ne_colon _ (by have := Nat.mod_lt n (by omega : b > 0); omega)).symm⟩

theorem split_colon {a b c d : List Char} (ha : ':' ∉ a) (hc : ':' ∉ c) (h : a ++ ':' :: b = c ++ ':' :: d) :
    a = c ∧ b = d := by
  induction a generalizing c with
  | nil =>
    cases c with
    | nil => simpa using h
    | cons y c => simp only [List.nil_append, List.cons_append, List.cons.injEq] at h; simp [← h.1] at hc
  | cons x a ih =>
    cases c with
    | nil => simp only [List.nil_append, List.cons_append, List.cons.injEq] at h; simp [h.1] at ha
    | cons y c =>
      simp only [List.cons_append, List.cons.injEq, List.mem_cons, not_or] at h ha hc
      obtain ⟨e1, e2⟩ := ih ha.2 hc.2 h.2
      exact ⟨by rw [h.1, e1], e2⟩

theorem decimal_head (n : Nat) (l : List Char) : decimal n ≠ 'r' :: l := by
  intro h
  have : 'r' ∈ decimal n := by rw [h]; exact List.mem_cons_self
  have := Nat.isDigit_of_mem_toDigits (by omega) (by omega) this
  exact absurd this (by decide)

/-- **C39** Different records are stored under different keys: tree head, auditor's tree head, the index of each
label, the value of each version of each label, each log entry, each chunk of the log tree and each tile of the
prefix tree. -/
theorem C39_keys_distinct (r s : Record) (h : r.key = s.key) : r = s := by
  have hx := @hexBytes_inj
  have hd : ∀ {n m : Nat}, decimal n = decimal m → n = m := fun h => toDigits_inj (by omega) (by omega) _ _ h
  have hh : ∀ {n m : Nat}, Prefix.hexDigits n = Prefix.hexDigits m → n = m :=
    fun h => toDigits_inj (by omega) (by omega) _ _ h
  have t1 : treeHeadKey = 't' :: 'r' :: "ee-head".toList := by decide
  have t2 : auditorKey = 'a' :: "uditor-tree-head".toList := by decide
  cases r <;> cases s <;>
    simp only [Record.key, t1, t2, indexKey, versionKey, entryKey, chunkKey, tileKey, List.cons.injEq] at h
  all_goals first
    | rfl
    | exact absurd h.1 (by decide)
    | skip
  · exact absurd h.2.symm (decimal_head _ _)
  · rw [hx _ _ h.2]
  · obtain ⟨h1, h2⟩ := split_colon (colon_not_mem_hexBytes _) (colon_not_mem_hexBytes _) h.2
    rw [hx _ _ h1, hh h2]
  · exact absurd h.2 (decimal_head _ _)
  · rw [hd h.2]
  · rw [hd h.2]
  · next a b =>
    obtain ⟨a1, a2⟩ := a
    obtain ⟨b1, b2⟩ := b
    obtain ⟨h1, h2⟩ := split_colon (colon_not_mem_toDigits (by omega) (by omega) _)
      (colon_not_mem_toDigits (by omega) (by omega) _) h.2
    have e1 : a1 = b1 := hh h1
    have e2 : a2 = b2 := hh h2
    rw [e1, e2]

theorem indexKey_ne_head (l : Bytes) : indexKey l ≠ treeHeadKey := fun h => by
  have := C39_keys_distinct (.index l) .treeHead h
  cases this

example : (Record.version [1, 0xab] 255).key = "v01ab:ff".toList := by decide +kernel
example : (Record.logEntry 17).key = "t17".toList := by decide +kernel

/-! ### C40 -/

theorem lookup_filter_ne {k key : Key} (l : List (Key × Option Bytes)) (h : k ≠ key) :
    (l.filter (fun e => decide (e.1 ≠ key))).lookup k = l.lookup k := by
  induction l with
  | nil => rfl
  | cons e l ih =>
    by_cases he : e.1 = key
    · rw [List.filter_cons_of_neg (by simp [he]), ih, List.lookup_cons]
      have : (k == e.1) = false := by simpa [he] using h
      rw [this]
    · rw [List.filter_cons_of_pos (by simp [he]), List.lookup_cons, List.lookup_cons, ih]

theorem Conn.get_put {c c' : Conn} {key : Key} {v : Option Bytes} (h : c.put key v = .ok c') (k : Key) :
    c'.get k = if k = key then v else c.get k := by
  unfold Conn.put at h
  split at h
  · cases h
  · cases h
    unfold Conn.get
    by_cases hk : k = key
    · subst hk
      simp
    · have h1 : (k == key) = false := by simpa using hk
      simp only [List.lookup_cons, h1, lookup_filter_ne _ hk, if_neg hk]

/-- the tree head is never deleted -/
def KeepsHead (ops : List Op) : Prop := ∀ v, Op.put treeHeadKey v ∈ ops → v ≠ none

theorem commit_get {c : Conn} (hhead : c.batch.lookup treeHeadKey ≠ some none) (k : Key) :
    c.writes.foldl (fun db w => w db) c.db k = c.get k := by
  unfold Conn.writes Conn.get
  by_cases hk : k = treeHeadKey
  · subst hk
    split
    · next value hv =>
      have : value ≠ none := by rintro rfl; exact hhead hv
      obtain ⟨w, rfl⟩ := Option.ne_none_iff_exists'.1 this
      simp [writeHead]
    · next hv => simp [writeBatch]
  · split
    · next value hv =>
      simp only [List.foldl_cons, List.foldl_nil, writeHead, writeBatch, if_neg hk]
    · next hv =>
      simp only [List.foldl_cons, List.foldl_nil, writeBatch, if_neg hk]

theorem commit_get_ne {c : Conn} {k : Key} (hk : k ≠ treeHeadKey) :
    c.writes.foldl (fun db w => w db) c.db k = c.get k := by
  unfold Conn.writes Conn.get
  split
  · simp only [List.foldl_cons, List.foldl_nil, writeHead, writeBatch, if_neg hk]
  · simp only [List.foldl_cons, List.foldl_nil, writeBatch, if_neg hk]

/-- **C40** A writer opened on any database performs any sequence of writes (of values, or nil for a deletion) and
commits.  At any point a read by the writer returns what it wrote last, or the stored value; a read-only clone sees
the values as of the last commit and nothing else. -/
theorem C40_read_your_writes (db : KV) (ops : List Op) (hhead : KeepsHead ops) :
    ∃ c, perform (newConn db false) ops = .ok c ∧
      (∀ k, c.get k = (ops.foldl Views.step ⟨db, db⟩).writer k) ∧
      (∀ k, c.clone.get k = (ops.foldl Views.step ⟨db, db⟩).everybody k) := by
  suffices H : ∀ (ops : List Op) (c : Conn) (v : Views), KeepsHead ops → c.readonly = false →
      c.batch.lookup treeHeadKey ≠ some none → (∀ k, c.get k = v.writer k) → (∀ k, c.db k = v.everybody k) →
      ∃ c', perform c ops = .ok c' ∧ (∀ k, c'.get k = (ops.foldl Views.step v).writer k) ∧
        (∀ k, c'.clone.get k = (ops.foldl Views.step v).everybody k) by
    exact H ops (newConn db false) ⟨db, db⟩ hhead rfl (by simp [newConn]) (fun k => rfl) (fun k => rfl)
  intro ops
  induction ops with
  | nil => intro c v _ _ _ h1 h2; exact ⟨c, rfl, h1, h2⟩
  | cons op ops ih =>
    intro c v hk hro hhd h1 h2
    have hk' : KeepsHead ops := fun v hv => hk v (List.mem_cons_of_mem _ hv)
    cases op with
    | put key value =>
      have hput : c.put key value = .ok { c with batch := (key, value) :: c.batch.filter (fun e => e.1 ≠ key) } := by
        unfold Conn.put
        rw [hro]
        rfl
      obtain ⟨c', e1, e2, e3⟩ := ih { c with batch := (key, value) :: c.batch.filter (fun e => e.1 ≠ key) }
        (v.step (.put key value)) hk' hro (by
          by_cases he : key = treeHeadKey
          · subst he
            simp only [List.lookup_cons_self, ne_eq, Option.some.injEq]
            exact hk value List.mem_cons_self
          · have : (treeHeadKey == key) = false := by simpa using fun h => he h.symm
            simp only [List.lookup_cons, this]
            rw [lookup_filter_ne _ (fun h => he h.symm)]
            exact hhd) (by
          intro k
          rw [Conn.get_put hput, h1]; rfl) h2
      exact ⟨c', by rw [perform, hput]; exact e1, e2, e3⟩
    | commit =>
      have hcom : c.commit = .ok { c with db := c.writes.foldl (fun db w => w db) c.db, batch := [] } := by
        unfold Conn.commit
        rw [hro]
        rfl
      obtain ⟨c', e1, e2, e3⟩ := ih { c with db := c.writes.foldl (fun db w => w db) c.db, batch := [] }
        (v.step .commit) hk' hro (by simp) (by
          intro k
          change c.writes.foldl (fun db w => w db) c.db k = v.writer k
          rw [commit_get hhd, h1]) (by
          intro k
          change c.writes.foldl (fun db w => w db) c.db k = v.writer k
          rw [commit_get hhd, h1])
      exact ⟨c', by rw [perform, hcom]; exact e1, e2, e3⟩

/-- writing through a read-only connection panics -/
theorem C40_readonly (db : KV) (k : Key) (v : Option Bytes) : Panics ((newConn db true).put k v) := ⟨_, rfl⟩

/-- A nil tree head is the one exception: it is not found before the commit, and is an empty value afterwards.  (The
server never writes it.) -/
theorem C40_nil_tree_head : ∃ c c', (newConn (fun _ => none) false).put treeHeadKey none = .ok c ∧
    c.get treeHeadKey = none ∧ c.commit = .ok c' ∧ c'.get treeHeadKey = some [] :=
  ⟨_, _, rfl, rfl, rfl, rfl⟩

example : KeepsHead [.put (entryKey 3) (some [1]), .put (entryKey 3) none, .put treeHeadKey (some [7]), .commit] := by
  intro v hv
  simp only [List.mem_cons, Op.put.injEq, reduceCtorEq, List.not_mem_nil, or_false] at hv
  have hne : treeHeadKey ≠ entryKey 3 := by decide +kernel
  rcases hv with ⟨h, _⟩ | ⟨h, _⟩ | ⟨_, h⟩
  · exact absurd h hne
  · exact absurd h hne
  · simp [h]

/-! ### C37 -/

theorem readIndexLoop_enc : ∀ (l : List Nat) (fuel : Nat), (∀ x ∈ l, x < 2 ^ 64) →
    ((l.map encodeUvarint).flatten).length < fuel → readIndexLoop fuel (l.map encodeUvarint).flatten = .ok l
  | [], 0, _, h => by simp at h
  | [], fuel + 1, _, _ => rfl
  | x :: l, 0, _, h => by simp at h
  | x :: l, fuel + 1, hx, h => by
    have hr := readUvarint_enc x (hx x List.mem_cons_self) (l.map encodeUvarint).flatten
    have hne : ∃ b bs, encodeUvarint x = b :: bs := by
      unfold encodeUvarint uvarintAux
      split
      · exact ⟨_, _, rfl⟩
      · exact ⟨_, _, rfl⟩
    obtain ⟨b, bs, hb⟩ := hne
    have ih := readIndexLoop_enc l fuel (fun y hy => hx y (List.mem_cons_of_mem _ hy)) (by
      simp only [List.map_cons, List.flatten_cons, List.length_append, hb, List.length_cons] at h
      omega)
    simp only [List.map_cons, List.flatten_cons]
    rw [hb] at hr ⊢
    simp only [List.cons_append] at hr ⊢
    rw [readIndexLoop, hr]
    simp only [G.ok_bind]
    rw [ih]
    rfl

theorem differences_ok : ∀ (l : List Nat) (prev : Nat), (prev :: l).Pairwise (· ≤ ·) → (∀ x ∈ l, x < 2 ^ 64) →
    ∃ ds, differences prev l = .ok ds ∧ prefixSums prev ds = l ∧ ∀ d ∈ ds, d < 2 ^ 64
  | [], _, _, _ => ⟨[], rfl, rfl, by simp⟩
  | x :: l, prev, hp, hx => by
    have h1 : prev ≤ x := (List.pairwise_cons.1 hp).1 x List.mem_cons_self
    obtain ⟨ds, h2, h3, h4⟩ := differences_ok l x (List.pairwise_cons.1 hp).2 (fun y hy => hx y (List.mem_cons_of_mem _ hy))
    have hxx := hx x List.mem_cons_self
    refine ⟨(x - prev) :: ds, ?_, ?_, ?_⟩
    · rw [differences, if_neg (by omega), h2]; rfl
    · have : (x - prev + prev) % 2 ^ 64 = x := by rw [Nat.sub_add_cancel h1]; exact Nat.mod_eq_of_lt hxx
      simp only [prefixSums, this, h3]
    · intro d hd
      rcases List.mem_cons.1 hd with rfl | hd
      · omega
      · exact h4 d hd

theorem decodeIndex_encodeIndex {index : List Nat} (hne : index ≠ []) (hsorted : index.Pairwise (· ≤ ·))
    (h64 : ∀ x ∈ index, x < 2 ^ 64) : ∃ raw, encodeIndex index = .ok (some raw) ∧ decodeIndex raw = .ok index := by
  obtain ⟨x, l, rfl⟩ := List.exists_cons_of_ne_nil hne
  obtain ⟨ds, h1, h2, h3⟩ := differences_ok l x hsorted (fun y hy => h64 y (List.mem_cons_of_mem _ hy))
  have hx := h64 x List.mem_cons_self
  refine ⟨((x :: ds).map encodeUvarint).flatten, ?_, ?_⟩
  · rw [encodeIndex, h1]; rfl
  · unfold decodeIndex
    rw [readIndexLoop_enc (x :: ds) _ (by
      intro y hy
      rcases List.mem_cons.1 hy with rfl | hy
      · exact hx
      · exact h3 y hy) (Nat.lt_succ_self _)]
    simp only [G.ok_bind, h2]
    rfl

/-- **C37** Whatever non-empty list of 64-bit log positions in non-decreasing order is stored as the index of a
label is read back unchanged, before and after the commit, and the indices of other labels are not touched. -/
theorem C37_index_round_trip (c : Conn) (hc : c.readonly = false) (label : Bytes) (index : List Nat)
    (hne : index ≠ []) (hsorted : index.Pairwise (· ≤ ·)) (h64 : ∀ x ∈ index, x < 2 ^ 64) :
    ∃ c' c'', putIndex c label index = .ok c' ∧ getIndex c' label = .ok index ∧
      c'.commit = .ok c'' ∧ getIndex c'' label = .ok index ∧
      ∀ other, other ≠ label → getIndex c' other = getIndex c other ∧ getIndex c'' other = getIndex c other := by
  obtain ⟨raw, henc, hdec⟩ := decodeIndex_encodeIndex hne hsorted h64
  have hput : ∃ c', c.put (indexKey label) (some raw) = .ok c' ∧ c'.readonly = false := by
    refine ⟨{ c with batch := (indexKey label, some raw) :: c.batch.filter (fun e => e.1 ≠ indexKey label) }, ?_, hc⟩
    unfold Conn.put
    rw [hc]
    rfl
  obtain ⟨c', hp, hro⟩ := hput
  have hcom : c'.commit = .ok { c' with db := c'.writes.foldl (fun db w => w db) c'.db, batch := [] } := by
    unfold Conn.commit
    rw [hro]
    rfl
  have hget := Conn.get_put hp
  have hget' : ∀ l, ({ c' with db := c'.writes.foldl (fun db w => w db) c'.db, batch := [] } : Conn).get (indexKey l) =
      c'.get (indexKey l) := fun l => commit_get_ne (c := c') (indexKey_ne_head l)
  have hother : ∀ other, other ≠ label → indexKey other ≠ indexKey label := by
    intro other ho h
    have := C39_keys_distinct (.index other) (.index label) h
    cases this
    exact ho rfl
  refine ⟨c', _, ?_, ?_, hcom, ?_, ?_⟩
  · unfold putIndex
    rw [henc]
    exact hp
  · unfold getIndex
    rw [hget, if_pos rfl]
    exact hdec
  · unfold getIndex
    rw [hget', hget, if_pos rfl]
    exact hdec
  · intro other ho
    unfold getIndex
    rw [hget', hget, if_neg (hother other ho)]
    exact ⟨rfl, rfl⟩

/-- A list of positions that decreases somewhere is refused. -/
theorem C37_decreasing_refused (c : Conn) (label : Bytes) (index : List Nat) (h : ¬ index.Pairwise (· ≤ ·)) :
    Errs (putIndex c label index) := by
  have key : ∀ (l : List Nat) (prev : Nat), ¬ (prev :: l).Pairwise (· ≤ ·) → Errs (differences prev l) := by
    intro l
    induction l with
    | nil => intro prev h; simp at h
    | cons x l ih =>
      intro prev h
      unfold differences
      split
      · exact ⟨_, rfl⟩
      · next hx =>
        have : ¬ (x :: l).Pairwise (· ≤ ·) := by
          intro hp
          apply h
          refine List.pairwise_cons.2 ⟨?_, hp⟩
          intro y hy
          rcases List.mem_cons.1 hy with rfl | hy
          · omega
          · have := (List.pairwise_cons.1 hp).1 y hy; omega
        obtain ⟨m, hm⟩ := ih x this
        rw [hm]
        exact ⟨m, rfl⟩
  cases index with
  | nil => simp at h
  | cons x l =>
    obtain ⟨m, hm⟩ := key l x h
    refine ⟨m, ?_⟩
    have he : encodeIndex (x :: l) = .error (.err m) := by
      simp only [encodeIndex, hm]
      rfl
    unfold putIndex
    rw [he]
    rfl

/-- An empty list is not stored: `bytes.Buffer.Bytes` gives nil, which the database refuses. -/
theorem C37_empty_refused (c : Conn) (label : Bytes) : Errs (putIndex c label []) := ⟨_, rfl⟩

/-- the index of a label never stored is empty -/
theorem C37_missing_is_empty (db : KV) (label : Bytes) (h : db (indexKey label) = none) :
    getIndex (newConn db false) label = .ok [] := by
  simp only [getIndex, Conn.get, newConn, List.lookup_nil, h, Option.getD_none]
  rfl

example : encodeIndex [3, 3, 200, 2 ^ 63] = .ok (some [3, 0, 197, 1, 184, 254, 255, 255, 255, 255, 255, 255, 127]) := by
  decide +kernel
example : decodeIndex [3, 0, 197, 1] = .ok [3, 3, 200] := by decide
example : Errs (encodeIndex [5, 4]) := ⟨_, rfl⟩

/-! ### C38 -/

/-- **C38, the part that holds** After a crash (or a failed write) at any point of a commit the database is the old
one, or the new one, or the new one with the old tree head. -/
theorem C38_crash_states_partial (c : Conn) (i : Nat) (hhead : c.batch.lookup treeHeadKey ≠ some none) :
    (∀ k, c.crash i k = c.db k) ∨ (∀ k, c.crash i k = c.get k) ∨
    (∀ k, c.crash i k = if k = treeHeadKey then c.db k else c.get k) := by
  have hall : ∀ k, c.crash c.writes.length k = c.get k := by
    intro k
    unfold Conn.crash
    rw [List.take_length]
    exact commit_get hhead k
  by_cases h0 : i = 0
  · subst h0; left; intro k; rfl
  by_cases h1 : i ≥ c.writes.length
  · right; left
    intro k
    rw [← hall k]
    unfold Conn.crash
    rw [List.take_of_length_le h1, List.take_length]
  · right; right
    intro k
    have hl : c.writes.length ≤ 2 := by unfold Conn.writes; split <;> simp
    have : i = 1 := by omega
    subst this
    unfold Conn.crash Conn.writes
    simp only [List.take_succ_cons, List.take_zero, List.foldl_cons, List.foldl_nil, writeBatch, Conn.get]

/-- In particular a commit without a tree head is atomic. -/
theorem C38_atomic_without_head_partial (c : Conn) (i : Nat) (h : c.batch.lookup treeHeadKey = none) :
    (∀ k, c.crash i k = c.db k) ∨ (∀ k, c.crash i k = c.get k) := by
  rcases C38_crash_states_partial c i (by rw [h]; simp) with h1 | h1 | h1
  · exact Or.inl h1
  · exact Or.inr h1
  · refine Or.inr fun k => ?_
    rw [h1]
    split
    · next hk => subst hk; simp [Conn.get, h]
    · rfl

/-- the database of a log with one entry and one label with one version -/
def oneEntry : KV := fun k =>
  if k = treeHeadKey then some [1] else if k = indexKey [0xaa] then some [0] else none

/-- **C38 is false**: the label gets a second version in the second log entry, and the crash happens between the two
writes.  The tree head found on restart is that of the one-entry log, the index that of the two-entry log. -/
theorem C38_crash_mixes_states : ∃ c,
    perform (newConn oneEntry false) [.put (indexKey [0xaa]) (some [0, 1]), .put treeHeadKey (some [2])] = .ok c ∧
    c.crash 1 treeHeadKey = some [1] ∧ c.get treeHeadKey = some [2] ∧
    getIndex (newConn (c.crash 1) false) [0xaa] = .ok [0, 1] ∧ getIndex (newConn oneEntry false) [0xaa] = .ok [0] :=
  ⟨_, rfl, by decide +kernel, by decide +kernel, by decide +kernel, by decide +kernel⟩

end Katie.Props
