import Verif.Lemmas.AuditorExec
import Verif.Props.C10_C13_PrefixSound
import Verif.Props.C23_C25_Distinguished

/-
C31, C32, C33, C35, C57: the third-party auditor.

`Exec` (Spec/Auditor.lean) describes every execution of an auditor: it is started with an empty database, processes
any updates with the right field sizes, commits to a database that may fail, and is restarted, in any order.
-/

namespace Katie.Props
open Katie Katie.Wire Katie.Audit Katie.AuditSpec Katie.SearchSpec Katie.PrefixSpec

/-- a configuration for the examples -/
def toyAuditCfg : Config := { mode := 3, auditorKey := some [1], rmw := 10 }

/-- the state after a list of updates, if all are accepted and the tree is not full -/
def afterUpdates (cs : Log.Suite) (cfg : Config) : Option AState → List AuditorUpdate → Option (Option AState)
  | a, [] => some a
  | a, u :: us =>
    if size a + 1 < 2 ^ 64 then
      match processed cs cfg a u with
      | .error _ => none
      | .ok s => afterUpdates cs cfg (some s) us
    else none

theorem exec_afterUpdates {cs : Log.Suite} {cfg : Config} {key : Bytes} {sign : Bytes → G Bytes} {U : AuditorUpdate → Prop}
    {P : (Bytes → G Unit) → Prop} : ∀ (vs us kept : List AuditorUpdate) (hs : List AuditorTreeHead) (a : Auditor)
    (s : Option AState), Exec cs cfg key sign U P us kept hs a → (∀ u ∈ vs, U u) → afterUpdates cs cfg a.state vs = some s →
    Exec cs cfg key sign U P (us ++ vs) kept hs { a with state := s } := by
  intro vs
  induction vs with
  | nil =>
    intro us kept hs a s h _ he
    cases he
    rw [List.append_nil]
    exact h
  | cons u vs ih =>
    intro us kept hs a s h hU he
    unfold afterUpdates at he
    split at he
    · rename_i hn
      cases hp : processed cs cfg a.state u with
      | error e => rw [hp] at he; cases he
      | ok s1 =>
        rw [hp] at he
        have hstep := h.update (hU u (by simp)) hn
        unfold process at hstep
        rw [hp] at hstep
        have := ih _ _ _ _ s hstep (fun v hv => hU v (by simp [hv])) he
        rw [show us ++ u :: vs = extended us u (.ok ()) ++ vs by unfold extended; simp]
        exact this
    · cases he

/-! ### C31 -/

/-- C31, rejection: an update that is not accepted leaves the auditor as it was. -/
theorem C31_rejected_unchanged (cs : Log.Suite) (cfg : Config) (a : Auditor) (u : AuditorUpdate)
    (h : (process cs cfg u a).1 ≠ .ok ()) : (process cs cfg u a).2 = a := by
  unfold process at h ⊢
  cases hp : processed cs cfg a.state u with
  | error e => rfl
  | ok s => rw [hp] at h; exact absurd rfl h

/-- C31, acceptance: the tree grows by one, the timestamp is that of the update and not less than before, the update's
proof starts from the root the auditor last computed, the new root is the one its evaluation gives, and the log that
the state describes (size, heads of the log tree, timestamps on the frontier, last entry) is extended by exactly that
entry. -/
theorem C31_accepted {cs : Log.Suite} (hcs : cs.Good) {cfg : Config} {key : Bytes} {sign : Bytes → G Bytes}
    {P : (Bytes → G Unit) → Prop} {us kept : List AuditorUpdate} {hs : List AuditorTreeHead} {a : Auditor}
    (h : Exec cs cfg key sign (UpdateOk cs) P us kept hs a) (u : AuditorUpdate) (hu : UpdateOk cs u)
    (hn : size a.state + 1 < 2 ^ 64) (hok : (process cs cfg u a).1 = .ok ()) :
    ∃ W s' before, (process cs cfg u a).2 = { a with state := some s' } ∧
      s'.treeSize = size a.state + 1 ∧ s'.timestamp = u.timestamp ∧
      (∀ s, a.state = some s → s.timestamp ≤ u.timestamp) ∧
      Prefix.evaluateBeforeAfter cs u.added u.removed u.proof = .ok (before, s'.prefixTree) ∧
      (∀ s, a.state = some s → before = s.prefixTree) ∧
      W.length = us.length ∧ DescribesO cs W a.state ∧ Describes cs (W ++ [⟨u.timestamp, s'.prefixTree⟩]) s' := by
  obtain ⟨A, hA, hS⟩ := (exec_inv hcs (fun _ h => h) h).state
  obtain ⟨hd, hg, -⟩ := hS.desc
  have hsz := hd.size_eq
  unfold process at hok ⊢
  cases hp : processed cs cfg a.state u with
  | error e => rw [hp] at hok; cases hok
  | ok s' =>
    obtain ⟨r, r', before, after, c1, -, -, -, c5, c6, -, c8, -, c10, c11, c12, -, -⟩ :=
      processed_sound hcs hd hg (by omega) hu hp
    refine ⟨log A, s', before, rfl, by omega, c11, c1, by rw [c10]; exact c5, c6, ?_, hd, by rw [c10]; exact c8⟩
    rw [← hA]; unfold log updates; simp

/-- C31, what is signed: every head the auditor ever returns is a signed head of an append-only history in which each
entry's root and timestamp follow from the one before by an accepted update. -/
theorem C31_signed_heads {cs : Log.Suite} (hcs : cs.Good) {cfg : Config} {key : Bytes} {sign : Bytes → G Bytes}
    {P : (Bytes → G Unit) → Prop} {us kept : List AuditorUpdate} {hs : List AuditorTreeHead} {a : Auditor}
    (h : Exec cs cfg key sign (UpdateOk cs) P us kept hs a) (th : AuditorTreeHead) (hth : th ∈ hs) :
    ∃ A, Chain cs A ∧ HeadOf cs cfg sign (log A) th :=
  (exec_inv hcs (fun _ h => h) h).heads th hth

theorem batch_entries (u : AuditorUpdate) : entries (batchOf u).add = u.added ∧
    entries ((batchOf u).remove.zip (u.removed.map (fun e => e.com))) = u.removed := by
  constructor
  · unfold entries batchOf
    rw [List.map_map]
    exact List.map_id u.added
  · unfold entries batchOf
    rw [List.zip_map', List.map_map]
    exact List.map_id u.removed

theorem batch_step {cs : Log.Suite} (hcs : cs.Good) (u : AuditorUpdate) (hu : UpdateOk cs u) (hsort : sortedStrictly u.added)
    (S : List Pair) (hS : IsMap cs.hashSize S) (after : Bytes)
    (hev : Prefix.evaluateBeforeAfter cs u.added u.removed u.proof = .ok (rootHash cs.H cs.hashSize S, after))
    (hbig : (batchOf u).Resolved S) :
    (after = rootHash cs.H cs.hashSize ((batchOf u).apply S) ∧ (∀ e ∈ u.added, e.vrf ∉ S.map Prod.fst) ∧
      IsMap cs.hashSize ((batchOf u).apply S)) ∨
    Broken cs (verifierInputs cs (u.added ++ u.removed) u.proof) (rootInputs cs.H cs.hashSize S) := by
  obtain ⟨e1, e2⟩ := batch_entries u
  have hadd : ∀ e ∈ (batchOf u).add, e.1.length = cs.hashSize ∧ e.2.length = cs.hashSize := by
    intro e he
    obtain ⟨x, hx, rfl⟩ := List.mem_map.1 he
    exact hu.2.1 x hx
  have := C12_sound_partial hcs S hS (batchOf u) (u.removed.map (fun e => e.com)) (by simp [batchOf]) u.proof (wireProof_of hu)
    after (fun e he => (hadd e he).2) (by rw [e1, e2]; exact hev) hbig
  rw [e1, e2] at this
  rcases this with ⟨t1, t2⟩ | hb
  · left
    have t2' : ∀ e ∈ u.added, e.vrf ∉ S.map Prod.fst := fun e he => t2 (e.vrf, e.com) (List.mem_map.2 ⟨e, he, rfl⟩)
    refine ⟨t1, t2', ?_, ?_⟩
    · intro e he
      rcases List.mem_append.1 he with he | he
      · exact hS.1 e (List.mem_filter.1 he).1
      · exact hadd e he
    · unfold Batch.apply
      rw [List.map_append, List.nodup_append]
      refine ⟨hS.2.sublist (List.filter_sublist.map _), ?_, ?_⟩
      · have : (batchOf u).add.map Prod.fst = u.added.map (fun e => e.vrf) := by unfold batchOf; rw [List.map_map]; rfl
        rw [this, List.Nodup, List.pairwise_map]
        refine (sortedStrictly_pairwise _ hsort).imp ?_
        intro x y hxy hc
        rw [hc, Prefix.bytesLt_irrefl] at hxy
        cases hxy
      · intro x hx y hy hxy
        subst hxy
        obtain ⟨p, hp, rfl⟩ := List.mem_map.1 hx
        obtain ⟨q, hq, hqe⟩ := List.mem_map.1 hy
        exact t2 q hq (by rw [hqe]; exact List.mem_map.2 ⟨p, (List.mem_filter.1 hp).1, rfl⟩)
  · exact Or.inr hb

/-- C31, the new root, when the last root the auditor computed is that of the map `S`: the new root is that of `S` with
the listed removals and additions applied, and what is added was absent, or a hash collision is at hand.  Missing for
the full statement: removals that leave a single entry alone in its subtree without listing it (`Resolved`); for those
the claim is false, see `C31_wrong_root`. -/
theorem C31_root_partial {cs : Log.Suite} (hcs : cs.Good) {cfg : Config} {key : Bytes} {sign : Bytes → G Bytes}
    {P : (Bytes → G Unit) → Prop} {us kept : List AuditorUpdate} {hs : List AuditorTreeHead} {a : Auditor}
    (h : Exec cs cfg key sign (UpdateOk cs) P us kept hs a) (u : AuditorUpdate) (hu : UpdateOk cs u)
    (hn : size a.state + 1 < 2 ^ 64) (hok : (process cs cfg u a).1 = .ok ()) (s s' : AState) (hs : a.state = some s)
    (hs' : (process cs cfg u a).2.state = some s')
    (S : List Pair) (hS : IsMap cs.hashSize S) (hroot : s.prefixTree = rootHash cs.H cs.hashSize S)
    (hbig : (batchOf u).Resolved S) :
    (s'.prefixTree = rootHash cs.H cs.hashSize ((batchOf u).apply S) ∧ (∀ e ∈ u.added, e.vrf ∉ S.map Prod.fst) ∧
      IsMap cs.hashSize ((batchOf u).apply S)) ∨
    Broken cs (verifierInputs cs (u.added ++ u.removed) u.proof) (rootInputs cs.H cs.hashSize S) := by
  obtain ⟨W, s'', before, h1, -, -, -, h5, h6, -⟩ := C31_accepted hcs h u hu hn hok
  rw [h1] at hs'
  cases hs'
  rw [h6 s hs, hroot] at h5
  refine batch_step hcs u hu ?_ S hS _ h5 hbig
  unfold process at hok
  cases hp : processed cs cfg a.state u with
  | error e => rw [hp] at hok; cases hok
  | ok s' => exact (processed_ok.1 hp).2.1

/-- what holds of every accepted update holds of the whole history -/
theorem exec_all {cs : Log.Suite} {cfg : Config} {key : Bytes} {sign : Bytes → G Bytes} {U Q : AuditorUpdate → Prop}
    {P : (Bytes → G Unit) → Prop} (hQ : ∀ a u s, U u → processed cs cfg a u = .ok s → Q u)
    {us kept : List AuditorUpdate} {hs : List AuditorTreeHead} {a : Auditor}
    (h : Exec cs cfg key sign U P us kept hs a) : (∀ u ∈ us, Q u) ∧ ∀ u ∈ kept, Q u := by
  induction h with
  | start _ => exact ⟨by simp, by simp⟩
  | @update us kept hs a u _ hu _ ih =>
    refine ⟨?_, ih.2⟩
    unfold process
    cases hp : processed cs cfg a.state u with
    | error e => exact ih.1
    | ok s =>
      intro v hv
      rcases List.mem_append.1 hv with hv | hv
      · exact ih.1 v hv
      · rw [List.mem_singleton.1 hv]; exact hQ _ _ _ hu hp
  | @commit us kept hs a put _ _ ih =>
    refine ⟨ih.1, ?_⟩
    unfold keptAfter
    split
    · exact ih.2
    · exact ih.1
  | restart _ _ ih => exact ⟨ih.2, ih.2⟩

theorem contents_snoc (bs : List Batch) (b : Batch) : contents (bs ++ [b]) = b.apply (contents bs) := by
  unfold contents; rw [List.foldl_append]; rfl

theorem chain_contents {cs : Log.Suite} (hcs : cs.Good) {A : List Audited} (hA : Chain cs A) :
    (∀ u ∈ updates A, UpdateOk cs u ∧ sortedStrictly u.added = true) →
    (∀ u, (updates A).head? = some u → ∃ after,
      Prefix.evaluateBeforeAfter cs u.added u.removed u.proof = .ok (rootHash cs.H cs.hashSize [], after)) →
    (∀ i u, (updates A)[i]? = some u → (batchOf u).Resolved (contents (((updates A).take i).map batchOf))) →
    ((∀ x, A.getLast? = some x → x.entry.prefixTree = rootHash cs.H cs.hashSize (contents ((updates A).map batchOf))) ∧
      IsMap cs.hashSize (contents ((updates A).map batchOf))) ∨
    ∃ i u, (updates A)[i]? = some u ∧ Broken cs (verifierInputs cs (u.added ++ u.removed) u.proof)
      (rootInputs cs.H cs.hashSize (contents (((updates A).take i).map batchOf))) := by
  induction hA with
  | nil =>
    intro _ _ _
    left
    exact ⟨fun x hx => (by cases hx), ⟨fun e he => (by cases he), List.nodup_nil⟩⟩
  | @snoc A u before after hA h1 h2 h3 ih =>
    have hup : updates (A ++ [⟨u, ⟨u.timestamp, after⟩⟩]) = updates A ++ [u] := by unfold updates; simp
    rw [hup]
    intro hq hf hb
    have hlen : (updates A).length = A.length := by unfold updates; simp
    have ih := ih (fun v hv => hq v (List.mem_append_left _ hv)) (by
        intro v hv
        refine hf v ?_
        rw [List.head?_append, hv]; rfl) (by
        intro i v hv
        have hi : i < (updates A).length := by
          by_contra hc
          rw [List.getElem?_eq_none (by omega)] at hv
          cases hv
        have := hb i v (by rw [List.getElem?_append_left hi]; exact hv)
        rwa [List.take_append_of_le_length (by omega)] at this)
    rcases ih with ⟨g1, g2⟩ | ⟨i, v, hv, hbr⟩
    · have hbefore : before = rootHash cs.H cs.hashSize (contents ((updates A).map batchOf)) := by
        cases hl : A.getLast? with
        | some x => rw [h3 x hl, g1 x hl]
        | none =>
          have hnil : A = [] := by simpa using hl
          subst hnil
          obtain ⟨af, haf⟩ := hf u rfl
          rw [h2] at haf
          exact (Prod.mk.inj (Except.ok.inj haf)).1
      rw [hbefore] at h2
      obtain ⟨hu, hsort⟩ := hq u (by simp)
      have hb := hb (updates A).length u (by rw [List.getElem?_append_right (le_refl _)]; simp)
      rw [List.take_append_of_le_length (le_refl _), List.take_length] at hb
      rcases batch_step hcs u hu hsort _ g2 after h2 hb with ⟨t1, -, t3⟩ | hbr
      · left
        rw [List.map_append, List.map_singleton, contents_snoc]
        refine ⟨?_, t3⟩
        intro x hx
        rw [List.getLast?_append, List.getLast?_singleton] at hx
        cases hx
        exact t1
      · right
        refine ⟨(updates A).length, u, by rw [List.getElem?_append_right (le_refl _)]; simp, ?_⟩
        rw [List.take_append_of_le_length (le_refl _), List.take_length]
        exact hbr
    · right
      have hi : i < (updates A).length := by
        by_contra hc
        rw [List.getElem?_eq_none (by omega)] at hv
        cases hv
      refine ⟨i, v, by rw [List.getElem?_append_left hi]; exact hv, ?_⟩
      rw [List.take_append_of_le_length (by omega)]
      exact hbr

/-- C31 over a whole execution: the auditor's root is the root of the tree that results from all additions and removals
of all accepted updates, unless at some step a hash collision is at hand.  Missing for the full statement: the first
update must start from the empty tree, which the auditor does not check (`C33_any_first_root`), and the proviso of
`C31_root_partial` for removals. -/
theorem C31_history_partial {cs : Log.Suite} (hcs : cs.Good) {cfg : Config} {key : Bytes} {sign : Bytes → G Bytes}
    {P : (Bytes → G Unit) → Prop} {us kept : List AuditorUpdate} {hs : List AuditorTreeHead} {a : Auditor}
    (h : Exec cs cfg key sign (UpdateOk cs) P us kept hs a)
    (hfirst : ∀ u, us.head? = some u → ∃ after,
      Prefix.evaluateBeforeAfter cs u.added u.removed u.proof = .ok (rootHash cs.H cs.hashSize [], after))
    (hbig : ∀ i u, us[i]? = some u → (batchOf u).Resolved (contents ((us.take i).map batchOf))) :
    (∀ s, a.state = some s → s.prefixTree = rootHash cs.H cs.hashSize (contents (us.map batchOf))) ∨
    ∃ i u, us[i]? = some u ∧ Broken cs (verifierInputs cs (u.added ++ u.removed) u.proof)
      (rootInputs cs.H cs.hashSize (contents ((us.take i).map batchOf))) := by
  obtain ⟨A, rfl, hS⟩ := (exec_inv hcs (fun _ h => h) h).state
  have hall := (exec_all (Q := fun u => UpdateOk cs u ∧ sortedStrictly u.added = true)
    (fun a u s hu hp => ⟨hu, (processed_ok.1 hp).2.1⟩) h).1
  rcases chain_contents hcs hS.desc.2.2 hall hfirst hbig with ⟨g, -⟩ | hb
  · left
    intro s hs
    rw [hs] at hS
    have hd : Describes cs (log A) s := hS.desc.1
    have hl := hd.last
    unfold log at hl
    rw [List.getLast?_map] at hl
    cases hx : A.getLast? with
    | none => rw [hx] at hl; cases hl
    | some x =>
      rw [hx] at hl
      have := g x hx
      rw [Option.some.inj hl] at this
      exact this
  · exact Or.inr hb

/-- C31 is false for removals: the auditor accepts the removal of `80` from the tree `{80, 01}` (every entry is
distinguished here), but the root it computes and signs is not that of the tree `{01}`. -/
theorem C31_wrong_root :
    ∃ s s', processed toySuite { toyAuditCfg with rmw := 0 } none
        ⟨5, [⟨[0x01], [3]⟩, ⟨[0x80], [1]⟩], [], ⟨[.nonInclusionParent 0, .nonInclusionParent 0], []⟩⟩ = .ok s ∧
      s.prefixTree = rootHash toySuite.H 1 [([0x01], [3]), ([0x80], [1])] ∧
      processed toySuite { toyAuditCfg with rmw := 0 } (some s) ⟨6, [], [⟨[0x80], [1]⟩], ⟨[.inclusion 1], [[226]]⟩⟩ = .ok s' ∧
      s'.prefixTree = [139] ∧ rootHash toySuite.H 1 [([0x01], [3])] = [226] := by
  refine ⟨_, _, rfl, ?_, rfl, ?_⟩ <;> decide +kernel

/-- updates for the examples: entry 0 adds `20`, entries 1 to 3 nothing, entry 4 adds `80`, entry 5 adds `10`; all at
the same time -/
def toyUpdates : List AuditorUpdate :=
  [⟨100, [⟨[0x20], [9]⟩], [], ⟨[.nonInclusionParent 0], []⟩⟩,
   ⟨100, [], [], ⟨[], [[69]]⟩⟩, ⟨100, [], [], ⟨[], [[69]]⟩⟩, ⟨100, [], [], ⟨[], [[69]]⟩⟩,
   ⟨100, [⟨[0x80], [1]⟩], [], ⟨[.nonInclusionLeaf [32] [9] 0], []⟩⟩,
   ⟨100, [⟨[0x10], [2]⟩], [], ⟨[.nonInclusionLeaf [32] [9] 1], [[93]]⟩⟩]

/-- removes `80`, which was added by entry 4 -/
def toyRemoval : AuditorUpdate := ⟨100, [], [⟨[0x80], [1]⟩], ⟨[.inclusion 1], [[225]]⟩⟩

theorem toyUpdates_ok : ∀ u ∈ toyUpdates ++ [toyRemoval], UpdateOk toySuite u := by
  simp [toyUpdates, toyRemoval, UpdateOk, AuditorUpdate.Typed, ProofTyped, Each, EntryTyped, ResTyped, Fits, toySuite]

/-- the auditor after the updates of the example -/
theorem toy_exec (P : (Bytes → G Unit) → Prop) : ∃ s, afterUpdates toySuite toyAuditCfg none toyUpdates = some (some s) ∧
    Exec toySuite toyAuditCfg [1] .ok (UpdateOk toySuite) P toyUpdates [] [] ⟨some s, none⟩ := by
  refine ⟨_, rfl, ?_⟩
  refine exec_afterUpdates toyUpdates [] [] [] ⟨none, none⟩ _ (.start rfl) (fun u hu => toyUpdates_ok u (by simp [hu])) rfl

-- the hypotheses of `C31_history_partial` on this execution
example : (∀ u, toyUpdates.head? = some u → ∃ after,
      Prefix.evaluateBeforeAfter toySuite u.added u.removed u.proof = .ok (rootHash toySuite.H 1 [], after)) ∧
    (∀ u ∈ toyUpdates, u.removed = []) ∧ contents (toyUpdates.map batchOf) = [([0x20], [9]), ([0x80], [1]), ([0x10], [2])] := by
  refine ⟨?_, by decide, by decide⟩
  intro u hu
  cases hu
  exact ⟨_, rfl⟩

/-! ### C32 -/

theorem times_log {cs : Log.Suite} {A : List Audited} (h : Chain cs A) : times (updates A) = timeOf (log A) := by
  have key : ∀ x ∈ A, x.entry.timestamp = x.update.timestamp := by
    induction h with
    | nil => simp
    | snoc _ _ _ _ ih =>
      intro x hx
      rcases List.mem_append.1 hx with hx | hx
      · exact ih x hx
      · rw [List.mem_singleton.1 hx]
  funext i
  unfold times timeOf updates log
  rw [List.getElem?_map, List.getElem?_map]
  cases hi : A[i]? with
  | none => rfl
  | some x => exact (key x (List.mem_of_getElem? hi)).symm

theorem times_next {cs : Log.Suite} {A : List Audited} (hch : Chain cs A) (u : AuditorUpdate) (r : Bytes) :
    times (updates A ++ [u]) = timeOf (log A ++ [⟨u.timestamp, r⟩]) := by
  have hlenA : (updates A).length = A.length := by unfold updates; simp
  funext i
  unfold times timeOf
  by_cases hi : i < A.length
  · rw [List.getElem?_append_left (by omega), List.getElem?_append_left (by rw [log_length]; omega)]
    exact congrFun (times_log hch) i
  · rw [List.getElem?_append_right (by omega), List.getElem?_append_right (by rw [log_length]; omega), hlenA, log_length]
    cases i - A.length with
    | zero => rfl
    | succ k => rfl

/-- the auditor's computation of the last distinguished entry before the new one is right -/
theorem exec_previousRightmost {cs : Log.Suite} (hcs : cs.Good) {cfg : Config} {key : Bytes} {sign : Bytes → G Bytes}
    {P : (Bytes → G Unit) → Prop} {us kept : List AuditorUpdate} {hs : List AuditorTreeHead} {a : Auditor}
    (h : Exec cs cfg key sign (UpdateOk cs) P us kept hs a) (u : AuditorUpdate) (hu : UpdateOk cs u)
    (hn : size a.state + 1 < 2 ^ 64) (ht : ∀ s, a.state = some s → s.timestamp ≤ u.timestamp) :
    ∃ r p, Audit.previousRightmost cfg a.state u.timestamp = .ok (r, p) ∧
      IsGreatest' (fun y => Distinguished (Wide cfg.rmw) (times (us ++ [u])) (us.length + 1) y ∧ y < us.length) r := by
  obtain ⟨A, rfl, hS⟩ := (exec_inv hcs (fun _ h => h) h).state
  obtain ⟨hd, hg, hch⟩ := hS.desc
  have hsz := hd.size_eq
  have hlenA : (updates A).length = A.length := by unfold updates; simp
  obtain ⟨r, p, h1, h2, -⟩ := previousRightmost_spec (cfg := cfg) hd (good_next [] hd hg hu.1 ht) (by omega)
  refine ⟨r, p, h1, ?_⟩
  rw [times_next hch u [], hlenA]
  rw [log_length] at h2
  exact h2

/-- C32 for what the auditor does remember, the entries added by the last update: if an accepted update removes `e`,
there is a distinguished log entry before the new one, and if `e` was added by the last update, then that update's entry
is itself distinguished.  Missing for the full statement: entries added by earlier updates since the last
distinguished one, which the auditor has forgotten; for those the claim is false, see `C32_recent_removal_accepted`. -/
theorem C32_last_update_partial {cs : Log.Suite} (hcs : cs.Good) {cfg : Config} {key : Bytes} {sign : Bytes → G Bytes}
    {P : (Bytes → G Unit) → Prop} {us kept : List AuditorUpdate} {hs : List AuditorTreeHead} {a : Auditor}
    (h : Exec cs cfg key sign (UpdateOk cs) P us kept hs a) (u : AuditorUpdate) (hu : UpdateOk cs u)
    (hn : size a.state + 1 < 2 ^ 64) (hok : (process cs cfg u a).1 = .ok ()) (e : Prefix.Entry) (he : e ∈ u.removed) :
    ∃ y, IsGreatest' (fun y => Distinguished (Wide cfg.rmw) (times (us ++ [u])) (us.length + 1) y ∧ y < us.length) (some y) ∧
      ∀ v, us.getLast? = some v → e.vrf ∈ v.added.map (fun e => e.vrf) → y = us.length - 1 := by
  obtain ⟨A, rfl, hS⟩ := (exec_inv hcs (fun _ h => h) h).state
  obtain ⟨hd, hg, hch⟩ := hS.desc
  have hsz := hd.size_eq
  unfold process at hok
  cases hp : processed cs cfg a.state u with
  | error e => rw [hp] at hok; cases hok
  | ok s' =>
    obtain ⟨r, r', before, after, c1, c2, c3, c4, c5, c6, c7, -⟩ := processed_sound hcs hd hg (by omega) hu hp
    have hlenA : (updates A).length = A.length := by unfold updates; simp
    have htimes := times_next hch u after
    cases r with
    | none => rw [c3 rfl] at he; cases he
    | some y =>
      rw [log_length] at c2 c7
      refine ⟨y, by rw [htimes, hlenA]; exact c2, ?_⟩
      intro v hv hmem
      unfold updates at hv
      rw [List.getLast?_map] at hv
      cases hx : A.getLast? with
      | none => rw [hx] at hv; cases hv
      | some x =>
        rw [hx] at hv
        cases hv
        cases ha : a.state with
        | none =>
          rw [ha] at hS
          have : A = [] := hS
          rw [this] at hx
          cases hx
        | some s =>
          rw [ha] at hS c4
          have hS : Audits cs cfg sign A s := hS
          obtain ⟨hsort, r0, hins, hr0⟩ := hS.last x hx
          rw [hlenA]
          have hpos : 0 < A.length := by
            cases A with
            | nil => cases hx
            | cons _ _ => simp
          have hy : y < A.length := c2.1.2
          by_contra hne
          have hasc : Ascending s.inserted := by rw [hins]; exact ascending_inserted hsort _ _
          obtain ⟨e', he', heq⟩ := List.mem_map.1 hmem
          have hold : tooOld r0 ⟨A.length - 1, e'.vrf⟩ = false := by
            cases r0 with
            | none => rfl
            | some m =>
              have hm : Distinguished (Wide cfg.rmw) (timeOf (log A ++ [⟨u.timestamp, after⟩])) (A.length + 1) m := by
                refine C25_distinguished_stable (by omega) ?_ c7 hr0.1
                intro i hi
                unfold timeOf
                rw [List.getElem?_append_left (by rw [log_length]; omega)]
              have := c2.2 m ⟨hm, hr0.1.lt⟩
              unfold tooOld
              simp
              omega
          have hmemi : (⟨A.length - 1, e.vrf⟩ : Inserted) ∈ s.inserted := by
            rw [hins, mem_mergeInserted, List.mem_filter, ← heq]
            exact ⟨List.mem_map.2 ⟨e', he', rfl⟩, by simp [hold]⟩
          have := addedSince_of_mem (x := y) hasc hmemi (by simp; omega)
          have hc := c4 e he
          simp only [Option.getD_some] at hc
          rw [this] at hc
          cases hc

/-- C32 is false: `updateState` starts from an empty list of inserted VRF outputs instead of the stored one
(auditor.go:105, 141), so an entry added two updates ago is no longer remembered.  Here entry 4 adds `80`, the last
distinguished entry is entry 3, and the auditor accepts the removal of `80` by entry 6. -/
theorem C32_recent_removal_accepted : ∃ s, Exec toySuite toyAuditCfg [1] .ok (UpdateOk toySuite) (fun _ => True) toyUpdates [] []
      ⟨some s, none⟩ ∧
    (process toySuite toyAuditCfg toyRemoval ⟨some s, none⟩).1 = .ok () ∧
    (∀ v, toyUpdates[4]? = some v → [0x80] ∈ v.added.map (fun e => e.vrf)) ∧ [0x80] ∈ toyRemoval.removed.map (fun e => e.vrf) ∧
    IsGreatest' (fun y => Distinguished (Wide 10) (times (toyUpdates ++ [toyRemoval])) 7 y ∧ y < 6) (some 3) := by
  obtain ⟨s, h1, h2⟩ := toy_exec (fun _ => True)
  have hs : afterUpdates toySuite toyAuditCfg none toyUpdates = some (some s) := h1
  have hu := toyUpdates_ok toyRemoval (by simp)
  have hsz : size (some s) = 6 := by
    have : (afterUpdates toySuite toyAuditCfg none toyUpdates).map size = some 6 := by decide +kernel
    rw [h1] at this
    exact Option.some.inj this
  have ht : s.timestamp = 100 := by
    have : (afterUpdates toySuite toyAuditCfg none toyUpdates).map (fun x => x.map (fun s => s.timestamp)) = some (some 100) := by
      decide +kernel
    rw [h1] at this
    exact Option.some.inj (Option.some.inj this)
  refine ⟨s, h2, ?_, ?_, ?_, ?_⟩
  · have : (afterUpdates toySuite toyAuditCfg none toyUpdates).map (fun x => (process toySuite toyAuditCfg toyRemoval ⟨x, none⟩).1) =
        some (.ok ()) := by decide +kernel
    rw [h1] at this
    exact Option.some.inj this
  · intro v hv; cases hv; decide
  · decide
  · obtain ⟨r, p, h3, h4⟩ := exec_previousRightmost toySuite_good h2 toyRemoval hu (by rw [hsz]; decide) (by
      intro st hst; cases hst; rw [ht]; decide)
    have : (afterUpdates toySuite toyAuditCfg none toyUpdates).map (fun x =>
        (Audit.previousRightmost toyAuditCfg x 100).toOption.map Prod.fst) = some (some (some 3)) := by
      decide +kernel
    rw [h1] at this
    have := Option.some.inj this
    beta_reduce at this
    rw [show Audit.previousRightmost toyAuditCfg (some s) 100 = .ok (r, p) from h3] at this
    have hr : r = some 3 := Option.some.inj this
    rw [hr] at h4
    exact h4

/-! ### C33 -/

/-- C33 is false: a fresh auditor accepts a first update that starts from (and leaves unchanged) any root at all. -/
theorem C33_any_first_root {cs : Log.Suite} (hcs : cs.Good) (cfg : Config) (t : Nat) (ht : t < 2 ^ 64) (r : Bytes) :
    ∃ s, process cs cfg ⟨t, [], [], ⟨[], [r]⟩⟩ ⟨none, none⟩ = (.ok (), ⟨some s, none⟩) ∧ s.prefixTree = r := by
  have hd : DescribesO cs [] none := rfl
  have hg : GoodTimes (timeOf []) ([] : List LogEntry).length :=
    ⟨fun i j _ hj => by simp at hj, fun i hi => by simp at hi⟩
  have hev : Prefix.evaluateBeforeAfter cs [] [] ⟨[], [r]⟩ = .ok (r, r) := rfl
  obtain ⟨s, hs⟩ := processed_complete hcs (cfg := cfg) (u := ⟨t, [], [], ⟨[], [r]⟩⟩) hd hg (by simp) ht
    (fun st hst => by cases hst) rfl rfl rfl (by simp) hev (fun st hst => by cases hst)
  refine ⟨s, by unfold process; rw [hs], ?_⟩
  obtain ⟨-, -, -, -, -, -, r1, p, b, af, -, -, -, h1, -, h2⟩ := processed_ok.1 hs
  rw [hev] at h1
  obtain ⟨rfl, rfl⟩ := Prod.mk.inj (Except.ok.inj h1)
  unfold updateState at h2
  obtain ⟨_, _, h2⟩ := G.bind_eq_ok.1 h2
  obtain ⟨_, _, h2⟩ := G.bind_eq_ok.1 h2
  obtain ⟨_, _, h2⟩ := G.bind_eq_ok.1 h2
  obtain ⟨_, _, h2⟩ := G.bind_eq_ok.1 h2
  obtain ⟨_, _, h2⟩ := G.bind_eq_ok.1 h2
  cases h2
  rfl

/-- What does hold of the first update that a fresh auditor accepts: it removes nothing.  Missing for the full
statement: that the tree it starts from is empty, see `C33_any_first_root`. -/
theorem C33_no_removal_partial {cs : Log.Suite} (hcs : cs.Good) (cfg : Config) (u : AuditorUpdate) (hu : UpdateOk cs u)
    (h : (process cs cfg u ⟨none, none⟩).1 = .ok ()) : u.removed = [] := by
  unfold process at h
  cases hp : processed cs cfg none u with
  | error e => rw [hp] at h; cases h
  | ok s =>
    obtain ⟨r, _, _, _, -, c2, c3, -⟩ := processed_sound hcs (W := []) (show DescribesO cs [] none from rfl)
      ⟨fun i j _ hj => by simp at hj, fun i hi => by simp at hi⟩ (by simp) hu hp
    cases r with
    | none => exact c3 rfl
    | some y => exact absurd c2.1.2 (by simp)

-- an accepted first update
example : (process toySuite toyAuditCfg ⟨100, [⟨[0x20], [9]⟩], [], ⟨[.nonInclusionParent 0], []⟩⟩ ⟨none, none⟩).1 = .ok () := by
  decide +kernel

/-! ### C35 -/

theorem exec_config {cs : Log.Suite} {cfg : Config} {key : Bytes} {sign : Bytes → G Bytes} {U : AuditorUpdate → Prop}
    {P : (Bytes → G Unit) → Prop} {us kept : List AuditorUpdate} {hs : List AuditorTreeHead} {a : Auditor}
    (h : Exec cs cfg key sign U P us kept hs a) : cfg.mode = thirdPartyAuditing ∧ keyBytes cfg.auditorKey = .ok key := by
  induction h with
  | start h =>
    unfold newAuditor at h
    split at h
    · cases h
    · rename_i hm
      obtain ⟨k, hk, h⟩ := G.bind_eq_ok.1 h
      split at h
      · cases h
      · rename_i hk'
        exact ⟨not_not.1 hm, by rw [hk, not_not.1 hk']⟩
  | update _ _ _ ih => exact ih
  | commit _ _ ih => exact ih
  | restart _ _ ih => exact ih

/-- C35: in every execution, a signed state that can be written is read back as it was.  (The auditor writes its state
only after it was signed.)  Missing for the full statement: states with 65536 or more inserted VRF outputs cannot be
written, see `C35_writable`. -/
theorem C35_state_roundtrip_partial {cs : Log.Suite} (hcs : cs.Good) {cfg : Config} {key : Bytes} {sign : Bytes → G Bytes}
    {P : (Bytes → G Unit) → Prop} {us kept : List AuditorUpdate} {hs : List AuditorTreeHead} {a : Auditor}
    (h : Exec cs cfg key sign (UpdateOk cs) P us kept hs a) (s : AState) (hs : a.state = some s)
    (hsig : s.signature.isSome) (raw : Bytes) (hraw : s.marshal = .ok raw) :
    newAuditorState cs.hashSize raw = .ok (s, []) := by
  obtain ⟨A, -, hS⟩ := (exec_inv hcs (fun _ h => h) h).state
  rw [hs] at hS
  have := (codec_state cs.hashSize).rt s raw [] (Audits.typed hcs hS hsig) hraw
  rwa [List.append_nil] at this

/-- A state can be written exactly when signature and list of inserted VRF outputs are shorter than `2^16`. -/
theorem C35_writable (s : AState) :
    (∃ raw, s.marshal = .ok raw) ↔ (s.signature.getD []).length < 2 ^ 16 ∧ s.inserted.length < 2 ^ 16 :=
  marshal_iff s

/-- C35, restart: an auditor that has just signed and stored its state is, after a restart, in exactly the same state. -/
theorem C35_restart {cs : Log.Suite} (hcs : cs.Good) {cfg : Config} {key : Bytes} {sign : Bytes → G Bytes}
    {P : (Bytes → G Unit) → Prop} {us kept : List AuditorUpdate} {hs : List AuditorTreeHead} {a : Auditor}
    (h : Exec cs cfg key sign (UpdateOk cs) P us kept hs a) (put : Bytes → G Unit) (hP : P put) (s : AState)
    (hst : a.state = some s) (hsig : s.signature = none) (th : AuditorTreeHead) (hok : (commit cs cfg sign put a).1 = .ok th) :
    newAuditor cs.hashSize cfg key (commit cs cfg sign put a).2.stored = .ok (commit cs cfg sign put a).2 := by
  have hex := Exec.commit h hP
  obtain ⟨hc1, hc2⟩ := exec_config h
  unfold commit at hok hex ⊢
  rw [hst] at hok hex ⊢
  simp only [hsig] at hok hex ⊢
  cases h1 : toSign cs cfg s >>= sign with
  | error e => rw [h1] at hok; cases hok
  | ok sig =>
    rw [h1] at hok hex
    simp only at hok hex ⊢
    cases h2 : AState.marshal { s with signature := some sig } with
    | error e => rw [h2] at hok; cases hok
    | ok raw =>
      rw [h2] at hok hex
      simp only at hok hex ⊢
      cases h3 : put raw with
      | error e => rw [h3] at hok; cases hok
      | ok x =>
        rw [h3] at hex
        simp only at hex ⊢
        have := C35_state_roundtrip_partial hcs hex _ rfl rfl raw h2
        unfold newAuditor
        rw [if_neg (not_not.2 hc1), hc2, G.ok_bind, if_neg (by simp)]
        simp only [this, List.length_nil, ne_eq, not_true_eq_false, if_false]
        rfl

/-- Reading a state with tree size zero (which the auditor never writes) panics instead of reporting an error. -/
theorem C35_zero_size_panics (hashSize : Nat) (raw rest : Bytes) (th : AuditorTreeHead)
    (h : newAuditorTreeHead raw = .ok (th, rest)) (h0 : th.treeSize = 0) : Panics (newAuditorState hashSize raw) := by
  unfold newAuditorState
  rw [rd_bind_ok h, h0]
  exact ⟨_, rfl⟩

example : newAuditorTreeHead [0, 0, 0, 0, 0, 0, 0, 9, 0, 0, 0, 0, 0, 0, 0, 0, 0, 0] = .ok (⟨9, 0, []⟩, []) := by decide +kernel

-- a reachable state is signed, written and read back: the auditor after the six updates of the example
example : ∃ s th, Exec toySuite toyAuditCfg [1] .ok (UpdateOk toySuite) (fun _ => True) toyUpdates [] [] ⟨some s, none⟩ ∧
    s.signature = none ∧ (commit toySuite toyAuditCfg .ok (fun _ => .ok ()) ⟨some s, none⟩).1 = .ok th ∧ th.treeSize = 6 := by
  obtain ⟨s, h1, h2⟩ := toy_exec (fun _ => True)
  have h3 : (afterUpdates toySuite toyAuditCfg none toyUpdates).map (fun x =>
      ((commit toySuite toyAuditCfg .ok (fun _ => .ok ()) ⟨x, none⟩).1.toOption.map (fun th => th.treeSize),
        x.map (fun s => s.signature))) = some (some 6, some none) := by decide +kernel
  rw [h1] at h3
  have h3 := Option.some.inj h3
  obtain ⟨h4, h5⟩ := Prod.mk.inj h3
  cases h6 : (commit toySuite toyAuditCfg .ok (fun _ => .ok ()) ⟨some s, none⟩).1 with
  | error e => rw [h6] at h4; cases h4
  | ok th =>
    rw [h6] at h4
    exact ⟨s, th, h2, Option.some.inj h5, h6, Option.some.inj h4⟩

/-! ### C57 -/

/-- C57, when no write to the database fails: all heads the auditor ever returns, over any number of restarts, are heads
of prefixes of one append-only history.  (`added.length < 2^16` holds of every update that can be sent.)  Missing for the
full statement: failing writes; with these the claim is false, see `C57_equivocation`. -/
theorem C57_one_log_partial {cs : Log.Suite} (hcs : cs.Good) {cfg : Config} {key : Bytes} {sign : Bytes → G Bytes}
    (hsign : ∀ b sig, sign b = .ok sig → sig.length < 2 ^ 16)
    {us kept : List AuditorUpdate} {hs : List AuditorTreeHead} {a : Auditor}
    (h : Exec cs cfg key sign (fun u => UpdateOk cs u ∧ u.added.length < 2 ^ 16) (fun put => ∀ b, put b = .ok ()) us kept hs a) :
    ∃ A, Chain cs A ∧ ∀ th ∈ hs, ∃ m, m ≤ A.length ∧ HeadOf cs cfg sign (log (A.take m)) th := by
  obtain ⟨A, k, hO⟩ := exec_one hcs hsign h
  refine ⟨A, hO.state.desc.2.2, ?_⟩
  intro th hth
  obtain ⟨m, hm, h⟩ := hO.heads th hth
  exact ⟨m, le_trans hm hO.le, h⟩

/-- C57, when no write to the database fails: the auditor never returns two different heads for the same tree size. -/
theorem C57_no_equivocation_partial {cs : Log.Suite} (hcs : cs.Good) {cfg : Config} {key : Bytes} {sign : Bytes → G Bytes}
    (hsign : ∀ b sig, sign b = .ok sig → sig.length < 2 ^ 16)
    {us kept : List AuditorUpdate} {hs : List AuditorTreeHead} {a : Auditor}
    (h : Exec cs cfg key sign (fun u => UpdateOk cs u ∧ u.added.length < 2 ^ 16) (fun put => ∀ b, put b = .ok ()) us kept hs a)
    (h₁ h₂ : AuditorTreeHead) (hm₁ : h₁ ∈ hs) (hm₂ : h₂ ∈ hs) (hsize : h₁.treeSize = h₂.treeSize) : h₁ = h₂ := by
  obtain ⟨A, -, hA⟩ := C57_one_log_partial hcs hsign h
  obtain ⟨m, hm, -, a2, a3, tbs, a4, a5⟩ := hA h₁ hm₁
  obtain ⟨m', hm', -, b2, b3, tbs', b4, b5⟩ := hA h₂ hm₂
  rw [log_length, List.length_take] at a2 b2
  have hmm : m = m' := by omega
  subst hmm
  have ht : h₁.timestamp = h₂.timestamp := by rw [a3, b3]
  rw [ht, hsize, b4] at a4
  cases a4
  rw [b5] at a5
  cases h₁
  cases h₂
  simp only [Except.ok.injEq] at a5 ht hsize
  simp only [a5, ht, hsize]

/-- C57 is false: `Commit` stores the signature in the auditor's state before the state is written (auditor.go:262-271).
If the write fails, `Commit` returns an error; a second `Commit` then returns the head although it was never written.
After a restart the auditor knows nothing of it, and signs a different head of the same size. -/
theorem C57_equivocation : ∃ us kept hs a h₁ h₂,
    Exec toySuite toyAuditCfg [1] .ok (UpdateOk toySuite) (fun _ => True) us kept hs a ∧ h₁ ∈ hs ∧ h₂ ∈ hs ∧
    h₁.treeSize = 1 ∧ h₂.treeSize = 1 ∧ h₁.timestamp = h₂.timestamp ∧ h₁.signature ≠ h₂.signature := by
  have hu1 : UpdateOk toySuite ⟨100, [⟨[0x20], [9]⟩], [], ⟨[.nonInclusionParent 0], []⟩⟩ := by
    simp [UpdateOk, AuditorUpdate.Typed, ProofTyped, Each, EntryTyped, ResTyped, Fits, toySuite]
  have hu2 : UpdateOk toySuite ⟨100, [⟨[0x40], [1]⟩], [], ⟨[.nonInclusionParent 0], []⟩⟩ := by
    simp [UpdateOk, AuditorUpdate.Typed, ProofTyped, Each, EntryTyped, ResTyped, Fits, toySuite]
  have e1 := (((Exec.start (cs := toySuite) (cfg := toyAuditCfg) (key := [1]) (sign := .ok) (U := UpdateOk toySuite)
    (P := fun _ => True) (a := ⟨none, none⟩) rfl).update hu1 (by decide)).commit
    (put := fun _ => goErr "write failed") trivial).commit (put := fun _ => goErr "write failed") trivial
  have e2 := e1.restart (b := ⟨none, none⟩) (by decide +kernel)
  have e3 := (e2.update hu2 (by decide)).commit (put := fun _ => .ok ()) trivial
  refine ⟨_, _, _, _, _, _, e3, List.getElem_mem (n := 0) (by decide +kernel), List.getElem_mem (n := 1) (by decide +kernel), ?_⟩
  decide +kernel

-- the hypotheses of the partial theorems: an auditor that has returned a head and was restarted
example : ∃ us kept hs a, Exec toySuite toyAuditCfg [1] (fun b => .ok (b.take 10))
    (fun u => UpdateOk toySuite u ∧ u.added.length < 2 ^ 16) (fun put => ∀ b, put b = .ok ()) us kept hs a ∧
    us.length = 1 ∧ kept.length = 1 ∧ hs.length = 2 := by
  have hu : UpdateOk toySuite ⟨100, [⟨[0x20], [9]⟩], [], ⟨[.nonInclusionParent 0], []⟩⟩ := by
    simp [UpdateOk, AuditorUpdate.Typed, ProofTyped, Each, EntryTyped, ResTyped, Fits, toySuite]
  have e1 := ((Exec.start (cs := toySuite) (cfg := toyAuditCfg) (key := [1]) (sign := fun b => .ok (b.take 10))
    (U := fun u => UpdateOk toySuite u ∧ u.added.length < 2 ^ 16) (P := fun put => ∀ b, put b = .ok ())
    (a := ⟨none, none⟩) rfl).update ⟨hu, by decide⟩ (by decide)).commit (put := fun _ => .ok ()) (fun _ => rfl)
  have e2 := (e1.restart (b := (Audit.commit toySuite toyAuditCfg (fun b => .ok (b.take 10)) (fun _ => .ok ())
    (process toySuite toyAuditCfg ⟨100, [⟨[0x20], [9]⟩], [], ⟨[.nonInclusionParent 0], []⟩⟩ ⟨none, none⟩).2).2)
    (by decide +kernel)).commit (put := fun _ => .ok ()) (fun _ => rfl)
  refine ⟨_, _, _, _, e2, ?_⟩
  decide +kernel

end Katie.Props
