import Verif.Lemmas.ServerStep
import Verif.Lemmas.Sendable
import Verif.Props.C07_C09_Prefix
import Verif.Spec.Acceptable

/-
When `Mutate` succeeds.
-/

namespace Katie.Server
open Katie Katie.Wire Katie.Alg Katie.ServerSpec Katie.PrefixSpec Katie.AuditSpec Katie.SearchSpec

/-! ### the steps of a change succeed -/

/-- the computation succeeds in this state -/
def Tot {σ α : Type} (x : St σ α) (s : σ) : Prop := ∃ a s', x s = (.ok a, s')

theorem Tot.bind {σ α β : Type} {x : St σ α} {f : α → St σ β} {s s1 : σ} {a : α} (h : x s = (.ok a, s1)) (hf : Tot (f a) s1) :
    Tot (x >>= f) s := by
  obtain ⟨b, s', hf⟩ := hf
  exact ⟨b, s', St.bind_ok.2 ⟨a, s1, h, hf⟩⟩

theorem Tot.lift {σ α β : Type} {g : G α} {f : α → St σ β} {s : σ} {a : α} (h : g = .ok a) (hf : Tot (f a) s) :
    Tot (St.lift g >>= f) s := .bind (by rw [St.lift_run, h]) hf

theorem Tot.read {σ α β : Type} {g : σ → G α} {f : α → St σ β} {s : σ} {a : α} (h : g s = .ok a) (hf : Tot (f a) s) :
    Tot (St.read g >>= f) s := .bind (by rw [St.read_run, h]) hf

theorem Tot.modify {σ β : Type} {g : σ → σ} {f : Unit → St σ β} {s : σ} (hf : Tot (f ()) (g s)) : Tot (St.modify g >>= f) s :=
  .bind (St.modify_run g s) hf

theorem Tot.pure {σ α : Type} {a : α} {s : σ} : Tot (Pure.pure a : St σ α) s := ⟨a, s, rfl⟩

theorem computeVrf_total {env : Env} {l : Bytes} (hl : l.length ≤ 255) (v : Nat) : ∃ m, computeVrf env l v = .ok (env.prove m) := by
  obtain ⟨b, hb⟩ := Encodes.seq (wBytes_encodes (k := 1) (name := "label") (l := l) (by simpa using hl)) (b := wNum 4 v) ⟨_, rfl⟩
  refine ⟨b, ?_⟩
  unfold computeVrf vrfInput
  rw [hb]
  rfl

theorem computeVrf_label {env : Env} {l : Bytes} {v : Nat} {o : Bytes × Bytes} (h : computeVrf env l v = .ok o) : l.length ≤ 255 := by
  unfold computeVrf vrfInput at h
  obtain ⟨b, hb, -⟩ := G.bind_eq_ok.1 h
  obtain ⟨x, y, hx, -, -⟩ := wSeq_ok.1 hb
  unfold wBytes at hx
  split at hx
  · cases hx
  · omega

theorem value_encodes {x : UpdateValue} : Encodes x.marshal ↔ Short x := by
  unfold UpdateValue.marshal Short
  constructor
  · rintro ⟨b, hb⟩
    obtain ⟨y, z, hy, hz, -⟩ := wSeq_ok.1 hb
    constructor
    · unfold wBytes at hy
      split at hy
      · cases hy
      · simp at *; omega
    · intro s hs
      rw [hs] at hz
      unfold marshalUpdateSuffix wBytes at hz
      simp only at hz
      split at hz
      · cases hz
      · simp at *; omega
  · rintro ⟨h1, h2⟩
    refine .seq (wBytes_encodes (by simp; omega)) ?_
    cases hs : x.signature with
    | none => exact ⟨_, rfl⟩
    | some s =>
      have := h2 s hs
      exact wBytes_encodes (by simp; omega)

theorem commitmentValue_total {l : Bytes} (hl : l.length ≤ 255) {v : Nat} {x : UpdateValue} (hx : Short x) : Encodes (commitmentValue l v x) :=
  .seq (wBytes_encodes (by simpa using hl)) (.seq ⟨_, rfl⟩ (value_encodes.2 hx))

theorem deleteVersions_total {env : Env} {l : Bytes} : ∀ (vers : List Nat) (st : Store), (∀ v ∈ vers, ∃ o, computeVrf env l v = .ok o) →
    ∃ out st', deleteVersions env l vers st = (.ok out, st')
  | [], st, _ => ⟨_, _, rfl⟩
  | v :: vers, st, h => by
    obtain ⟨o, ho⟩ := h v (by simp)
    obtain ⟨out, st', h2⟩ := deleteVersions_total vers { st with versions := st.versions.filter (fun e => decide (e.1 ≠ (l, v))) }
      (fun w hw => h w (by simp [hw]))
    refine ⟨o.1 :: out, st', ?_⟩
    unfold deleteVersions deleteVersion
    exact St.bind_ok.2 ⟨_, _, rfl, St.bind_ok.2 ⟨o, _, by rw [St.lift_run, ho], St.bind_ok.2 ⟨out, st', h2, rfl⟩⟩⟩

theorem addVersions_total {env : Env} {op : Bytes → Nat → Bytes} {n : Nat} : ∀ (ps : List LabelValue) (idx : List Nat) (st : Store),
    (∀ p ∈ ps, p.label.length ≤ 255 ∧ Short p.value) → ∃ r st', addVersions env op n ps idx st = (.ok r, st')
  | [], idx, st, _ => ⟨_, _, rfl⟩
  | p :: ps, idx, st, h => by
    obtain ⟨h1, h2⟩ := h p (by simp)
    obtain ⟨m, hm⟩ := computeVrf_total (env := env) h1 (idx.length % 2 ^ 32)
    obtain ⟨raw, hraw⟩ : Encodes (⟨op p.label (idx.length % 2 ^ 32), p.value⟩ : OpeningAndValue).marshal :=
      .seq ⟨_, rfl⟩ (value_encodes.2 h2)
    obtain ⟨body, hbody⟩ := commitmentValue_total h1 (v := idx.length % 2 ^ 32) h2
    obtain ⟨⟨es, idx'⟩, st', h3⟩ := addVersions_total (env := env) (op := op) (n := n) ps (idx ++ [n])
      { st with versions := ((p.label, idx.length % 2 ^ 32), raw) :: st.versions } (fun q hq => h q (by simp [hq]))
    refine ⟨(⟨(env.prove m).1, Commit.commit env.cs (op p.label (idx.length % 2 ^ 32)) body⟩ :: es, idx'), st', ?_⟩
    unfold addVersions
    refine St.bind_ok.2 ⟨env.prove m, st, by rw [St.lift_run, hm], St.bind_ok.2 ⟨_, _, ?_, St.bind_ok.2 ⟨(es, idx'), st', h3, rfl⟩⟩⟩
    unfold putVersion
    exact St.bind_ok.2 ⟨raw, st, by rw [St.lift_run, hraw], St.bind_ok.2 ⟨(), _, rfl, St.bind_ok.2 ⟨body, _, by rw [St.lift_run, hbody], rfl⟩⟩⟩

theorem differences_total : ∀ (l : List Nat) (x : Nat), (x :: l).Pairwise (· ≤ ·) → ∃ ds, DB.differences x l = .ok ds
  | [], x, _ => ⟨_, rfl⟩
  | y :: l, x, h => by
    obtain ⟨h1, h2⟩ := List.pairwise_cons.1 h
    obtain ⟨ds, hds⟩ := differences_total l y h2
    refine ⟨(y - x) :: ds, ?_⟩
    unfold DB.differences
    have := h1 y (by simp)
    rw [if_neg (by omega), hds]
    rfl

theorem storeIndex_total {adds : List LabelValue} {index : List Nat} (hs : index.Pairwise (· ≤ ·)) (hne : adds ≠ [] → index ≠ []) (st : Store) :
    ∃ st', storeIndex adds index st = (.ok (), st') := by
  cases adds with
  | nil => exact ⟨st, rfl⟩
  | cons p ps =>
    cases index with
    | nil => exact absurd rfl (hne (by simp))
    | cons x l =>
      obtain ⟨ds, hds⟩ := differences_total l x hs
      unfold storeIndex putIndex
      refine ⟨_, St.bind_ok.2 ⟨some ((x :: ds).map encodeUvarint).flatten, st, ?_, rfl⟩⟩
      rw [St.lift_run]
      unfold DB.encodeIndex
      simp only [hds]
      rfl

theorem mutateLabel_total {env : Env} {c : Change} {n : Nat} {prevDLE : Option Nat} {l : Bytes} {vs : List Version} {st : Store}
    (hadd : ∀ p ∈ c.add, p.label.length ≤ 255 ∧ Short p.value)
    (hvrf : ∀ v, v < vs.length → ∃ o, computeVrf env l v = .ok o)
    (hpos : (vs.map Version.pos).Pairwise (· ≤ ·)) (hlt : ∀ x ∈ vs.map Version.pos, x < n)
    (hold : l ∈ c.remove → ∀ x ∈ vs, ∃ d, prevDLE = some d ∧ x.pos ≤ d) :
    ∃ r st', mutateLabel env c.opening n prevDLE (mutationOf c l vs) st = (.ok r, st') := by
  have hrem : ∃ rem idx s1, removeLabel env prevDLE (mutationOf c l vs) st = (.ok (rem, idx), s1) ∧ idx.Pairwise (· ≤ ·) ∧ ∀ x ∈ idx, x < n := by
    unfold removeLabel mutationOf
    simp only
    by_cases hm : l ∈ c.remove
    · have hc : c.remove.contains l = true := by simp [hm]
      rw [hc]
      by_cases hv : vs = []
      · subst hv
        exact ⟨_, _, st, rfl, by simp, by simp⟩
      · have hne : vs.map Version.pos ≠ [] := by simpa using hv
        rw [List.getLast?_eq_some_getLast hne]
        simp only
        have hmem := List.getLast_mem hne
        obtain ⟨x, hx, hxe⟩ := List.mem_map.1 hmem
        obtain ⟨d, hd, hle⟩ := hold hm x hx
        have hif : ¬ (prevDLE.all (fun d => decide ((vs.map Version.pos).getLast hne > d)) = true) := by
          rw [hd]
          simp only [Option.all_some, decide_eq_true_eq]
          omega
        rw [if_neg hif]
        obtain ⟨out, st', h2⟩ := deleteVersions_total (env := env) (l := l) (List.range (vs.map Version.pos).length)
          { st with index := st.index.filter (fun e => decide (e.1 ≠ l)) } (fun v hv => hvrf v (by simpa using hv))
        exact ⟨out, [], st', St.bind_ok.2 ⟨(), _, rfl, St.bind_ok.2 ⟨out, st', h2, rfl⟩⟩, by simp, by simp⟩
    · have hc : c.remove.contains l = false := by simp [hm]
      rw [hc]
      exact ⟨_, _, st, rfl, hpos, hlt⟩
  obtain ⟨rem, idx, s1, h1, h2, h3⟩ := hrem
  have hps : ∀ p ∈ (mutationOf c l vs).add, p.label.length ≤ 255 ∧ Short p.value := fun p hp => hadd p (List.mem_filter.1 hp).1
  obtain ⟨⟨es, idx'⟩, s2, h4⟩ := addVersions_total (env := env) (op := c.opening) (n := n) (mutationOf c l vs).add idx s1 hps
  have hidx : ∀ (ps : List LabelValue) (idx : List Nat) (s : Store) (es : List Prefix.Entry) (idx' : List Nat) (s' : Store),
      addVersions env c.opening n ps idx s = (.ok (es, idx'), s') → idx' = idx ++ List.replicate ps.length n := by
    intro ps
    induction ps with
    | nil =>
      intro idx s es idx' s' h
      obtain ⟨h1, -⟩ := Prod.mk.inj h
      obtain ⟨-, rfl⟩ := Prod.mk.inj (Except.ok.inj h1)
      simp
    | cons p ps ih =>
      intro idx s es idx' s' h
      unfold addVersions at h
      obtain ⟨_, _, _, k1⟩ := St.bind_ok.1 h
      obtain ⟨_, _, _, k2⟩ := St.bind_ok.1 k1
      obtain ⟨⟨e2, i2⟩, _, h3, k3⟩ := St.bind_ok.1 k2
      obtain ⟨h1, -⟩ := Prod.mk.inj k3
      obtain ⟨-, rfl⟩ := Prod.mk.inj (Except.ok.inj h1)
      rw [ih _ _ _ _ _ h3]
      simp [List.replicate_succ]
  have hi' := hidx _ _ _ _ _ _ h4
  obtain ⟨s3, h5⟩ := storeIndex_total (adds := (mutationOf c l vs).add) (index := idx') (by
    rw [hi']
    refine List.pairwise_append.2 ⟨h2, List.pairwise_replicate.2 (.inr (le_refl _)), ?_⟩
    intro a ha b hb
    rw [(List.mem_replicate.1 hb).2]
    exact (h3 a ha).le) (by
    intro hne
    rw [hi']
    cases hq : (mutationOf c l vs).add with
    | nil => exact absurd hq hne
    | cons p ps => simp [List.replicate_succ]) s2
  unfold mutateLabel
  exact ⟨_, s3, St.bind_ok.2 ⟨(rem, idx), s1, h1, St.bind_ok.2 ⟨(es, idx'), s2, h4, St.bind_ok.2 ⟨(), s3, h5, rfl⟩⟩⟩⟩

theorem forEach_total {env : Env} {c : Change} {n : Nat} {prevDLE : Option Nat} {vs : Bytes → List Version}
    (h : ∀ l st, l ∈ labelsOf c → ∃ r st', mutateLabel env c.opening n prevDLE (mutationOf c l (vs l)) st = (.ok r, st')) :
    ∀ (ls : List Bytes), (∀ l ∈ ls, l ∈ labelsOf c) → ∀ st, ∃ rs st',
      St.forEach (mutateLabel env c.opening n prevDLE) (ls.map (fun l => mutationOf c l (vs l))) st = (.ok rs, st')
  | [], _, st => ⟨_, _, rfl⟩
  | l :: ls, hls, st => by
    obtain ⟨r, s1, h1⟩ := h l st (hls l (by simp))
    obtain ⟨rs, s2, h2⟩ := forEach_total h ls (fun l' hl' => hls l' (by simp [hl'])) s1
    rw [List.map_cons]
    unfold St.forEach
    exact ⟨_, s2, St.bind_ok.2 ⟨r, s1, h1, St.bind_ok.2 ⟨rs, s2, h2, rfl⟩⟩⟩

theorem issueTreeHead_total {env : Env} (hcs : env.cs.Good) {W : List LogEntry} {t : Nat} {r : Bytes} {st : Store}
    (hlog : Log.StoreOK env.cs (W.map (leafHash env.cs)) st.log) (hn : W.length + 1 < 2 ^ 63)
    (hcfg : Encodes (marshalConfig env.cfg)) (hsign : ∀ tbs, ∃ sig, env.sign tbs = .ok sig ∧ sig.length < 2 ^ 16) :
    ∃ hd st', issueTreeHead env W.length t r st = (.ok hd, st') := by
  have hL : ∀ v ∈ W.map (leafHash env.cs) ++ [leafHash env.cs ⟨t, r⟩], v.length = env.cs.hashSize := by
    intro v hv
    rcases List.mem_append.1 hv with hv | hv
    · obtain ⟨e, _, rfl⟩ := List.mem_map.1 hv; exact Audit.leafHash_len hcs e
    · rw [List.mem_singleton] at hv; rw [hv]; exact Audit.leafHash_len hcs _
  have hmax : LogMath.maxTreeSize = 2 ^ 63 := by decide +kernel
  obtain ⟨log, ha, -⟩ := Log.treeAppend_ok hcs hL (by rw [List.length_map, hmax]; omega) hlog
  rw [List.length_map] at ha
  have hroot := Log.root_heads hcs hL (by simp) (by simp [hmax]; omega)
  have hlen : (W.map (leafHash env.cs) ++ [leafHash env.cs ⟨t, r⟩]).length = W.length + 1 := by simp
  rw [hlen] at hroot
  obtain ⟨tbs, htbs⟩ : Encodes (treeHeadTBS env.cfg (W.length + 1)
      (LogSpec.rootHash env.cs.H (W.map (leafHash env.cs) ++ [leafHash env.cs ⟨t, r⟩]))) := .seq hcfg (.seq ⟨_, rfl⟩ ⟨_, rfl⟩)
  obtain ⟨sig, hsig, hsl⟩ := hsign tbs
  obtain ⟨b, hb⟩ : Encodes (⟨W.length + 1, sig⟩ : TreeHead).marshal := .seq ⟨_, rfl⟩ (wBytes_encodes (by simp; omega))
  unfold issueTreeHead
  exact Tot.lift (entry_marshal _ _) (.modify (.lift (a := leafHash env.cs ⟨t, r⟩) rfl (.read ha (.modify (.lift hroot (.lift htbs (.lift hsig
    (.lift hb (.modify .pure)))))))))

/-! ### the change as a whole -/

theorem nodup_flatMap_of {α β γ : Type} {R : α → β → Prop} {f : β → List γ} {ls : List α} {rs : List β} (h : List.Forall₂ R ls rs)
    (hnd : ls.Nodup) (h1 : ∀ a b, R a b → (f b).Nodup)
    (h2 : ∀ a ∈ ls, ∀ a' ∈ ls, ∀ b b', a ≠ a' → R a b → R a' b' → ∀ x ∈ f b, x ∉ f b') : (rs.flatMap f).Nodup := by
  induction h with
  | nil => simp
  | @cons a b ls rs hab h ih =>
    rw [List.nodup_cons] at hnd
    rw [List.flatMap_cons, List.nodup_append]
    refine ⟨h1 a b hab, ih hnd.2 (fun a ha a' ha' => h2 a (by simp [ha]) a' (by simp [ha'])), ?_⟩
    rintro x hx y hy rfl
    obtain ⟨b', hb', hy⟩ := List.mem_flatMap.1 hy
    obtain ⟨a', ha', hr⟩ := forall₂_right h b' hb'
    exact h2 a (by simp) a' (by simp [ha']) b b' (fun he => hnd.1 (he ▸ ha')) hab hr x hx hy

theorem something_changes {env : Env} {cs : List Change} {c : Change} {d : Option Nat} (hc : ChangeOk env c)
    {rs : List (List Prefix.Entry × List Bytes)} (f4 : List.Forall₂ (LabelOut env cs.length c d fun l => versionsOf l cs) (labelsOf c) rs)
    (hne : ChangesSomething cs c) :
    cs = [] ∨ Prefix.sortBy Prefix.Entry.vrf (rs.flatMap (·.1)) ≠ [] ∨ Prefix.sortBy id (rs.flatMap (·.2)) ≠ [] := by
  have nil1 : ∀ {α : Type} {key : α → Bytes} {l : List α}, l ≠ [] → Prefix.sortBy key l ≠ [] := by
    intro α key l h hcon
    have := (Prefix.sortBy_perm (key := key) l).length_eq
    rw [hcon] at this
    exact h (List.length_eq_zero_iff.1 this.symm)
  rcases hne with hne | hne | ⟨l, hl, hv⟩
  · exact .inl hne
  · refine .inr (.inl (nil1 ?_))
    obtain ⟨p, hp⟩ := List.exists_mem_of_ne_nil _ hne
    have hl := (mem_labelsOf hc.order p.label).2 (.inl ⟨p, hp, rfl⟩)
    obtain ⟨r, hr', ho⟩ := forall₂_left f4 _ hl
    intro hcon
    have hlen := ho.len
    rw [fresh_length] at hlen
    have hmem : p ∈ c.add.filter (fun q => q.label == p.label) := List.mem_filter.2 ⟨hp, by simp⟩
    have hpos := List.length_pos_of_mem hmem
    have h0 : 0 < r.1.length := by omega
    have : r.1[0] ∈ rs.flatMap (·.1) := List.mem_flatMap.2 ⟨r, hr', List.getElem_mem h0⟩
    rw [hcon] at this
    cases this
  · refine .inr (.inr (nil1 ?_))
    obtain ⟨r, hr', ho⟩ := forall₂_left f4 _ ((mem_labelsOf hc.order l).2 (.inr hl))
    have h1 := ho.remove
    rw [if_pos hl] at h1
    have h2 := h1.1.length_eq
    have h3 : 0 < (versionsOf l cs).length := List.length_pos_iff.2 hv
    intro hcon
    have h0 : 0 < r.2.length := by rw [← h2, List.length_range]; exact h3
    have : r.2[0] ∈ rs.flatMap (·.2) := List.mem_flatMap.2 ⟨r, hr', List.getElem_mem h0⟩
    rw [hcon] at this
    cases this

theorem prefix_mutate_iff {env : Env} (hcs : env.cs.Good) (hsm : Prefix.Small env.cs) {cs : List Change} {us : List AuditorUpdate}
    {st : Store} {head : Option TreeHead} {c : Change} (h : Inv env cs us st head) (hc : ChangeOk env c) (hr : InRange (cs ++ [c]))
    {d : Option Nat} {rs : List (List Prefix.Entry × List Bytes)}
    (f4 : List.Forall₂ (LabelOut env cs.length c d fun l => versionsOf l cs) (labelsOf c) rs) (hnd : (labelsOf c).Nodup)
    (hne : ChangesSomething cs c) :
    let A := Prefix.sortBy Prefix.Entry.vrf (rs.flatMap (·.1))
    let R := Prefix.sortBy id (rs.flatMap (·.2))
    let b : Batch := ⟨A.map (fun e => (e.vrf, e.com)), R⟩
    ((∃ res, Prefix.mutate env.cs st.tiles cs.length A R = .ok res) ↔ b.Valid env.cs.hashSize (contents (us.map batchOf))) ∧
    (¬ b.Valid env.cs.hashSize (contents (us.map batchOf)) → ∃ msg, Prefix.mutate env.cs st.tiles cs.length A R = .error (.err msg)) := by
  intro A R b
  have hsize' := hr.size
  rw [List.length_append, List.length_singleton] at hsize'
  have hchg : cs = [] ∨ A ≠ [] ∨ R ≠ [] := something_changes hc f4 hne
  have hcount : (contents (us.map batchOf ++ [b])).length ≤ ((cs ++ [c]).flatMap Change.add).length := by
    rw [Prefix.contents_snoc, List.flatMap_append, List.length_append]
    unfold Batch.apply
    rw [List.length_append]
    have h1 := List.length_filter_le (fun e => decide (e.1 ∉ R)) (contents (us.map batchOf))
    have h2 := h.count
    have h3 : ([c].flatMap Change.add).length = c.add.length := by simp
    have h4 : (A.map (fun e : Prefix.Entry => (e.vrf, e.com))).length ≤ c.add.length := by
      rw [List.length_map, (Prefix.sortBy_perm _).length_eq]
      exact added_length f4 hnd
    rw [h3]
    exact Nat.add_le_add (h1.trans h2) h4
  have := Props.C08_mutate_iff_valid hcs hsm h.hist b (by
    rcases hchg with hchg | hchg | hchg
    · left
      have : us.length = 0 := by rw [h.len, hchg]; rfl
      rw [List.length_eq_zero_iff.1 this]; rfl
    · exact .inr (.inl (by simpa [b] using hchg))
    · exact .inr (.inr hchg)) (by rw [List.length_map, h.len]; omega) (Nat.lt_of_le_of_lt hcount hr.pairs)
  have e : PrefixSpec.entries b.add = A := entries_pairs A
  rw [e, List.length_map, h.len] at this
  exact this

theorem mutateStore_total {env : Env} (hcs : env.cs.Good) (hsm : Prefix.Small env.cs) {cs : List Change} {us : List AuditorUpdate}
    {st : Store} {head : Option TreeHead} {c : Change} (h : Inv env cs us st head) (hc : ChangeOk env c) (hr : InRange (cs ++ [c]))
    (hvrf : ∀ m, (env.prove m).1.length = env.cs.hashSize)
    (hcfg : Encodes (marshalConfig env.cfg)) (hsign : ∀ tbs, ∃ sig, env.sign tbs = .ok sig ∧ sig.length < 2 ^ 16)
    (hadd : ∀ p ∈ c.add, p.label.length ≤ 255 ∧ Short p.value)
    {d : Option Nat} (hd : previousDistinguished env st cs.length c.now = .ok d)
    (hold : ∀ l ∈ c.remove, ∀ x ∈ versionsOf l cs, ∃ y, d = some y ∧ x.pos ≤ y)
    (hap : Apart env (cs ++ [c])) (hne : ChangesSomething cs c) :
    ∃ hd u st', mutateStore env c cs.length st = (.ok (hd, .ok u), st') ∧ (cs = [] ∨ u.added ≠ [] ∨ u.removed ≠ []) := by
  have hsize := h.size
  have hsize' := hr.size
  rw [List.length_append, List.length_singleton] at hsize'
  have hWl : (logOf env.cs us).length = cs.length := by rw [logOf_length, h.len]
  have hnd := nodup_labelsOf hc.order
  have hold' : ∀ l (v : Nat), v < (versionsOf l cs).length → ∃ m, computeVrf env l v = .ok (env.prove m) := by
    intro l v hv
    obtain ⟨p, hp⟩ := h.total l v _ (List.getElem?_eq_getElem hv)
    obtain ⟨pr, hpr⟩ := pairOf_vrf hp
    exact computeVrf_total (computeVrf_label hpr) v
  obtain ⟨rs, s1, hf⟩ := forEach_total (env := env) (n := cs.length) (prevDLE := d) (vs := fun l => versionsOf l cs) (c := c) (by
    intro l s _
    refine mutateLabel_total hadd (fun v hv => ?_) (versionsOf_pos l cs).1 (versionsOf_pos l cs).2 (fun hl => hold l hl)
    obtain ⟨m, hm⟩ := hold' l v hv
    exact ⟨_, hm⟩) (labelsOf c) (fun _ hl => hl) st
  obtain ⟨f1, f2, f3, f4⟩ := forEach_labels _ _ _ _ hnd (fun l _ => h.repr l)
    (fun l _ => by rw [← versionsOf_snoc]; exact hr.versions l) hf
  -- the batch for the prefix tree
  set A := Prefix.sortBy Prefix.Entry.vrf (rs.flatMap (·.1)) with hA
  set R := Prefix.sortBy id (rs.flatMap (·.2)) with hR
  have memA : ∀ e, e ∈ A ↔ e ∈ rs.flatMap (·.1) := fun e => (Prefix.sortBy_perm _).mem_iff
  have memR : ∀ o, o ∈ R ↔ o ∈ rs.flatMap (·.2) := fun o => (Prefix.sortBy_perm _).mem_iff
  have hnew : ∀ {l v} {p : Pair}, NewPair env cs.length c (fun l => versionsOf l cs) l v p →
      v < (versionsOf l (cs ++ [c])).length ∧ (kept l c (versionsOf l cs)).length ≤ v ∧ (∃ pr, computeVrf env l v = .ok (p.1, pr)) ∧
      p.1.length = env.cs.hashSize ∧ p.2.length = env.cs.hashSize := by
    rintro l v p ⟨i, x, hx, hv, hp⟩
    simp only at hx hv
    have hi : i < (fresh l cs.length c (kept l c (versionsOf l cs)).length).length := by
      by_contra hcon
      rw [List.getElem?_eq_none (by omega)] at hx
      cases hx
    refine ⟨?_, by omega, pairOf_vrf hp, ?_, ?_⟩
    · rw [versionsOf_snoc]
      unfold step
      rw [List.length_append]
      omega
    · obtain ⟨pr, hpr⟩ := pairOf_vrf hp
      obtain ⟨m, hm⟩ := computeVrf_total (env := env) (computeVrf_label hpr) v
      rw [hpr] at hm
      have := congrArg Prod.fst (Except.ok.inj hm)
      simp only at this
      rw [this]
      exact hvrf m
    · unfold pairOf at hp
      obtain ⟨_, -, hp⟩ := G.bind_eq_ok.1 hp
      obtain ⟨_, -, hp⟩ := G.bind_eq_ok.1 hp
      rw [← Except.ok.inj hp]
      exact commit_len hcs _ _
  have hvalid : (⟨A.map (fun e => (e.vrf, e.com)), R⟩ : Batch).Valid env.cs.hashSize (contents (us.map batchOf)) := by
    refine ⟨?_, ?_, ?_, ?_, ?_, ?_⟩
    · intro e he
      obtain ⟨a, ha, rfl⟩ := List.mem_map.1 he
      obtain ⟨l, _, v, hn⟩ := (mem_added f4 a).1 ((memA a).1 ha)
      exact (hnew hn).2.2.2
    · have : (A.map (fun e : Prefix.Entry => (e.vrf, e.com))).map Prod.fst = A.map Prefix.Entry.vrf := by
        rw [List.map_map]; rfl
      rw [this, hA, ((Prefix.sortBy_perm _).map _).nodup_iff, List.map_flatMap]
      refine nodup_flatMap_of f4 hnd ?_ ?_
      · intro l r hlo
        rw [List.nodup_iff_injective_getElem]
        rintro ⟨i, hi⟩ ⟨j, hj⟩ hij
        simp only [List.length_map] at hi hj
        simp only [List.getElem_map] at hij
        have key : ∀ (i : Nat) (hi : i < r.1.length), NewPair env cs.length c (fun l => versionsOf l cs) l
            ((kept l c (versionsOf l cs)).length + i) (r.1[i].vrf, r.1[i].com) := by
          intro i hi
          have hi' : i < (fresh l cs.length c (kept l c (versionsOf l cs)).length).length := by rw [← hlo.len]; exact hi
          obtain ⟨e, he, hp⟩ := hlo.add i _ (List.getElem?_eq_getElem hi')
          rw [List.getElem?_eq_getElem hi] at he
          rw [Option.some.inj he]
          exact ⟨i, _, List.getElem?_eq_getElem hi', rfl, hp⟩
        obtain ⟨a1, -, ⟨p1, a2⟩, -⟩ := hnew (key i hi)
        obtain ⟨b1, -, ⟨p2, b2⟩, -⟩ := hnew (key j hj)
        simp only at a2 b2
        rw [hij] at a2
        have := (hap _ _ _ _ _ _ _ a1 b1 a2 b2).2
        exact Fin.ext (by simp only; omega)
      · intro l _ l' _ r r' hll hr hr' x hx hx'
        obtain ⟨a, ha, rfl⟩ := List.mem_map.1 hx
        obtain ⟨b, hb, hab⟩ := List.mem_map.1 hx'
        obtain ⟨v, hn⟩ := (hr.mem_add a).1 ha
        obtain ⟨v', hn'⟩ := (hr'.mem_add b).1 hb
        obtain ⟨a1, -, ⟨p1, a2⟩, -⟩ := hnew hn
        obtain ⟨b1, -, ⟨p2, b2⟩, -⟩ := hnew hn'
        simp only at a2 b2
        rw [hab] at b2
        exact hll (hap _ _ _ _ _ _ _ a1 b1 a2 b2).1
    · intro o ho
      obtain ⟨l, _, _, v, hv, p, hp⟩ := (mem_removed f4 o).1 ((memR o).1 ho)
      obtain ⟨m, hm⟩ := hold' l v hv
      rw [hp] at hm
      have := congrArg Prod.fst (Except.ok.inj hm)
      simp only at this
      rw [this]
      exact hvrf m
    · have same : ∀ {l v l' v' o p p'}, v < (versionsOf l cs).length → v' < (versionsOf l' cs).length →
          computeVrf env l v = .ok (o, p) → computeVrf env l' v' = .ok (o, p') → l = l' ∧ v = v' := by
        intro l v l' v' o p p' hv hv' ho ho'
        obtain ⟨q, hq⟩ := h.total l v _ (List.getElem?_eq_getElem hv)
        obtain ⟨q', hq'⟩ := h.total l' v' _ (List.getElem?_eq_getElem hv')
        obtain ⟨pr, hpr⟩ := pairOf_vrf hq
        obtain ⟨pr', hpr'⟩ := pairOf_vrf hq'
        rw [ho] at hpr
        rw [ho'] at hpr'
        refine h.inj l v _ q l' v' _ q' (List.getElem?_eq_getElem hv) hq (List.getElem?_eq_getElem hv') hq' ?_
        rw [← (Prod.mk.inj (Except.ok.inj hpr)).1, ← (Prod.mk.inj (Except.ok.inj hpr')).1]
      rw [hR, (Prefix.sortBy_perm _).nodup_iff]
      refine nodup_flatMap_of f4 hnd ?_ ?_
      · intro l r hlo
        have := hlo.remove
        by_cases hl : l ∈ c.remove
        · rw [if_pos hl] at this
          obtain ⟨this, -⟩ := this
          rw [List.nodup_iff_injective_getElem]
          have hlen := this.length_eq
          rw [List.length_range] at hlen
          rintro ⟨i, hi⟩ ⟨j, hj⟩ hij
          simp only at hij
          have get : ∀ (i : Nat) (hi : i < r.2.length), ∃ p, computeVrf env l i = .ok (r.2[i], p) := by
            intro i hi
            have := List.forall₂_iff_get.1 this |>.2 i (by simpa [hlen] using hi) hi
            simpa using this
          obtain ⟨p, hp⟩ := get i hi
          obtain ⟨p', hp'⟩ := get j hj
          rw [hij] at hp
          exact Fin.ext (same (by rw [hlen]; exact hi) (by rw [hlen]; exact hj) hp hp').2
        · rw [if_neg hl] at this
          rw [this]
          simp
      · intro l _ l' _ r r' hll hr hr' x hx hx'
        obtain ⟨_, v, hv, p, hp⟩ := (hr.mem_remove x).1 hx
        obtain ⟨_, v', hv', p', hp'⟩ := (hr'.mem_remove x).1 hx'
        exact hll (same hv hv' hp hp').1
    · intro e he hS
      obtain ⟨a, ha, rfl⟩ := List.mem_map.1 he
      obtain ⟨l, _, v, hn⟩ := (mem_added f4 a).1 ((memA a).1 ha)
      obtain ⟨a1, a0, ⟨p1, a2⟩, -⟩ := hnew hn
      obtain ⟨q, hq, hqe⟩ := List.mem_map.1 hS
      obtain ⟨l', v', x, hx, hp⟩ := (h.mem q).1 hq
      obtain ⟨pr, hpr⟩ := pairOf_vrf hp
      rw [hqe] at hpr
      have hv' : v' < (versionsOf l' cs).length := by
        by_contra hcon
        rw [List.getElem?_eq_none (by omega)] at hx
        cases hx
      simp only at a2 hpr
      rw [memR, mem_removed f4]
      by_cases hl' : l' ∈ c.remove
      · exact ⟨l', (mem_labelsOf hc.order l').2 (.inr hl'), hl', v', hv', pr, hpr⟩
      · exfalso
        have hk : kept l' c (versionsOf l' cs) = versionsOf l' cs := by unfold kept; rw [if_neg hl']
        have hv2 : v' < (versionsOf l' (cs ++ [c])).length := by
          rw [versionsOf_snoc]
          unfold step
          rw [hk, List.length_append]
          omega
        obtain ⟨rfl, rfl⟩ := hap _ _ _ _ _ _ _ a1 hv2 a2 hpr
        rw [hk] at a0
        omega
    · intro o ho
      obtain ⟨l, _, _, v, hv, p, hp⟩ := (mem_removed f4 o).1 ((memR o).1 ho)
      obtain ⟨q, hq⟩ := h.total l v _ (List.getElem?_eq_getElem hv)
      obtain ⟨pr, hpr⟩ := pairOf_vrf hq
      rw [hp] at hpr
      rw [(Prod.mk.inj (Except.ok.inj hpr)).1]
      exact List.mem_map.2 ⟨q, (h.mem q).2 ⟨l, v, _, List.getElem?_eq_getElem hv, hq⟩, rfl⟩
  have hchg := something_changes hc f4 hne
  obtain ⟨res, hres⟩ := (prefix_mutate_iff hcs hsm h hc hr f4 hnd hne).1.2 hvalid
  obtain ⟨hd', s2, hi⟩ := issueTreeHead_total (env := env) hcs (W := logOf env.cs us) (t := c.now) (r := res.root)
    (st := { s1 with tiles := res.store }) (by
      have := h.log
      rw [← f1.log] at this
      exact this) (by rw [hWl]; omega) hcfg hsign
  rw [hWl] at hi
  have hlen := Prefix.mutate_removed_length hres
  obtain ⟨u, hu⟩ := auditorUpdate_total (t := c.now) (added := A) (proof := res.proof) hlen
  obtain ⟨-, u2, u3, -, -⟩ := auditorUpdate_ok hlen hu
  refine ⟨hd', u, s2, ?_, ?_⟩
  · unfold mutateStore
    refine St.read_bind_ok.2 ⟨d, hd, St.read_bind_ok.2 ⟨_, groupByLabel_eq (vs := fun l => versionsOf l cs) (labelsOf c) (fun l _ => h.getIndex l),
      St.bind_ok.2 ⟨rs, s1, hf, St.read_bind_ok.2 ⟨res, by rw [f1.tiles]; exact hres, ?_⟩⟩⟩⟩
    rw [St.modify_bind]
    refine St.bind_ok.2 ⟨hd', s2, hi, ?_⟩
    rw [St.pure_run, ← hA, ← hR, hu]
  · rcases hchg with hchg | hchg | hchg
    · exact .inl hchg
    · exact .inr (.inl (by rw [u2]; exact hchg))
    · right; right
      intro he
      rw [he] at u3
      exact hchg u3.symm

/-! ### a change that was made -/

/-- what a successful change says about the labels it removes -/
theorem mutateStore_made {env : Env} {cs : List Change} {us : List AuditorUpdate}
    {st st' : Store} {head : Option TreeHead} {c : Change} {hd : TreeHead} {u : AuditorUpdate} (h : Inv env cs us st head)
    (hc : ChangeOk env c) (hr : InRange (cs ++ [c])) (hm : mutateStore env c cs.length st = (.ok (hd, .ok u), st'))
    (hne : ChangesSomething cs c) :
    (∃ d, previousDistinguished env st cs.length c.now = .ok d ∧
      ∀ l ∈ c.remove, ∀ x ∈ versionsOf l cs, ∃ y, d = some y ∧ x.pos ≤ y) ∧
    (cs = [] ∨ u.added ≠ [] ∨ u.removed ≠ []) := by
  have hnd := nodup_labelsOf hc.order
  unfold mutateStore at hm
  obtain ⟨d, hd1, k1⟩ := St.read_bind_ok.1 hm
  obtain ⟨ms, hg, k2⟩ := St.read_bind_ok.1 k1
  rw [groupByLabel_eq (vs := fun l => versionsOf l cs) (labelsOf c) (fun l _ => h.getIndex l)] at hg
  obtain rfl := Except.ok.inj hg
  obtain ⟨rs, s1, hf, k3⟩ := St.bind_ok.1 k2
  obtain ⟨f1, f2, f3, f4⟩ := forEach_labels _ _ _ _ hnd (fun l _ => h.repr l)
    (fun l _ => by rw [← versionsOf_snoc]; exact hr.versions l) hf
  obtain ⟨res, hres, k4⟩ := St.read_bind_ok.1 k3
  rw [St.modify_bind] at k4
  obtain ⟨hd', s2, hi, k5⟩ := St.bind_ok.1 k4
  obtain ⟨k6, rfl⟩ := St.pure_ok.1 k5
  obtain ⟨rfl, hau⟩ := Prod.mk.inj k6
  obtain ⟨u1, u2, u3, u4, u5⟩ := auditorUpdate_ok (Prefix.mutate_removed_length hres) hau
  refine ⟨⟨d, hd1, ?_⟩, ?_⟩
  · intro l hl x hx
    obtain ⟨r, -, ho⟩ := forall₂_left f4 _ ((mem_labelsOf hc.order l).2 (.inr hl))
    have h1 := ho.remove
    rw [if_pos hl] at h1
    obtain ⟨y, last, hy, hlast, hle⟩ := h1.2 (List.ne_nil_of_mem hx)
    refine ⟨y, hy, le_trans ?_ hle⟩
    have hp := (versionsOf_pos l cs).1
    obtain ⟨init, hinit⟩ := List.getLast?_eq_some_iff.1 hlast
    rw [hinit] at hp
    have hx' : x.pos ∈ init ++ [last] := by rw [← hinit]; exact List.mem_map_of_mem hx
    rcases List.mem_append.1 hx' with hx' | hx'
    · exact (List.pairwise_append.1 hp).2.2 _ hx' _ (by simp)
    · rw [List.mem_singleton] at hx'; omega
  · have := something_changes hc f4 hne
    rcases this with h | h | h
    · exact .inl h
    · exact .inr (.inl (by rw [u2]; exact h))
    · refine .inr (.inr ?_)
      intro hcon
      apply h
      rw [← u3, hcon]; rfl

/-! ### a change that is refused -/

/-- the computation ends with a result or an error, in every state -/
def Soft {σ α : Type} (x : St σ α) : Prop := ∀ s e s', x s = (.error e, s') → IsErr e

theorem Soft.bind {σ α β : Type} {x : St σ α} {f : α → St σ β} (h : Soft x) (hf : ∀ a, Soft (f a)) : Soft (x >>= f) := by
  intro s e s' he
  rw [St.bind_run] at he
  split at he
  · exact hf _ _ _ _ he
  · rename_i s1 hx
    obtain ⟨h1, -⟩ := Prod.mk.inj he
    cases h1
    exact h _ _ _ hx

theorem Soft.lift {σ α : Type} {g : G α} (h : Calm g) : Soft (St.lift g : St σ α) := by
  intro s e s' he
  rw [St.lift_run] at he
  exact h e (Prod.mk.inj he).1

theorem Soft.modify {σ : Type} {g : σ → σ} : Soft (St.modify g) := by
  intro s e s' he
  rw [St.modify_run] at he
  cases (Prod.mk.inj he).1

theorem Soft.pure {σ α : Type} {a : α} : Soft (Pure.pure a : St σ α) := by
  intro s e s' he
  rw [St.pure_run] at he
  cases (Prod.mk.inj he).1

theorem Soft.read {σ α : Type} {g : σ → G α} (h : ∀ s, Calm (g s)) : Soft (St.read g) := by
  intro s e s' he
  rw [St.read_run] at he
  exact h s e (Prod.mk.inj he).1

theorem suffix_calm {x : Option Bytes} : Calm (marshalUpdateSuffix x) := by
  cases x with
  | none => exact .ok
  | some s => exact wBytes_calm

theorem value_calm {x : UpdateValue} : Calm x.marshal := wSeq_calm wBytes_calm suffix_calm

theorem deleteVersions_soft {env : Env} {l : Bytes} : ∀ vers, Soft (deleteVersions env l vers)
  | [] => .pure
  | v :: vers => by
    unfold deleteVersions deleteVersion
    exact .bind .modify (fun _ => .bind (.lift computeVrf_calm) (fun _ => .bind (deleteVersions_soft vers) (fun _ => .pure)))

theorem addVersions_soft {env : Env} {op : Bytes → Nat → Bytes} {n : Nat} : ∀ ps idx, Soft (addVersions env op n ps idx)
  | [], idx => .pure
  | p :: ps, idx => by
    unfold addVersions
    refine .bind (.lift computeVrf_calm) (fun _ => .bind ?_ (fun _ => .bind (addVersions_soft ps _) (fun _ => .pure)))
    unfold putVersion putVersionRaw
    exact .bind (.lift (wSeq_calm .ok value_calm)) (fun _ => .bind .modify (fun _ => .bind (.lift (wSeq_calm wBytes_calm (wSeq_calm .ok value_calm))) (fun _ => .pure)))

theorem differences_calm : ∀ l x, Calm (DB.differences x l)
  | [], x => .pure
  | y :: l, x => by
    unfold DB.differences
    exact .ite (fun _ => .err) (fun _ => .bind (differences_calm l y) (fun _ _ => .pure))

theorem storeIndex_soft {adds : List LabelValue} {index : List Nat} : Soft (storeIndex adds index) := by
  unfold storeIndex
  cases adds with
  | nil => exact .pure
  | cons p ps =>
    unfold putIndex
    refine .bind (.lift ?_) (fun r => ?_)
    · unfold DB.encodeIndex
      cases index with
      | nil => exact .pure
      | cons x l => exact .bind (differences_calm l x) (fun _ _ => .pure)
    · cases r with
      | none => exact .lift .err
      | some raw => exact .modify

theorem mutateLabel_soft {env : Env} {op : Bytes → Nat → Bytes} {n : Nat} {d : Option Nat} {m : LabelMutation} :
    Soft (mutateLabel env op n d m) := by
  unfold mutateLabel
  refine .bind ?_ (fun _ => .bind (addVersions_soft _ _) (fun _ => .bind storeIndex_soft (fun _ => .pure)))
  unfold removeLabel
  split
  · split
    · exact .lift .err
    · unfold deleteIndex
      exact .bind .modify (fun _ => .bind (deleteVersions_soft _) (fun _ => .pure))
  · exact .pure

theorem forEach_soft {σ α β : Type} {f : α → St σ β} (h : ∀ a, Soft (f a)) : ∀ l, Soft (St.forEach f l)
  | [] => .pure
  | a :: l => by
    unfold St.forEach
    exact .bind (h a) (fun _ => .bind (forEach_soft h l) (fun _ => .pure))

theorem previousDistinguished_late {env : Env} {st : Store} {W : List LogEntry} {now : Nat}
    (hentry : ∀ (x : Nat) e, W[x]? = some e → getEntry env st x = .ok e) (h0 : 0 < W.length) (hlt : now < timeOf W (W.length - 1)) :
    previousDistinguished env st W.length now = goErr "refusing to issue tree head: current timestamp is less than previous timestamp" := by
  have he := hentry (W.length - 1) W[W.length - 1] (List.getElem?_eq_getElem (by omega))
  have hts : ∃ p, (newProvider ({} : Produced)).getTimestamp (Produced.handle (serverDB env st) []) (W.length - 1) =
      (.ok (timeOf W (W.length - 1)), p) := by
    rw [Audit.timeOf_lt (show W.length - 1 < W.length by omega)]
    simp only [Provider.getTimestamp, newProvider, List.lookup_nil, Produced.handle, Produced.getTs, serverDB, he]
    exact ⟨_, rfl⟩
  obtain ⟨p, hp⟩ := hts
  unfold previousDistinguished
  simp only [if_pos h0, hp, if_pos hlt]
  rfl

/-- A call of `Mutate` that fails returns an error. -/
theorem mutateStore_soft {env : Env} (hcs : env.cs.Good) (hsm : Prefix.Small env.cs) {cs : List Change} {us : List AuditorUpdate}
    {st : Store} {head : Option TreeHead} {c : Change} (h : Inv env cs us st head) (hc : ChangeOk env c) (hr : InRange (cs ++ [c]))
    (hcfg : Encodes (marshalConfig env.cfg)) (hsign : ∀ tbs, ∃ sig, env.sign tbs = .ok sig ∧ sig.length < 2 ^ 16)
    (hne : ChangesSomething cs c) {e : Fault} {st' : Store}
    (he : mutateStore env c cs.length st = (.error e, st')) : IsErr e := by
  have hsize := h.size
  have hsize' := hr.size
  rw [List.length_append, List.length_singleton] at hsize'
  have hWl : (logOf env.cs us).length = cs.length := by rw [logOf_length, h.len]
  have hnd := nodup_labelsOf hc.order
  unfold mutateStore at he
  rw [St.bind_run, St.read_run] at he
  split at he
  rotate_left
  · rename_i e' s hd
    obtain ⟨h1, -⟩ := Prod.mk.inj he
    cases h1
    obtain ⟨hd, -⟩ := Prod.mk.inj hd
    have hentry := h.getEntry hcs
    rw [← hWl] at hd
    by_cases hlate : 0 < (logOf env.cs us).length ∧ c.now < timeOf (logOf env.cs us) ((logOf env.cs us).length - 1)
    · rw [previousDistinguished_late hentry hlate.1 hlate.2] at hd
      cases hd
      exact ⟨_, rfl⟩
    · obtain ⟨r, hr', -⟩ := (previousDistinguished_spec hentry (by rw [logOf_length]; exact h.times) hc.now (by rw [hWl]; exact hsize)).2
        (fun h0 => by
          by_contra hcon
          exact hlate ⟨h0, by omega⟩)
      rw [hr'] at hd
      cases hd
  rename_i d s hd
  obtain ⟨hd, rfl⟩ := Prod.mk.inj hd
  rw [St.bind_run, St.read_run, groupByLabel_eq (vs := fun l => versionsOf l cs) (labelsOf c) (fun l _ => h.getIndex l)] at he
  simp only at he
  rw [St.bind_run] at he
  split at he
  rotate_left
  · rename_i e' s hf
    obtain ⟨h1, -⟩ := Prod.mk.inj he
    cases h1
    exact forEach_soft (fun _ => mutateLabel_soft) _ _ _ _ hf
  rename_i rs s1 hf
  obtain ⟨f1, f2, f3, f4⟩ := forEach_labels _ _ _ _ hnd (fun l _ => h.repr l)
    (fun l _ => by rw [← versionsOf_snoc]; exact hr.versions l) hf
  rw [St.bind_run, St.read_run] at he
  split at he
  rotate_left
  · rename_i e' s hm
    obtain ⟨h1, -⟩ := Prod.mk.inj he
    cases h1
    obtain ⟨hm, -⟩ := Prod.mk.inj hm
    rw [f1.tiles] at hm
    by_cases hv : (⟨(Prefix.sortBy Prefix.Entry.vrf (rs.flatMap (·.1))).map (fun e => (e.vrf, e.com)), Prefix.sortBy id (rs.flatMap (·.2))⟩ : Batch).Valid
        env.cs.hashSize (contents (us.map batchOf))
    · obtain ⟨res, hres⟩ := prefix_mutate_iff hcs hsm h hc hr f4 hnd hne |>.1.2 hv
      rw [hres] at hm
      cases hm
    · obtain ⟨msg, hres⟩ := (prefix_mutate_iff hcs hsm h hc hr f4 hnd hne).2 hv
      rw [hres] at hm
      cases hm
      exact ⟨_, rfl⟩
  rename_i res s hm
  obtain ⟨hm, rfl⟩ := Prod.mk.inj hm
  rw [St.modify_bind, St.bind_run] at he
  obtain ⟨hd', s2, hi⟩ := issueTreeHead_total (env := env) hcs (W := logOf env.cs us) (t := c.now) (r := res.root)
    (st := { s1 with tiles := res.store }) (by
      have := h.log
      rw [← f1.log] at this
      exact this) (by rw [hWl]; omega) hcfg hsign
  rw [hWl] at hi
  rw [hi] at he
  simp only [St.pure_run] at he
  cases (Prod.mk.inj he).1

theorem Inv.treeSize {env : Env} {cs : List Change} {us : List AuditorUpdate} {t : Tree} (h : Inv env cs us t.db t.head) :
    t.size = cs.length := by
  rw [h.head.size, logOf_length, h.len]

/-- the update for the auditor is always returned when the tree head is -/
theorem mutateStore_update {env : Env} {c : Change} {n : Nat} {st st' : Store} {hd : TreeHead} {e : Fault} :
    mutateStore env c n st ≠ (.ok (hd, .error e), st') := by
  intro hm
  unfold mutateStore at hm
  obtain ⟨d, hd1, k1⟩ := St.read_bind_ok.1 hm
  obtain ⟨ms, hg, k2⟩ := St.read_bind_ok.1 k1
  obtain ⟨rs, s1, hf, k3⟩ := St.bind_ok.1 k2
  obtain ⟨res, hres, k4⟩ := St.read_bind_ok.1 k3
  rw [St.modify_bind] at k4
  obtain ⟨hd', s2, hi, k5⟩ := St.bind_ok.1 k4
  obtain ⟨k6, _⟩ := St.pure_ok.1 k5
  obtain ⟨_, hau⟩ := Prod.mk.inj k6
  obtain ⟨u, hu⟩ := auditorUpdate_total (t := c.now) (added := Prefix.sortBy Prefix.Entry.vrf (rs.flatMap (·.1)))
    (proof := res.proof) (Prefix.mutate_removed_length hres)
  rw [hu] at hau
  cases hau

end Katie.Server
