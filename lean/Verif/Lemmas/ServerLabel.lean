import Verif.Spec.Server
import Verif.Lemmas.PrefixBits
import Mathlib.Tactic.ByContra

/-
What `mutateLabel` does to the stored data of one label.
-/

namespace Katie.Server
open Katie Katie.Wire Katie.ServerSpec Katie.PrefixSpec

section lookups
variable {κ β : Type} [BEq κ] [LawfulBEq κ]

theorem lookup_cons_eq (k : κ) (b : β) (m : List (κ × β)) : ((k, b) :: m).lookup k = some b := by simp

theorem lookup_cons_ne {k x : κ} (h : x ≠ k) (b : β) (m : List (κ × β)) : ((k, b) :: m).lookup x = m.lookup x := by
  rw [List.lookup_cons]
  have : (x == k) = false := by simp [h]
  rw [this]

theorem lookup_filter [DecidableEq κ] (k x : κ) (m : List (κ × β)) :
    (m.filter (fun e => decide (e.1 ≠ k))).lookup x = if x = k then none else m.lookup x := by
  induction m with
  | nil => simp
  | cons e m ih =>
    obtain ⟨y, b⟩ := e
    rw [List.filter_cons]
    by_cases hy : y = k
    · rw [if_neg (by simp [hy]), ih]
      by_cases hx : x = k
      · rw [if_pos hx, if_pos hx]
      · rw [if_neg hx, if_neg hx, lookup_cons_ne (by rw [hy]; exact hx)]
    · rw [if_pos (by simp [hy])]
      by_cases hxy : x = y
      · rw [hxy, lookup_cons_eq, lookup_cons_eq, if_neg hy]
      · rw [lookup_cons_ne hxy, lookup_cons_ne hxy, ih]
end lookups

/-- the stored bytes of a version -/
def Stored : Option Bytes → Option Version → Prop
  | none, none => True
  | some raw, some x => (⟨x.opening, x.value⟩ : OpeningAndValue).marshal = .ok raw
  | _, _ => False

/-- the store describes label `l` with the versions `vs` -/
structure Repr (st : Store) (l : Bytes) (vs : List Version) : Prop where
  index : (vs = [] ∧ st.index.lookup l = none) ∨
    ∃ raw, DB.encodeIndex (vs.map Version.pos) = .ok (some raw) ∧ st.index.lookup l = some raw
  versions : ∀ v, Stored (st.versions.lookup (l, v)) vs[v]?

/-- the parts of the store that have nothing to do with labels are the same -/
structure SameRest (st st' : Store) : Prop where
  entries : st'.entries = st.entries
  log : st'.log = st.log
  tiles : st'.tiles = st.tiles
  head : st'.head = st.head
  auditor : st'.auditor = st.auditor

theorem SameRest.refl (st : Store) : SameRest st st := ⟨rfl, rfl, rfl, rfl, rfl⟩

theorem SameRest.trans {a b c : Store} (h : SameRest a b) (h' : SameRest b c) : SameRest a c :=
  ⟨h'.1.trans h.1, h'.2.trans h.2, h'.3.trans h.3, h'.4.trans h.4, h'.5.trans h.5⟩

/-- labels other than `l` are not affected -/
structure OnlyLabel (l : Bytes) (st st' : Store) : Prop where
  rest : SameRest st st'
  index : ∀ l', l' ≠ l → st'.index.lookup l' = st.index.lookup l'
  versions : ∀ l' v, l' ≠ l → st'.versions.lookup (l', v) = st.versions.lookup (l', v)

theorem OnlyLabel.refl (l : Bytes) (st : Store) : OnlyLabel l st st := ⟨.refl st, fun _ _ => rfl, fun _ _ _ => rfl⟩

theorem OnlyLabel.trans {l : Bytes} {a b c : Store} (h : OnlyLabel l a b) (h' : OnlyLabel l b c) : OnlyLabel l a c :=
  ⟨h.rest.trans h'.rest, fun l' hl => (h'.index l' hl).trans (h.index l' hl),
    fun l' v hl => (h'.versions l' v hl).trans (h.versions l' v hl)⟩

theorem OnlyLabel.repr {l l' : Bytes} {st st' : Store} (h : OnlyLabel l st st') (hl : l' ≠ l) {vs : List Version}
    (hr : Repr st l' vs) : Repr st' l' vs :=
  ⟨by rw [h.index l' hl]; exact hr.index, fun v => by rw [h.versions l' v hl]; exact hr.versions v⟩

/-! ### removal -/

theorem deleteVersions_ok {env : Env} {l : Bytes} : ∀ (vers : List Nat) (st : Store) (out : List Bytes) (st' : Store),
    deleteVersions env l vers st = (.ok out, st') →
    OnlyLabel l st st' ∧ st'.index = st.index ∧
    (∀ v, st'.versions.lookup (l, v) = if v ∈ vers then none else st.versions.lookup (l, v)) ∧
    List.Forall₂ (fun v o => ∃ p, computeVrf env l v = .ok (o, p)) vers out := by
  intro vers
  induction vers with
  | nil =>
    intro st out st' h
    obtain ⟨h1, rfl⟩ := Prod.mk.inj h
    obtain rfl := Except.ok.inj h1
    exact ⟨.refl l st, rfl, by simp, .nil⟩
  | cons v vers ih =>
    intro st out st' h
    unfold deleteVersions at h
    obtain ⟨_, s1, h1, hh⟩ := St.bind_ok.1 h
    clear h; have h := hh; clear hh
    obtain ⟨o, s2, h2, hh⟩ := St.bind_ok.1 h
    clear h; have h := hh; clear hh
    obtain ⟨rest, s3, h3, hh⟩ := St.bind_ok.1 h
    clear h; have h := hh; clear hh
    unfold deleteVersion at h1
    rw [St.modify_run] at h1
    obtain ⟨_, rfl⟩ := Prod.mk.inj h1
    rw [St.lift_run] at h2
    obtain ⟨hh, rfl⟩ := Prod.mk.inj h2
    clear h2; have h2 := hh; clear hh
    rw [St.pure_run] at h
    obtain ⟨hh, rfl⟩ := Prod.mk.inj h
    clear h; have h := hh; clear hh
    obtain rfl := Except.ok.inj h
    obtain ⟨i1, i2, i3, i4⟩ := ih _ _ _ h3
    refine ⟨⟨⟨i1.rest.entries, i1.rest.log, i1.rest.tiles, i1.rest.head, i1.rest.auditor⟩, fun l' hl => i1.index l' hl,
      fun l' w hl => ?_⟩, i2, ?_, .cons ⟨o.2, h2⟩ i4⟩
    · rw [i1.versions l' w hl]
      simp only
      rw [lookup_filter, if_neg (fun hk => hl (Prod.mk.inj hk).1)]
    · intro w
      rw [i3 w]
      simp only [lookup_filter]
      by_cases hw : w = v
      · subst hw; simp
      · by_cases hm : w ∈ vers
        · simp [hm]
        · rw [if_neg hm, if_neg (fun hk => hw (Prod.mk.inj hk).2), if_neg (by simp [hw, hm])]

/-! ### additions -/

theorem pairOf_ok {env : Env} {l : Bytes} {v : Nat} {x : Version} {vrf : Bytes × Bytes} {body : Bytes}
    (h1 : computeVrf env l v = .ok vrf) (h2 : commitmentValue l v x.value = .ok body) :
    pairOf env l v x = .ok (vrf.1, Commit.commit env.cs x.opening body) := by
  unfold pairOf
  rw [h1, G.ok_bind, h2]
  rfl

theorem addVersions_ok {env : Env} {op : Bytes → Nat → Bytes} {n : Nat} {l : Bytes} :
    ∀ (ps : List LabelValue) (idx : List Nat) (st : Store) (es : List Prefix.Entry) (idx' : List Nat) (st' : Store),
    (∀ p ∈ ps, p.label = l) → idx.length + ps.length ≤ 2 ^ 32 →
    addVersions env op n ps idx st = (.ok (es, idx'), st') →
    OnlyLabel l st st' ∧ st'.index = st.index ∧ idx' = idx ++ List.replicate ps.length n ∧ es.length = ps.length ∧
    (∀ v, v < idx.length ∨ idx.length + ps.length ≤ v → st'.versions.lookup (l, v) = st.versions.lookup (l, v)) ∧
    ∀ (i : Nat) (p : LabelValue), ps[i]? = some p →
      (∃ e, es[i]? = some e ∧ pairOf env l (idx.length + i) ⟨n, p.value, op l (idx.length + i)⟩ = .ok (e.vrf, e.com)) ∧
      Stored (st'.versions.lookup (l, idx.length + i)) (some ⟨n, p.value, op l (idx.length + i)⟩) := by
  intro ps
  induction ps with
  | nil =>
    intro idx st es idx' st' _ _ h
    obtain ⟨h1, rfl⟩ := Prod.mk.inj h
    obtain ⟨rfl, rfl⟩ := Prod.mk.inj (Except.ok.inj h1)
    exact ⟨.refl l st, rfl, by simp, rfl, fun _ _ => rfl, by simp⟩
  | cons p ps ih =>
    intro idx st es idx' st' hl hlen h
    have hver : idx.length % 2 ^ 32 = idx.length := Nat.mod_eq_of_lt (by simp at hlen; omega)
    unfold addVersions at h
    simp only [hver] at h
    rw [hl p (by simp)] at h
    obtain ⟨vrf, s1, h1, hh⟩ := St.bind_ok.1 h
    clear h; have h := hh; clear hh
    obtain ⟨com, s2, h2, hh⟩ := St.bind_ok.1 h
    clear h; have h := hh; clear hh
    obtain ⟨⟨es2, idx2⟩, s3, h3, hh⟩ := St.bind_ok.1 h
    clear h; have h := hh; clear hh
    rw [St.lift_run] at h1
    obtain ⟨hh, rfl⟩ := Prod.mk.inj h1
    clear h1; have h1 := hh; clear hh
    unfold putVersion at h2
    obtain ⟨raw, s4, h4, hh⟩ := St.bind_ok.1 h2
    clear h2; have h2 := hh; clear hh
    obtain ⟨_, s5, h5, hh⟩ := St.bind_ok.1 h2
    clear h2; have h2 := hh; clear hh
    obtain ⟨body, s6, h6, hh⟩ := St.bind_ok.1 h2
    clear h2; have h2 := hh; clear hh
    rw [St.lift_run] at h4 h6
    obtain ⟨hh, rfl⟩ := Prod.mk.inj h4
    clear h4; have h4 := hh; clear hh
    obtain ⟨hh, rfl⟩ := Prod.mk.inj h6
    clear h6; have h6 := hh; clear hh
    unfold putVersionRaw at h5
    rw [St.modify_run] at h5
    obtain ⟨_, rfl⟩ := Prod.mk.inj h5
    rw [St.pure_run] at h2 h
    obtain ⟨hh, rfl⟩ := Prod.mk.inj h2
    clear h2; have h2 := hh; clear hh
    obtain ⟨hh, rfl⟩ := Prod.mk.inj h
    clear h; have h := hh; clear hh
    obtain ⟨rfl, rfl⟩ := Prod.mk.inj (Except.ok.inj h)
    obtain rfl := Except.ok.inj h2
    obtain ⟨i1, i2, i3, i4, i5, i6⟩ := ih _ _ _ _ _ (fun q hq => hl q (by simp [hq])) (by simp at hlen ⊢; omega) h3
    have hlen1 : (idx ++ [n]).length = idx.length + 1 := by simp
    rw [hlen1] at i5 i6
    refine ⟨⟨⟨i1.rest.entries, i1.rest.log, i1.rest.tiles, i1.rest.head, i1.rest.auditor⟩, fun l' h' => i1.index l' h',
      fun l' w h' => ?_⟩, i2, ?_, by simp [i4], ?_, ?_⟩
    · rw [i1.versions l' w h', lookup_cons_ne (fun hk => h' (Prod.mk.inj hk).1)]
    · rw [i3]; simp [List.replicate_succ]
    · intro v hv
      rw [i5 v (by simp at hv; omega), lookup_cons_ne (fun hk => by simp at hv; have := (Prod.mk.inj hk).2; omega)]
    · intro i q hq
      match i with
      | 0 =>
        obtain rfl : p = q := by simpa using hq
        refine ⟨⟨⟨vrf.1, _⟩, rfl, pairOf_ok h1 h6⟩, ?_⟩
        rw [Nat.add_zero, i5 _ (by omega), lookup_cons_eq]
        exact h4
      | i + 1 =>
        obtain ⟨⟨e, he, hp⟩, hs⟩ := i6 i q (by simpa using hq)
        have : idx.length + 1 + i = idx.length + (i + 1) := by omega
        rw [this] at hp hs
        exact ⟨⟨e, by simpa using he, hp⟩, hs⟩

/-! ### one label -/

/-- the mutation of label `l` that `groupByLabel` makes of a change -/
def mutationOf (c : Change) (l : Bytes) (vs : List Version) : LabelMutation :=
  ⟨l, vs.map Version.pos, c.add.filter (fun p => p.label == l), c.remove.contains l⟩

theorem fresh_get {l : Bytes} {n k i : Nat} {c : Change} {x : Version} : (fresh l n c k)[i]? = some x ↔
    ∃ p, (c.add.filter (fun p => p.label == l))[i]? = some p ∧ x = ⟨n, p.value, c.opening l (k + i)⟩ := by
  unfold fresh added
  rw [List.getElem?_mapIdx, List.getElem?_map]
  cases (c.add.filter (fun p => p.label == l))[i]? with
  | none => simp
  | some p =>
    simp only [Option.map_some, Option.some.injEq]
    constructor
    · intro h; exact ⟨p, rfl, h.symm⟩
    · rintro ⟨q, rfl, h⟩; exact h.symm

theorem fresh_length {l : Bytes} {n k : Nat} {c : Change} :
    (fresh l n c k).length = (c.add.filter (fun p => p.label == l)).length := by
  simp [fresh, added]

theorem fresh_pos {l : Bytes} {n k : Nat} {c : Change} :
    (fresh l n c k).map Version.pos = List.replicate (c.add.filter (fun p => p.label == l)).length n := by
  rw [List.eq_replicate_iff]
  constructor
  · rw [List.length_map, fresh_length]
  · intro b hb
    obtain ⟨x, hx, rfl⟩ := List.mem_map.1 hb
    obtain ⟨i, hi⟩ := List.mem_iff_getElem?.1 hx
    obtain ⟨p, _, rfl⟩ := fresh_get.1 hi
    rfl

/-- `mutateLabel` makes the step of the specification, and returns the pairs of the new versions and the VRF outputs
of the removed ones. -/
theorem mutateLabel_ok {env : Env} {c : Change} {n : Nat} {prevDLE : Option Nat} {l : Bytes} {vs : List Version}
    {st st' : Store} {es : List Prefix.Entry} {rem : List Bytes} (hr : Repr st l vs)
    (hlen : (step l n c vs).length ≤ 2 ^ 32)
    (h : mutateLabel env c.opening n prevDLE (mutationOf c l vs) st = (.ok (es, rem), st')) :
    Repr st' l (step l n c vs) ∧ OnlyLabel l st st' ∧
    es.length = (fresh l n c (kept l c vs).length).length ∧
    (∀ (i : Nat) (x : Version), (fresh l n c (kept l c vs).length)[i]? = some x →
      ∃ e, es[i]? = some e ∧ pairOf env l ((kept l c vs).length + i) x = .ok (e.vrf, e.com)) ∧
    (if l ∈ c.remove then List.Forall₂ (fun v o => ∃ p, computeVrf env l v = .ok (o, p)) (List.range vs.length) rem ∧
      (vs ≠ [] → ∃ d last, prevDLE = some d ∧ (vs.map Version.pos).getLast? = some last ∧ last ≤ d)
     else rem = []) := by
  unfold mutateLabel at h
  obtain ⟨⟨rem0, idx0⟩, s1, h1, hh⟩ := St.bind_ok.1 h
  clear h; have h := hh; clear hh
  obtain ⟨⟨es0, idx1⟩, s2, h2, hh⟩ := St.bind_ok.1 h
  clear h; have h := hh; clear hh
  obtain ⟨_, s3, h3, hh⟩ := St.bind_ok.1 h
  clear h; have h := hh; clear hh
  rw [St.pure_run] at h
  obtain ⟨hh, rfl⟩ := Prod.mk.inj h
  clear h; have h := hh; clear hh
  obtain ⟨rfl, rfl⟩ := Prod.mk.inj (Except.ok.inj h)
  -- the removal
  have hrem : idx0 = (kept l c vs).map Version.pos ∧ OnlyLabel l st s1 ∧
      (kept l c vs = [] → s1.index.lookup l = none) ∧
      (kept l c vs ≠ [] → s1.index.lookup l = st.index.lookup l) ∧
      (∀ v, Stored (s1.versions.lookup (l, v)) (kept l c vs)[v]?) ∧
      (if l ∈ c.remove then List.Forall₂ (fun v o => ∃ p, computeVrf env l v = .ok (o, p)) (List.range vs.length) rem0 ∧
        (vs ≠ [] → ∃ d last, prevDLE = some d ∧ (vs.map Version.pos).getLast? = some last ∧ last ≤ d)
       else rem0 = []) := by
    unfold removeLabel mutationOf at h1
    simp only at h1
    have hsame : vs = [] ∨ l ∉ c.remove → (rem0, idx0) = ([], vs.map Version.pos) ∧ s1 = st := by
      intro hc
      rcases hc with hc | hc
      · subst hc
        simp only [List.map_nil, List.getLast?_nil] at h1
        cases hrm : c.remove.contains l <;> rw [hrm] at h1 <;> simp only [St.pure_run] at h1 <;>
          exact ⟨(Except.ok.inj (Prod.mk.inj h1).1).symm, (Prod.mk.inj h1).2.symm⟩
      · have : c.remove.contains l = false := by simp [hc]
        rw [this] at h1
        simp only [St.pure_run] at h1
        exact ⟨(Except.ok.inj (Prod.mk.inj h1).1).symm, (Prod.mk.inj h1).2.symm⟩
    by_cases hm : l ∈ c.remove
    · have hk : kept l c vs = [] := by unfold kept; rw [if_pos hm]
      rw [hk, if_pos hm]
      by_cases hv : vs = []
      · obtain ⟨e, rfl⟩ := hsame (.inl hv)
        obtain ⟨rfl, rfl⟩ := Prod.mk.inj e
        subst hv
        refine ⟨rfl, .refl l _, ?_, fun h => absurd rfl h, hr.versions, .nil, fun h => absurd rfl h⟩
        intro _
        rcases hr.index with h | ⟨raw, h, _⟩
        · exact h.2
        · simp [DB.encodeIndex] at h
      · have hc : c.remove.contains l = true := by simp [hm]
        rw [hc] at h1
        have hne : vs.map Version.pos ≠ [] := by simpa using hv
        rw [List.getLast?_eq_some_getLast hne] at h1
        simp only at h1
        split at h1
        · simp at h1
        next hd =>
        obtain ⟨_, t1, g1, hh⟩ := St.bind_ok.1 h1
        clear h1; have h1 := hh; clear hh
        obtain ⟨out, t2, g2, hh⟩ := St.bind_ok.1 h1
        clear h1; have h1 := hh; clear hh
        rw [St.pure_run] at h1
        obtain ⟨g3, rfl⟩ := Prod.mk.inj h1
        obtain ⟨rfl, rfl⟩ := Prod.mk.inj (Except.ok.inj g3)
        unfold deleteIndex at g1
        rw [St.modify_run] at g1
        obtain ⟨_, rfl⟩ := Prod.mk.inj g1
        obtain ⟨i1, i2, i3, i4⟩ := deleteVersions_ok _ _ _ _ g2
        have hol : OnlyLabel l st { st with index := st.index.filter (fun e => decide (e.1 ≠ l)) } :=
          ⟨⟨rfl, rfl, rfl, rfl, rfl⟩, fun l' hl => by simp only [lookup_filter, if_neg hl], fun _ _ _ => rfl⟩
        refine ⟨rfl, hol.trans i1, ?_, fun h => absurd rfl h, ?_, by simpa using i4, ?_⟩
        · intro _
          rw [i2]
          simp only [lookup_filter, if_pos]
        · intro v
          rw [i3 v]
          by_cases hvl : v < vs.length
          · rw [if_pos (by simpa using hvl)]
            simp [Stored]
          · rw [if_neg (by simpa using hvl)]
            have := hr.versions v
            rw [List.getElem?_eq_none (by omega)] at this
            simpa using this
        · intro _
          cases prevDLE with
          | none => simp at hd
          | some d =>
            simp only [Option.all_some, decide_eq_true_eq, Nat.not_lt] at hd
            exact ⟨d, _, rfl, List.getLast?_eq_some_getLast hne, hd⟩
    · obtain ⟨e, rfl⟩ := hsame (.inr hm)
      obtain ⟨rfl, rfl⟩ := Prod.mk.inj e
      have hk : kept l c vs = vs := by unfold kept; rw [if_neg hm]
      rw [hk, if_neg hm]
      refine ⟨rfl, .refl l _, ?_, fun _ => rfl, hr.versions, rfl⟩
      intro hv
      subst hv
      rcases hr.index with h | ⟨raw, h, _⟩
      · exact h.2
      · simp [DB.encodeIndex] at h
  obtain ⟨rfl, r1, r2, r3, r4, r5⟩ := hrem
  -- the additions
  have hps : ∀ p ∈ (mutationOf c l vs).add, p.label = l := by
    intro p hp
    unfold mutationOf at hp
    simpa using (List.mem_filter.1 hp).2
  have hlen' : ((kept l c vs).map Version.pos).length + (mutationOf c l vs).add.length ≤ 2 ^ 32 := by
    unfold step at hlen
    rw [List.length_append, fresh_length] at hlen
    rw [List.length_map]
    exact hlen
  obtain ⟨a1, a2, a3, a4, a5, a6⟩ := addVersions_ok _ _ _ _ _ _ hps hlen' h2
  rw [List.length_map] at a5 a6
  have haddlen : (mutationOf c l vs).add.length = (fresh l n c (kept l c vs).length).length := fresh_length.symm
  -- the index
  have hidx : OnlyLabel l s2 s3 ∧ s3.versions = s2.versions ∧
      (if (mutationOf c l vs).add = [] then s3.index.lookup l = s2.index.lookup l
       else ∃ raw, DB.encodeIndex idx1 = .ok (some raw) ∧ s3.index.lookup l = some raw) := by
    unfold storeIndex at h3
    cases hadd : (mutationOf c l vs).add with
    | nil =>
      rw [hadd] at h3
      simp only [St.pure_run] at h3
      obtain ⟨_, rfl⟩ := Prod.mk.inj h3
      exact ⟨.refl l _, rfl, by simp⟩
    | cons p ps =>
      rw [hadd] at h3
      have hp : p.label = l := hps p (by rw [hadd]; simp)
      simp only [hp] at h3
      unfold putIndex at h3
      obtain ⟨raw, t1, g1, hh⟩ := St.bind_ok.1 h3
      clear h3; have h3 := hh; clear hh
      rw [St.lift_run] at g1
      obtain ⟨g1, rfl⟩ := Prod.mk.inj g1
      cases raw with
      | none => simp only [St.lift_run] at h3; exact absurd (Prod.mk.inj h3).1 (by simp)
      | some raw =>
        simp only [St.modify_run] at h3
        obtain ⟨_, rfl⟩ := Prod.mk.inj h3
        refine ⟨⟨⟨rfl, rfl, rfl, rfl, rfl⟩, fun l' hl => lookup_cons_ne hl _ _, fun _ _ _ => rfl⟩, rfl, ?_⟩
        rw [if_neg (by simp)]
        exact ⟨raw, (Prod.mk.inj g1).1, lookup_cons_eq _ _ _⟩
  obtain ⟨b1, b2, b3⟩ := hidx
  refine ⟨⟨?_, ?_⟩, (r1.trans a1).trans b1, by rw [a4, haddlen], ?_, r5⟩
  · by_cases hadd : (mutationOf c l vs).add = []
    · rw [if_pos hadd] at b3
      have hf : fresh l n c (kept l c vs).length = [] := by
        rw [← List.length_eq_zero_iff, ← haddlen, hadd]; rfl
      have hs : step l n c vs = kept l c vs := by unfold step; rw [hf, List.append_nil]
      rw [hs, b3, a2]
      by_cases hk : kept l c vs = []
      · exact .inl ⟨hk, r2 hk⟩
      · rw [r3 hk]
        have hv : kept l c vs = vs := by
          unfold kept at hk ⊢
          split
          · next hm => rw [if_pos hm] at hk; exact absurd rfl hk
          · rfl
        rw [hv]
        exact hr.index
    · rw [if_neg hadd] at b3
      obtain ⟨raw, e1, e2⟩ := b3
      refine .inr ⟨raw, ?_, e2⟩
      rw [a3] at e1
      unfold step
      rw [List.map_append, fresh_pos]
      exact e1
  · intro v
    rw [b2]
    unfold step
    by_cases hv : v < (kept l c vs).length
    · rw [a5 v (.inl hv), List.getElem?_append_left hv]
      exact r4 v
    · rw [List.getElem?_append_right (by omega)]
      by_cases hv2 : v < (kept l c vs).length + (mutationOf c l vs).add.length
      · obtain ⟨p, hp⟩ : ∃ p, (mutationOf c l vs).add[v - (kept l c vs).length]? = some p :=
          ⟨_, List.getElem?_eq_getElem (by omega)⟩
        obtain ⟨_, hs⟩ := a6 _ p hp
        have e : (kept l c vs).length + (v - (kept l c vs).length) = v := by omega
        rw [e] at hs
        rw [fresh_get.2 ⟨p, hp, rfl⟩, e]
        exact hs
      · rw [a5 v (.inr (by omega)), List.getElem?_eq_none (by rw [← haddlen]; omega)]
        have := r4 v
        rw [List.getElem?_eq_none (by omega)] at this
        exact this
  · intro i x hx
    obtain ⟨p, hp, rfl⟩ := fresh_get.1 hx
    exact (a6 i p hp).1

end Katie.Server
