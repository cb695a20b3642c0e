import Verif.Lemmas.ServerTime
import Verif.Lemmas.PrefixHistory
import Verif.Props.C37_C40_Database

/-
The batch that `Mutate` gives to the prefix tree.
-/

namespace Katie.Prefix

theorem fillLeaf_length (v c : Bytes) (d : Nat) : ∀ (l : List (Nat × Bytes)) (pb : Builder),
    (fillLeaf v c d l pb).commitments.length = pb.commitments.length := by
  intro l
  induction l with
  | nil => intro pb; rfl
  | cons x l ih =>
    intro pb
    obtain ⟨i, w⟩ := x
    unfold fillLeaf
    split
    · rw [ih]; simp
    · rw [ih]

theorem fillEmpty_length (d : Nat) : ∀ (l : List (Nat × Bytes)) (pb : Builder),
    (fillEmpty d l pb).commitments.length = pb.commitments.length := by
  intro l
  induction l with
  | nil => intro pb; rfl
  | cons x l ih => intro pb; unfold fillEmpty; rw [ih]

theorem build_length {cs : Suite} : ∀ (n : Node) (l : List (Nat × Bytes)) (d : Nat) (pb pb' : Builder),
    build cs n l d pb = .ok pb' → pb'.commitments.length = pb.commitments.length := by
  intro n
  induction n with
  | empty =>
    intro l d pb pb' h
    cases l with
    | nil => unfold build at h; rw [← Except.ok.inj h]
    | cons x l => unfold build at h; rw [← Except.ok.inj h, fillEmpty_length]
  | leaf w c =>
    intro l d pb pb' h
    cases l with
    | nil => unfold build at h; rw [← Except.ok.inj h]
    | cons x l => unfold build at h; rw [← Except.ok.inj h, fillLeaf_length]
  | ext a b =>
    intro l d pb pb' h
    cases l with
    | nil => unfold build at h; rw [← Except.ok.inj h]
    | cons x l => unfold build at h; cases h
  | parent a b c e iha ihb =>
    intro l d pb pb' h
    cases l with
    | nil => unfold build at h; rw [← Except.ok.inj h]
    | cons x l =>
      unfold build at h
      obtain ⟨⟨l1, l2⟩, _, h⟩ := G.bind_eq_ok.1 h
      obtain ⟨pb1, h1, h⟩ := G.bind_eq_ok.1 h
      rw [ihb _ _ _ _ h, iha _ _ _ _ h1]

theorem runProofBuilder_length {cs : Suite} {n : Node} {V : List Bytes} {p : Proof} {c : List (Option Bytes)}
    (h : runProofBuilder cs n V = .ok (p, c)) : c.length = V.length := by
  unfold runProofBuilder at h
  obtain ⟨pb, h1, h⟩ := G.bind_eq_ok.1 h
  obtain ⟨r, _, h⟩ := G.bind_eq_ok.1 h
  obtain ⟨_, rfl⟩ := Prod.mk.inj (Except.ok.inj h)
  rw [build_length _ _ _ _ _ h1]
  simp

theorem mutate_removed_length {cs : Suite} {st : Store} {ver : Nat} {add : List Entry} {remove : List Bytes}
    {res : MutateResult} (h : mutate cs st ver add remove = .ok res) : res.removed.length = remove.length := by
  unfold mutate at h
  obtain ⟨_, _, h⟩ := G.bind_eq_ok.1 h
  obtain ⟨_, _, h⟩ := G.bind_eq_ok.1 h
  obtain ⟨⟨root, proof, removed⟩, h1, h⟩ := G.bind_eq_ok.1 h
  obtain ⟨_, _, h⟩ := G.bind_eq_ok.1 h
  obtain ⟨_, _, h⟩ := G.bind_eq_ok.1 h
  obtain ⟨_, _, h⟩ := G.bind_eq_ok.1 h
  rw [← Except.ok.inj h]
  simp only
  unfold getMutationRoot at h1
  simp only at h1
  by_cases hv : ver = 0
  · rw [if_pos hv] at h1
    by_cases hr : remove.length > 0
    · rw [if_pos hr] at h1; cases h1
    · rw [if_neg hr] at h1
      obtain ⟨_, _, h1⟩ := G.bind_eq_ok.1 h1
      obtain ⟨_, h2⟩ := Prod.mk.inj (Except.ok.inj h1)
      obtain ⟨_, rfl⟩ := Prod.mk.inj h2
      simp; omega
  · rw [if_neg hv] at h1
    obtain ⟨_, _, h1⟩ := G.bind_eq_ok.1 h1
    obtain ⟨⟨p, c⟩, h2, h1⟩ := G.bind_eq_ok.1 h1
    obtain ⟨_, _, h1⟩ := G.bind_eq_ok.1 h1
    obtain ⟨_, h3, h1⟩ := G.bind_eq_ok.1 h1
    obtain ⟨_, h4⟩ := Prod.mk.inj (Except.ok.inj h1)
    obtain ⟨_, rfl⟩ := Prod.mk.inj h4
    have h5 := runProofBuilder_length h2
    have := congrArg List.length (((checkPresent_spec _).1 _).1 h3)
    rw [List.length_map, List.length_drop, h5, List.length_append, List.length_map] at this
    omega

end Katie.Prefix

namespace Katie.Server
open Katie Katie.Wire Katie.Alg Katie.ServerSpec Katie.PrefixSpec Katie.AuditSpec

/-! ### versions -/

theorem versionsOf_nil (l : Bytes) : versionsOf l [] = [] := rfl

theorem versionsOf_snoc (l : Bytes) (cs : List Change) (c : Change) :
    versionsOf l (cs ++ [c]) = step l cs.length c (versionsOf l cs) := by
  unfold versionsOf
  rw [List.zipIdx_append, List.foldl_append]
  simp

theorem versionsOf_pos (l : Bytes) (cs : List Change) : ((versionsOf l cs).map Version.pos).Pairwise (· ≤ ·) ∧
    ∀ x ∈ (versionsOf l cs).map Version.pos, x < cs.length := by
  induction cs using List.reverseRecOn with
  | nil => simp [versionsOf_nil]
  | append_singleton cs c ih =>
    rw [versionsOf_snoc]
    unfold step
    rw [List.map_append, fresh_pos]
    have hk : ((kept l c (versionsOf l cs)).map Version.pos).Pairwise (· ≤ ·) ∧
        ∀ x ∈ (kept l c (versionsOf l cs)).map Version.pos, x < cs.length := by
      unfold kept
      split
      · simp
      · exact ih
    constructor
    · rw [List.pairwise_append]
      refine ⟨hk.1, by simp [List.pairwise_replicate], ?_⟩
      intro a ha b hb
      rw [List.eq_of_mem_replicate hb]
      exact Nat.le_of_lt (hk.2 a ha)
    · intro x hx
      rw [List.length_append, List.length_singleton]
      rcases List.mem_append.1 hx with hx | hx
      · have := hk.2 x hx; omega
      · rw [List.eq_of_mem_replicate hx]; omega

/-- the stored index -/
theorem Repr.getIndex {st : Store} {l : Bytes} {vs : List Version} (h : Repr st l vs)
    (hs : (vs.map Version.pos).Pairwise (· ≤ ·)) (hb : ∀ x ∈ vs.map Version.pos, x < 2 ^ 64) :
    getIndex st l = .ok (vs.map Version.pos) := by
  unfold Server.getIndex
  rcases h.index with ⟨rfl, h0⟩ | ⟨raw, h1, h2⟩
  · rw [h0]; rfl
  · rw [h2]
    have hne : vs.map Version.pos ≠ [] := by
      intro he
      rw [he] at h1
      simp [DB.encodeIndex] at h1
    obtain ⟨raw', e1, e2⟩ := Props.decodeIndex_encodeIndex hne hs hb
    rw [h1] at e1
    cases e1
    exact e2

/-! ### the loop over the labels -/

/-- what `mutateLabel` returns for label `l` -/
structure LabelOut (env : Env) (n : Nat) (c : Change) (prevDLE : Option Nat) (vs : Bytes → List Version) (l : Bytes)
    (r : List Prefix.Entry × List Bytes) : Prop where
  len : r.1.length = (fresh l n c (kept l c (vs l)).length).length
  add : ∀ (i : Nat) (x : Version), (fresh l n c (kept l c (vs l)).length)[i]? = some x →
      ∃ e, r.1[i]? = some e ∧ pairOf env l ((kept l c (vs l)).length + i) x = .ok (e.vrf, e.com)
  remove : if l ∈ c.remove then
      List.Forall₂ (fun v o => ∃ p, computeVrf env l v = .ok (o, p)) (List.range (vs l).length) r.2 ∧
      (vs l ≠ [] → ∃ d last, prevDLE = some d ∧ ((vs l).map Version.pos).getLast? = some last ∧ last ≤ d)
     else r.2 = []

theorem forEach_labels {env : Env} {c : Change} {n : Nat} {prevDLE : Option Nat} {vs : Bytes → List Version} :
    ∀ (ls : List Bytes) (st : Store) (rs : List (List Prefix.Entry × List Bytes)) (st' : Store), ls.Nodup →
    (∀ l ∈ ls, Repr st l (vs l)) → (∀ l ∈ ls, (step l n c (vs l)).length ≤ 2 ^ 32) →
    St.forEach (mutateLabel env c.opening n prevDLE) (ls.map (fun l => mutationOf c l (vs l))) st = (.ok rs, st') →
    SameRest st st' ∧ (∀ l ∈ ls, Repr st' l (step l n c (vs l))) ∧ (∀ l, l ∉ ls → ∀ w, Repr st l w → Repr st' l w) ∧
    List.Forall₂ (LabelOut env n c prevDLE vs) ls rs := by
  intro ls
  induction ls with
  | nil =>
    intro st rs st' _ _ _ h
    obtain ⟨h1, rfl⟩ := Prod.mk.inj h
    obtain rfl := Except.ok.inj h1
    exact ⟨.refl st, by simp, fun _ _ _ h => h, .nil⟩
  | cons l ls ih =>
    intro st rs st' hnd hr hlen h
    rw [List.nodup_cons] at hnd
    rw [List.map_cons] at h
    unfold St.forEach at h
    obtain ⟨⟨es, rem⟩, s1, h1, h⟩ := St.bind_ok.1 h
    obtain ⟨rest, s2, h2, h⟩ := St.bind_ok.1 h
    rw [St.pure_run] at h
    obtain ⟨h3, rfl⟩ := Prod.mk.inj h
    obtain rfl := Except.ok.inj h3
    obtain ⟨a1, a2, a3, a4, a5⟩ := mutateLabel_ok (hr l (by simp)) (hlen l (by simp)) h1
    obtain ⟨b1, b2, b3, b4⟩ := ih s1 rest s2 hnd.2
      (fun l' hl' => a2.repr (fun he => hnd.1 (he ▸ hl')) (hr l' (by simp [hl']))) (fun l' hl' => hlen l' (by simp [hl'])) h2
    refine ⟨a2.rest.trans b1, ?_, ?_, .cons ⟨a3, a4, a5⟩ b4⟩
    · intro l' hl'
      rcases List.mem_cons.1 hl' with rfl | hl'
      · exact b3 _ hnd.1 _ a1
      · exact b2 l' hl'
    · intro l' hl' w hw
      rw [List.mem_cons, not_or] at hl'
      exact b3 l' hl'.2 w (a2.repr hl'.1 hw)

theorem forall₂_left {α β : Type} {R : α → β → Prop} {l : List α} {m : List β} (h : List.Forall₂ R l m) :
    ∀ a ∈ l, ∃ b ∈ m, R a b := by
  induction h with
  | nil => simp
  | cons h1 _ ih =>
    intro a ha
    rcases List.mem_cons.1 ha with rfl | ha
    · exact ⟨_, by simp, h1⟩
    · obtain ⟨b, hb, h⟩ := ih a ha
      exact ⟨b, by simp [hb], h⟩

theorem forall₂_right {α β : Type} {R : α → β → Prop} {l : List α} {m : List β} (h : List.Forall₂ R l m) :
    ∀ b ∈ m, ∃ a ∈ l, R a b := by
  induction h with
  | nil => simp
  | cons h1 _ ih =>
    intro a ha
    rcases List.mem_cons.1 ha with rfl | ha
    · exact ⟨_, by simp, h1⟩
    · obtain ⟨b, hb, h⟩ := ih a ha
      exact ⟨b, by simp [hb], h⟩

/-- `p` is the pair of version `v` of label `l`, which the change introduces -/
def NewPair (env : Env) (n : Nat) (c : Change) (vs : Bytes → List Version) (l : Bytes) (v : Nat) (p : Pair) : Prop :=
  ∃ i x, (fresh l n c (kept l c (vs l)).length)[i]? = some x ∧ v = (kept l c (vs l)).length + i ∧ pairOf env l v x = .ok p

theorem LabelOut.mem_add {env : Env} {n : Nat} {c : Change} {prevDLE : Option Nat} {vs : Bytes → List Version} {l : Bytes}
    {r : List Prefix.Entry × List Bytes} (h : LabelOut env n c prevDLE vs l r) (e : Prefix.Entry) :
    e ∈ r.1 ↔ ∃ v, NewPair env n c vs l v (e.vrf, e.com) := by
  constructor
  · intro he
    obtain ⟨i, hi⟩ := List.mem_iff_getElem?.1 he
    have hlt : i < (fresh l n c (kept l c (vs l)).length).length := by
      rw [← h.len]
      by_contra hc
      rw [List.getElem?_eq_none (by omega)] at hi
      cases hi
    obtain ⟨e', he', hp⟩ := h.add i _ (List.getElem?_eq_getElem hlt)
    rw [hi] at he'
    cases he'
    exact ⟨_, i, _, List.getElem?_eq_getElem hlt, rfl, hp⟩
  · rintro ⟨v, i, x, hx, rfl, hp⟩
    obtain ⟨e', he', hp'⟩ := h.add i x hx
    rw [hp] at hp'
    have := Except.ok.inj hp'
    obtain ⟨h1, h2⟩ := Prod.mk.inj this
    have : e = e' := by cases e; cases e'; simp_all
    rw [this]
    exact List.mem_of_getElem? he'

theorem LabelOut.mem_remove {env : Env} {n : Nat} {c : Change} {prevDLE : Option Nat} {vs : Bytes → List Version} {l : Bytes}
    {r : List Prefix.Entry × List Bytes} (h : LabelOut env n c prevDLE vs l r) (o : Bytes) :
    o ∈ r.2 ↔ l ∈ c.remove ∧ ∃ v, v < (vs l).length ∧ ∃ p, computeVrf env l v = .ok (o, p) := by
  have := h.remove
  by_cases hl : l ∈ c.remove
  · rw [if_pos hl] at this
    constructor
    · intro ho
      obtain ⟨v, hv, p, hp⟩ := forall₂_right this.1 o ho
      exact ⟨hl, v, by simpa using hv, p, hp⟩
    · rintro ⟨_, v, hv, p, hp⟩
      obtain ⟨o', ho', p', hp'⟩ := forall₂_left this.1 v (by simpa using hv)
      rw [hp] at hp'
      obtain ⟨rfl, _⟩ := Prod.mk.inj (Except.ok.inj hp')
      exact ho'
  · rw [if_neg hl] at this
    rw [this]
    simp [hl]

section outs
variable {env : Env} {n : Nat} {c : Change} {prevDLE : Option Nat} {vs : Bytes → List Version} {ls : List Bytes}
  {rs : List (List Prefix.Entry × List Bytes)}

theorem mem_added (h : List.Forall₂ (LabelOut env n c prevDLE vs) ls rs) (e : Prefix.Entry) :
    e ∈ rs.flatMap (·.1) ↔ ∃ l ∈ ls, ∃ v, NewPair env n c vs l v (e.vrf, e.com) := by
  rw [List.mem_flatMap]
  constructor
  · rintro ⟨r, hr, he⟩
    obtain ⟨l, hl, ho⟩ := forall₂_right h r hr
    exact ⟨l, hl, (ho.mem_add e).1 he⟩
  · rintro ⟨l, hl, hv⟩
    obtain ⟨r, hr, ho⟩ := forall₂_left h l hl
    exact ⟨r, hr, (ho.mem_add e).2 hv⟩

theorem mem_removed (h : List.Forall₂ (LabelOut env n c prevDLE vs) ls rs) (o : Bytes) :
    o ∈ rs.flatMap (·.2) ↔ ∃ l ∈ ls, l ∈ c.remove ∧ ∃ v, v < (vs l).length ∧ ∃ p, computeVrf env l v = .ok (o, p) := by
  rw [List.mem_flatMap]
  constructor
  · rintro ⟨r, hr, he⟩
    obtain ⟨l, hl, ho⟩ := forall₂_right h r hr
    exact ⟨l, hl, (ho.mem_remove o).1 he⟩
  · rintro ⟨l, hl, hv⟩
    obtain ⟨r, hr, ho⟩ := forall₂_left h l hl
    exact ⟨r, hr, (ho.mem_remove o).2 hv⟩

/-- If no VRF output is added twice, the VRF output determines label and version. -/
theorem newPair_inj (h : List.Forall₂ (LabelOut env n c prevDLE vs) ls rs)
    (hnd : ((rs.flatMap (·.1)).map Prefix.Entry.vrf).Nodup) {l l' : Bytes} {v v' : Nat} {p p' : Pair} (hl : l ∈ ls)
    (hl' : l' ∈ ls) (hp : NewPair env n c vs l v p) (hp' : NewPair env n c vs l' v' p') (he : p.1 = p'.1) :
    l = l' ∧ v = v' := by
  induction h with
  | nil => simp at hl
  | @cons a r ls rs ho h ih =>
    rw [List.flatMap_cons, List.map_append, List.nodup_append] at hnd
    obtain ⟨hn1, hn2, hn3⟩ := hnd
    have inRest : ∀ {l v} {p : Pair}, l ∈ ls → NewPair env n c vs l v p → p.1 ∈ (rs.flatMap (·.1)).map Prefix.Entry.vrf := by
      intro l v p hl hp
      exact List.mem_map.2 ⟨⟨p.1, p.2⟩, (mem_added h _).2 ⟨l, hl, v, hp⟩, rfl⟩
    have inHead : ∀ {v} {p : Pair}, NewPair env n c vs a v p → p.1 ∈ r.1.map Prefix.Entry.vrf := by
      intro v p hp
      exact List.mem_map.2 ⟨⟨p.1, p.2⟩, (ho.mem_add _).2 ⟨v, hp⟩, rfl⟩
    rcases List.mem_cons.1 hl with rfl | hl2
    · rcases List.mem_cons.1 hl' with rfl | hl2'
      · refine ⟨rfl, ?_⟩
        obtain ⟨i, x, hx, rfl, hp⟩ := hp
        obtain ⟨i', x', hx', rfl, hp'⟩ := hp'
        obtain ⟨e, h1, h2⟩ := ho.add i x hx
        obtain ⟨e', h1', h2'⟩ := ho.add i' x' hx'
        rw [hp] at h2
        rw [hp'] at h2'
        have e1 : p.1 = e.vrf := (congrArg Prod.fst (Except.ok.inj h2))
        have e2 : p'.1 = e'.vrf := (congrArg Prod.fst (Except.ok.inj h2'))
        have hv : e.vrf = e'.vrf := by rw [← e1, ← e2, he]
        have hi : i = i' := by
          have g1 : (r.1.map Prefix.Entry.vrf)[i]? = some e.vrf := by rw [List.getElem?_map, h1]; rfl
          have g2 : (r.1.map Prefix.Entry.vrf)[i']? = some e.vrf := by rw [List.getElem?_map, h1', hv]; rfl
          obtain ⟨k1, g1⟩ := List.getElem?_eq_some_iff.1 g1
          obtain ⟨k2, g2⟩ := List.getElem?_eq_some_iff.1 g2
          exact (List.Nodup.getElem_inj_iff hn1).1 (g1.trans g2.symm)
        rw [hi]
      · exact absurd he (hn3 _ (inHead hp) _ (inRest hl2' hp'))
    · rcases List.mem_cons.1 hl' with rfl | hl2'
      · exact absurd he.symm (hn3 _ (inHead hp') _ (inRest hl2 hp))
      · exact ih hn2 hl2 hl2'

end outs

/-! ### the labels -/

theorem mem_labelsOf {c : Change} (h : ∀ l, (c.order l).Perm l) (l : Bytes) :
    l ∈ labelsOf c ↔ (∃ p ∈ c.add, p.label = l) ∨ l ∈ c.remove := by
  unfold labelsOf
  rw [(h _).mem_iff, List.mem_eraseDups, List.mem_append, List.mem_map]

theorem nodup_eraseDups {α : Type} [BEq α] [LawfulBEq α] : ∀ (m : Nat) (l : List α), l.length ≤ m → l.eraseDups.Nodup := by
  intro m
  induction m with
  | zero =>
    intro l h
    have : l = [] := List.length_eq_zero_iff.1 (by omega)
    rw [this]
    simp
  | succ m ih =>
    intro l h
    cases l with
    | nil => simp
    | cons a l =>
      rw [List.eraseDups_cons, List.nodup_cons]
      refine ⟨?_, ih _ ?_⟩
      · rw [List.mem_eraseDups]
        simp
      · have := List.length_filter_le (fun b => !b == a) l
        simp only [List.length_cons] at h
        omega

theorem nodup_labelsOf {c : Change} (h : ∀ l, (c.order l).Perm l) : (labelsOf c).Nodup :=
  (h _).nodup_iff.2 (nodup_eraseDups _ _ (le_refl _))

/-- a label that the change does not list stays as it is -/
theorem step_other {c : Change} (h : ∀ l, (c.order l).Perm l) {l : Bytes} (hl : l ∉ labelsOf c) (n : Nat) (vs : List Version) :
    step l n c vs = vs := by
  rw [mem_labelsOf h, not_or] at hl
  have hk : kept l c vs = vs := by unfold kept; rw [if_neg hl.2]
  have hf : ∀ k, fresh l n c k = [] := by
    intro k
    rw [← List.length_eq_zero_iff, fresh_length, List.length_eq_zero_iff, List.filter_eq_nil_iff]
    intro p hp he
    exact hl.1 ⟨p, hp, by simpa using he⟩
  unfold step
  rw [hf, hk, List.append_nil]

theorem groupByLabel_eq {c : Change} {st : Store} {vs : Bytes → List Version} : ∀ (ls : List Bytes),
    (∀ l ∈ ls, getIndex st l = .ok ((vs l).map Version.pos)) →
    groupByLabel c st ls = .ok (ls.map (fun l => mutationOf c l (vs l))) := by
  intro ls
  induction ls with
  | nil => intro _; rfl
  | cons l ls ih =>
    intro h
    unfold groupByLabel
    rw [h l (by simp), G.ok_bind, ih (fun l' hl' => h l' (by simp [hl'])), G.ok_bind]
    rfl

/-- the number of added pairs -/
theorem added_length {env : Env} {n : Nat} {c : Change} {prevDLE : Option Nat} {vs : Bytes → List Version} {ls : List Bytes}
    {rs : List (List Prefix.Entry × List Bytes)} (h : List.Forall₂ (LabelOut env n c prevDLE vs) ls rs) (hnd : ls.Nodup) :
    (rs.flatMap (·.1)).length ≤ c.add.length := by
  have key : ∀ (ls : List Bytes) (add : List LabelValue), ls.Nodup →
      (ls.map (fun l => (add.filter (fun p => p.label == l)).length)).sum ≤ add.length := by
    intro ls
    induction ls with
    | nil => simp
    | cons l ls ih =>
      intro add hnd
      rw [List.nodup_cons] at hnd
      rw [List.map_cons, List.sum_cons]
      have h1 := ih (add.filter (fun p => !(p.label == l))) hnd.2
      have h2 : ls.map (fun l' => ((add.filter (fun p => !(p.label == l))).filter (fun p => p.label == l')).length) =
          ls.map (fun l' => (add.filter (fun p => p.label == l')).length) := by
        apply List.map_congr_left
        intro l' hl'
        rw [List.filter_filter]
        congr 1
        apply List.filter_congr
        intro p _
        by_cases hp : p.label = l'
        · have : p.label ≠ l := fun he => hnd.1 (he ▸ hp ▸ hl')
          simp [hp] at this ⊢
          exact this
        · simp [hp]
      rw [h2] at h1
      have h3 := List.length_eq_length_filter_add (l := add) (fun p => p.label == l)
      omega
  have : (rs.flatMap (·.1)).length = (ls.map (fun l => (c.add.filter (fun p => p.label == l)).length)).sum := by
    clear hnd
    induction h with
    | nil => rfl
    | cons ho _ ih =>
      rw [List.flatMap_cons, List.length_append, ih, List.map_cons, List.sum_cons, ho.len, fresh_length]
  rw [this]
  exact key ls c.add hnd

end Katie.Server
