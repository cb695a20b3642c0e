import Verif.Spec.Crash
import Verif.Lemmas.ServerStep
import Verif.Lemmas.ServerVersions

/-
What is known about the labels, whatever the state of the two trees: lemmas for C82.
-/

namespace Katie.Server
open Katie Katie.Wire Katie.ServerSpec Katie.PrefixSpec Katie.AuditSpec

theorem issueTreeHead_head {env : Env} {n t : Nat} {r : Bytes} {st st' : Store} {hd : TreeHead}
    (h : issueTreeHead env n t r st = (.ok hd, st')) :
    hd.treeSize = n + 1 ∧ (∃ b, st'.head = some b ∧ hd.marshal = .ok b) ∧ st'.index = st.index ∧ st'.versions = st.versions := by
  unfold issueTreeHead at h
  obtain ⟨raw, -, k1⟩ := St.lift_bind_ok.1 h
  rw [St.modify_bind] at k1
  obtain ⟨leaf, -, k2⟩ := St.lift_bind_ok.1 k1
  obtain ⟨⟨log', subs⟩, -, k3⟩ := St.read_bind_ok.1 k2
  simp only [] at k3
  rw [St.modify_bind] at k3
  obtain ⟨root, -, k4⟩ := St.lift_bind_ok.1 k3
  obtain ⟨tbs, -, k5⟩ := St.lift_bind_ok.1 k4
  obtain ⟨sig, -, k6⟩ := St.lift_bind_ok.1 k5
  obtain ⟨b, h9, k7⟩ := St.lift_bind_ok.1 k6
  rw [St.modify_bind] at k7
  obtain ⟨rfl, rfl⟩ := St.pure_ok.1 k7
  exact ⟨rfl, ⟨b, rfl, h9⟩, rfl, rfl⟩

/-- one change, as far as labels and the tree head are concerned -/
theorem labels_step {env : Env} {n : Nat} {vs : Bytes → List Version} {st st' : Store} {c : Change} {hd : TreeHead}
    {u : AuditorUpdate} (hr : ∀ l, Repr st l (vs l)) (hs : ∀ l, ((vs l).map Version.pos).Pairwise (· ≤ ·))
    (hb : ∀ l, ∀ x ∈ (vs l).map Version.pos, x < 2 ^ 64) (hc : ChangeOk env c) (hlen : ∀ l, (step l n c (vs l)).length ≤ 2 ^ 32)
    (hm : mutateStore env c n st = (.ok (hd, .ok u), st')) :
    (∀ l, Repr st' l (step l n c (vs l))) ∧ hd.treeSize = n + 1 ∧ (∃ b, st'.head = some b ∧ hd.marshal = .ok b) ∧
    ∀ e ∈ u.added, ∃ l v pr, (kept l c (vs l)).length ≤ v ∧ computeVrf env l v = .ok (e.vrf, pr) := by
  have hnd := nodup_labelsOf hc.order
  unfold mutateStore at hm
  obtain ⟨d, hd1, k1⟩ := St.read_bind_ok.1 hm
  obtain ⟨ms, hg, k2⟩ := St.read_bind_ok.1 k1
  rw [groupByLabel_eq (vs := vs) (labelsOf c) (fun l _ => (hr l).getIndex (hs l) (hb l))] at hg
  obtain rfl := Except.ok.inj hg
  obtain ⟨rs, s1, hf, k3⟩ := St.bind_ok.1 k2
  obtain ⟨f1, f2, f3, f4⟩ := forEach_labels _ _ _ _ hnd (fun l _ => hr l) (fun l _ => hlen l) hf
  obtain ⟨res, hres, k4⟩ := St.read_bind_ok.1 k3
  rw [St.modify_bind] at k4
  obtain ⟨hd', s2, hi, k5⟩ := St.bind_ok.1 k4
  obtain ⟨k6, rfl⟩ := St.pure_ok.1 k5
  obtain ⟨rfl, hau⟩ := Prod.mk.inj k6
  obtain ⟨i1, i2, i3, i4⟩ := issueTreeHead_head hi
  obtain ⟨-, u2, -, -, -⟩ := auditorUpdate_ok (Prefix.mutate_removed_length hres) hau
  refine ⟨fun l => ?_, i1, i2, fun e he => ?_⟩
  · have key : Repr s1 l (step l n c (vs l)) := by
      by_cases hl : l ∈ labelsOf c
      · exact f2 l hl
      · rw [step_other hc.order hl]
        exact f3 l hl _ (hr l)
    exact ⟨by rw [i3]; exact key.index, fun v => by rw [i4]; exact key.versions v⟩
  · rw [u2] at he
    obtain ⟨l, -, v, i, x, hx, rfl, hp⟩ := (mem_added f4 e).1 ((Prefix.sortBy_perm _).mem_iff.1 he)
    obtain ⟨pr, hpr⟩ := pairOf_vrf hp
    exact ⟨l, _, pr, Nat.le_add_right _ _, hpr⟩

/-- the invariant of a server that continues after a crash -/
structure Labels (env : Env) (vs₀ : Bytes → List Version) (n N : Nat) (ds : List Change) (ws : List AuditorUpdate) (t : Tree) : Prop where
  tx : t.tx = t.db
  size : t.size = n + ds.length
  head : readHead t.db.head = .ok t.head
  repr : ∃ vs : Bytes → List Version, (∀ l, Repr t.db l (vs l)) ∧ (∀ l, ((vs l).map Version.pos).Pairwise (· ≤ ·)) ∧
    (∀ l, ∀ x ∈ (vs l).map Version.pos, x ≤ n + ds.length) ∧
    (∀ l, (vs l).length ≤ N + (ds.flatMap Change.add).length) ∧
    ∀ l, (∀ d ∈ ds, l ∉ d.remove) → ∃ rest, vs l = vs₀ l ++ rest
  added : ∀ w ∈ ws, ∀ e ∈ w.added, ∃ l v pr, computeVrf env l v = .ok (e.vrf, pr) ∧
    ((∀ d ∈ ds, l ∉ d.remove) → (vs₀ l).length ≤ v)

theorem Labels.restart {env : Env} {vs₀ : Bytes → List Version} {n N : Nat} {ds : List Change} {ws : List AuditorUpdate}
    {t t' : Tree} {db : Store} (h : Labels env vs₀ n N ds ws t) (hdb : db = t.db) (ht : newTree env db = .ok t') :
    Labels env vs₀ n N ds ws t' := by
  subst hdb
  obtain ⟨h1, h2, h3⟩ := newTree_ok ht
  have h4 := h.head
  rw [h4] at h3
  have h3 := Except.ok.inj h3
  refine ⟨by rw [h1, h2], ?_, by rw [h1, ← h3]; exact h4, by rw [h1]; exact h.repr, h.added⟩
  have := h.size
  unfold Tree.size at this ⊢
  rw [← h3]
  exact this

theorem step_length_le (l : Bytes) (n : Nat) (c : Change) (vs : List Version) :
    (step l n c vs).length ≤ vs.length + c.add.length := by
  unfold step
  rw [List.length_append, fresh_length]
  have h1 : (kept l c vs).length ≤ vs.length := by unfold kept; split <;> simp
  have h2 := List.length_filter_le (fun p => p.label == l) c.add
  omega

theorem labels_continue {env : Env} {vs₀ : Bytes → List Version} {n N : Nat} {t₀ t : Tree} {ds : List Change}
    {ws : List AuditorUpdate} (h0 : Labels env vs₀ n N [] [] t₀) (h : Continues env t₀ ds ws t)
    (hN : N + (ds.flatMap Change.add).length ≤ 2 ^ 32) (hn : n + ds.length < 2 ^ 63) : Labels env vs₀ n N ds ws t := by
  induction h with
  | here => exact h0
  | restart _ ht ih => exact (ih hN hn).restart rfl ht
  | failed _ hm ht ih => exact (ih hN hn).restart (mutate_error hm).1 ht
  | @change ds ws t t' d w _ hm hc ih =>
    rw [List.flatMap_append, List.length_append] at hN
    rw [List.length_append, List.length_singleton] at hn
    have ih := ih (by omega) (by omega)
    obtain ⟨hd, st, hms, rfl⟩ := mutate_ok_iff hm
    rw [ih.size, ih.tx] at hms
    obtain ⟨vs, r1, r2, r3, r4, r5⟩ := ih.repr
    have hadd : ([d].flatMap Change.add).length = d.add.length := by simp
    rw [hadd] at hN
    obtain ⟨a1, a2, ⟨b, a3, a3'⟩, a4⟩ := labels_step r1 r2 (fun l x hx => by have := r3 l x hx; omega) hc
      (fun l => by have := step_length_le l (n + ds.length) d (vs l); have := r4 l; omega) hms
    have hfr : ∀ l, ∀ x ∈ (fresh l (n + ds.length) d (kept l d (vs l)).length).map Version.pos, x = n + ds.length := by
      intro l x hx
      rw [fresh_pos] at hx
      exact (List.mem_replicate.1 hx).2
    have hkp : ∀ l, ∀ x ∈ (kept l d (vs l)).map Version.pos, x ∈ (vs l).map Version.pos := by
      intro l x hx
      unfold kept at hx
      split at hx
      · simp at hx
      · exact hx
    refine ⟨rfl, ?_, ?_, ⟨fun l => step l (n + ds.length) d (vs l), a1, fun l => ?_, fun l x hx => ?_, fun l => ?_, fun l hl => ?_⟩, ?_⟩
    · unfold Tree.size
      simp only [List.length_append, List.length_singleton]
      omega
    · show readHead st.head = .ok (some hd)
      rw [a3]
      unfold readHead
      simp only []
      rw [readAll_ok codec_treeHead (a := hd) (show hd.treeSize < 2 ^ 64 by omega) a3']
      rfl
    · change ((step l (n + ds.length) d (vs l)).map Version.pos).Pairwise (· ≤ ·)
      unfold step
      rw [List.map_append, List.pairwise_append]
      refine ⟨?_, ?_, fun x hx y hy => ?_⟩
      · unfold kept
        split
        · simp
        · exact r2 l
      · rw [fresh_pos]
        exact List.pairwise_replicate.2 (.inr (le_refl _))
      · rw [hfr l y hy]
        exact r3 l x (hkp l x hx)
    · change x ∈ (step l (n + ds.length) d (vs l)).map Version.pos at hx
      unfold step at hx
      rw [List.map_append, List.mem_append] at hx
      rw [List.length_append, List.length_singleton]
      rcases hx with hx | hx
      · have := r3 l x (hkp l x hx); omega
      · have := hfr l x hx; omega
    · have h1 := step_length_le l (n + ds.length) d (vs l)
      have h2 := r4 l
      rw [List.flatMap_append, List.length_append, hadd]
      show (step l (n + ds.length) d (vs l)).length ≤ _
      omega
    · obtain ⟨rest, hrest⟩ := r5 l (fun d' hd' => hl d' (List.mem_append_left _ hd'))
      have hk : kept l d (vs l) = vs l := by
        unfold kept
        rw [if_neg (hl d (List.mem_append_right _ (List.mem_singleton.2 rfl)))]
      refine ⟨rest ++ fresh l (n + ds.length) d (vs l).length, ?_⟩
      show step l (n + ds.length) d (vs l) = _
      unfold step
      rw [hk, hrest, List.append_assoc]
    · intro w' hw' e he
      rcases List.mem_append.1 hw' with hw' | hw'
      · obtain ⟨l, v, pr, h1, h2⟩ := ih.added w' hw' e he
        exact ⟨l, v, pr, h1, fun hl => h2 (fun d' hd' => hl d' (List.mem_append_left _ hd'))⟩
      · obtain rfl := List.mem_singleton.1 hw'
        obtain ⟨l, v, pr, h1, h2⟩ := a4 e he
        refine ⟨l, v, pr, h2, fun hl => ?_⟩
        obtain ⟨rest, hrest⟩ := r5 l (fun d' hd' => hl d' (List.mem_append_left _ hd'))
        have hk : kept l d (vs l) = vs l := by
          unfold kept
          rw [if_neg (hl d (List.mem_append_right _ (List.mem_singleton.2 rfl)))]
        rw [hk, hrest, List.length_append] at h1
        omega

end Katie.Server
