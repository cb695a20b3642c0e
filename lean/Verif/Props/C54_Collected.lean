import Verif.Lemmas.ServerStep
import Verif.Props.C54_Update

/-
C54, what holds: the stream begins at the right version, and what is collected for a response are the new versions.
-/

namespace Katie.Props
open Katie Katie.Wire Katie.Alg Katie.Server Katie.ServerSpec

theorem infos_collects {env : Env} {st : Store} {label : Bytes} {pos : Nat} {wv : Bool} {all : List Version}
    (hg : ∀ v x, all[v]? = some x → getVersion env st label v = .ok ⟨x.opening, x.value⟩) (hlen : all.length ≤ 2 ^ 32) :
    ∀ (vs : List Version) (ver : Nat), all.drop ver = vs →
      infos env st label pos wv ver (vs.map Version.pos) =
        .ok (if wv then (vs.takeWhile (fun x => x.pos = pos)).map (fun x => x.value.value) else [],
          (vs.takeWhile (fun x => x.pos = pos)).map (fun x => ⟨x.opening, x.value.signature⟩))
  | [], ver, _ => by cases wv <;> rfl
  | x :: vs, ver, h => by
    have hx : all[ver]? = some x := by
      have : (all.drop ver)[0]? = some x := by rw [h]; rfl
      simpa using this
    have hv : ver < all.length := (List.getElem?_eq_some_iff.1 hx).1
    have hd : all.drop (ver + 1) = vs := by
      rw [← List.drop_drop, h]; rfl
    rw [List.map_cons]
    unfold infos
    by_cases hp : x.pos = pos
    · rw [if_neg (by simpa using hp), Nat.mod_eq_of_lt (by omega), hg ver x hx, G.ok_bind, infos_collects hg hlen vs (ver + 1) hd, G.ok_bind]
      rw [List.takeWhile_cons_of_pos (by simpa using hp)]
      cases wv <;> rfl
    · rw [if_pos hp, List.takeWhile_cons_of_neg (by simpa using hp)]
      cases wv <;> rfl

theorem runs_few {env : Env} {cs : List Change} {us : List AuditorUpdate} {t : Tree} (h : ServerSpec.Runs env cs us t) :
    ∀ l, (versionsOf l cs).length ≤ 2 ^ 32 := by
  induction h with
  | start _ => intro l; simp [versionsOf]
  | change _ _ _ hr _ _ => exact hr.versions
  | restart _ _ ih => exact ih
  | failed _ _ _ ih => exact ih

/-- **C54, what holds.**  After any execution of the server, the stream of responses to an update begins with the first
version of the label that the user does not know.  For a log entry with new versions, the openings, signatures and (if they
are to be sent) values that the server collects are those of the versions of the label in this entry, in order. -/
theorem C54_collected_partial {env : Env} (hcs : env.cs.Good) (hsm : Prefix.Small env.cs) {cs : List Change} {us : List AuditorUpdate}
    {t : Tree} (h : ServerSpec.Runs env cs us t) (req : UpdateRequest) :
    ∃ u, setRequest t req = .ok u ∧ u.label = req.label ∧ u.last = req.last ∧ u.tree = t ∧
      u.values = req.values.map (fun v => ⟨v, none⟩) ∧ u.index = (versionsOf req.label cs).map Version.pos ∧
      (req.greatestVersion = none → u.ver = 0) ∧ (∀ v, req.greatestVersion = some v → u.ver = v + 1) ∧
      ∀ (ver pos : Nat) (wv : Bool),
        infos env t.tx req.label pos wv ver (u.index.drop ver) =
          .ok (if wv then (((versionsOf req.label cs).drop ver).takeWhile (fun x => x.pos = pos)).map (fun x => x.value.value) else [],
            (((versionsOf req.label cs).drop ver).takeWhile (fun x => x.pos = pos)).map (fun x => ⟨x.opening, x.value.signature⟩)) := by
  obtain ⟨htx, hinv⟩ := runs_inv hcs hsm h
  rw [← htx] at hinv
  refine ⟨⟨t, req.last, req.label, none, req.values.map (fun v => ⟨v, none⟩), (versionsOf req.label cs).map Version.pos, nextVer req.greatestVersion⟩,
    ?_, rfl, rfl, rfl, rfl, rfl, fun hn => by simp [hn, nextVer], fun v hv => by simp [hv, nextVer], fun ver pos wv => ?_⟩
  · unfold setRequest
    rw [hinv.getIndex]
    rfl
  · rw [← List.map_drop]
    refine infos_collects (fun v x hx => ?_) (runs_few h _) _ _ rfl
    rw [hinv.getVersion, hx]

theorem last_before (vs : List Version) (pos : Nat) (hs : (vs.map Version.pos).Pairwise (· ≤ ·)) :
    ((vs.map Version.pos).getLast?.all (fun p => decide (p < pos)) = true) ↔ ∀ x ∈ vs, x.pos < pos := by
  cases hl : (vs.map Version.pos).getLast? with
  | none =>
    rw [List.getLast?_eq_none_iff, List.map_eq_nil_iff] at hl
    simp [hl]
  | some q =>
    obtain ⟨ys, hys⟩ := List.getLast?_eq_some_iff.1 hl
    simp only [Option.all_some, decide_eq_true_eq]
    rw [hys, List.pairwise_append] at hs
    constructor
    · intro hq x hx
      have : x.pos ∈ vs.map Version.pos := List.mem_map.2 ⟨x, hx, rfl⟩
      rw [hys, List.mem_append] at this
      rcases this with h | h
      · have := hs.2.2 _ h q (by simp); omega
      · simp at h; omega
    · intro h
      have : q ∈ vs.map Version.pos := by rw [hys]; simp
      obtain ⟨x, hx, rfl⟩ := List.mem_map.1 this
      exact h x hx

/-- **C54, what holds after new versions were sequenced.**  The updater goes on with the reloaded tree and with all versions
of the label exactly if the log has the entry in question and the label has a version in it or after it; it fails with an
error otherwise. -/
theorem C54_reload_partial {env : Env} (hcs : env.cs.Good) (hsm : Prefix.Small env.cs) {cs : List Change} {us : List AuditorUpdate}
    {t t' : Tree} (h : ServerSpec.Runs env cs us t) (hne : cs ≠ []) (ht : newTree env t.db = .ok t') (u : Updater) (pos : Nat) :
    ((pos < cs.length ∧ ∃ x ∈ versionsOf u.label cs, pos ≤ x.pos) ∧
      reloadTree env t.db pos u = .ok { u with tree := t', index := (versionsOf u.label cs).map Version.pos }) ∨
    (¬ (pos < cs.length ∧ ∃ x ∈ versionsOf u.label cs, pos ≤ x.pos) ∧ ∃ e, reloadTree env t.db pos u = .error (.err e)) := by
  obtain ⟨htx, hinv⟩ := runs_inv hcs hsm h
  obtain ⟨htx', hinv'⟩ := inv_restart hinv ht
  have hdb : t'.db = t.db := (newTree_ok ht).1
  have hsize : t'.size = cs.length := by rw [hinv'.head.size, logOf_length, hinv'.len]
  have hhead : t'.head ≠ none := by
    intro e
    have : t'.size = 0 := by simp [Tree.size, e]
    rw [hsize] at this
    exact hne (List.length_eq_zero_iff.1 this)
  have hsorted : ((versionsOf u.label cs).map Version.pos).Pairwise (· ≤ ·) := (versionsOf_pos u.label cs).1
  have hlast := last_before (versionsOf u.label cs) pos hsorted
  unfold reloadTree
  rw [ht, G.ok_bind, if_neg hhead, hsize, hinv.getIndex]
  by_cases h1 : cs.length ≤ pos
  · rw [if_pos h1]
    exact .inr ⟨fun e => by omega, _, rfl⟩
  · rw [if_neg h1]
    simp only [G.ok_bind]
    by_cases h2 : ∀ x ∈ versionsOf u.label cs, x.pos < pos
    · rw [if_pos (hlast.2 h2)]
      exact .inr ⟨fun ⟨_, x, hx, hp⟩ => by have := h2 x hx; omega, _, rfl⟩
    · rw [if_neg (fun e => h2 (hlast.1 e))]
      refine .inl ⟨⟨by omega, ?_⟩, rfl⟩
      by_contra hc
      exact h2 (fun x hx => by by_contra hx'; exact hc ⟨x, hx, by omega⟩)

/-- the first label of the example, from its first version on -/
example : ∃ u, setRequest toyT2 ⟨none, [10], none, [[9]]⟩ = .ok u ∧ u.ver = 0 ∧
    infos toyEnv toyT2.tx [10] 0 true 0 u.index = .ok ([[1], [3]], [⟨[9], none⟩, ⟨[9], none⟩]) := by
  refine ⟨_, rfl, rfl, ?_⟩
  decide +kernel

end Katie.Props
