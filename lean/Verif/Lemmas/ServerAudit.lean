import Verif.Lemmas.ServerVersions
import Verif.Lemmas.AuditorExec
import Verif.Props.C10_C13_PrefixSound

/-
An auditor that processes the updates of an honest server.
-/

namespace Katie.Server
open Katie Katie.Wire Katie.ServerSpec Katie.PrefixSpec Katie.AuditSpec Katie.SearchSpec Katie.Audit

theorem isGreatest'_unique {P : Nat → Prop} {a b : Option Nat} (ha : IsGreatest' P a) (hb : IsGreatest' P b) : a = b := by
  cases a with
  | none =>
    cases b with
    | none => rfl
    | some b => exact absurd hb.1 (ha b)
  | some a =>
    cases b with
    | none => exact absurd ha.1 (hb a)
    | some b =>
      have h1 := ha.2 b hb.1
      have h2 := hb.2 a ha.1
      rw [show a = b by omega]

theorem sortedStrictly_of {l : List Prefix.Entry} (hs : Prefix.Sorted id (l.map Prefix.Entry.vrf))
    (hd : (l.map Prefix.Entry.vrf).Nodup) : sortedStrictly l = true := by
  induction l with
  | nil => rfl
  | cons a l ih =>
    cases l with
    | nil => rfl
    | cons b l =>
      rw [List.map_cons] at hs hd
      have hs' := List.pairwise_cons.1 hs
      have hd' := List.nodup_cons.1 hd
      unfold sortedStrictly
      rw [Bool.and_eq_true]
      refine ⟨?_, ih hs'.2 hd'.2⟩
      by_contra hc
      have h1 : Prefix.bytesLt b.vrf a.vrf = false := hs'.1 b.vrf (by simp)
      have h2 : Prefix.bytesLt a.vrf b.vrf = false := by simpa using hc
      exact hd'.1 (by rw [Prefix.bytesLt_total h2 h1]; simp)

/-- the results in the proof of a mutation: absent for what is added, present for what is removed -/
theorem mutate_results {cs : Prefix.Suite} (hcs : cs.Good) (hsm : Prefix.Small cs) {bs : List Batch} {st : Prefix.Store}
    (h : History cs bs st) (b : Batch) (res : Prefix.MutateResult)
    (hm : Prefix.mutate cs st bs.length (entries b.add) b.remove = .ok res)
    (hne : bs = [] ∨ b.add ≠ [] ∨ b.remove ≠ []) (hver : bs.length + 1 < 2 ^ 64)
    (hsize : (contents (bs ++ [b])).length < 2 ^ 54) (hdist : (b.add.map Prod.fst ++ b.remove).Nodup) :
    ∃ A R, res.proof.results = A ++ R ∧ A.length = b.add.length ∧ R.length = b.remove.length ∧
      (∀ r ∈ A, r.isInclusion = false) ∧ ∀ r ∈ R, r.isInclusion = true := by
  obtain ⟨hmap, X, hinv⟩ := Prefix.history_inv hcs hsm h
  obtain ⟨hb, ho⟩ := Prefix.mutate_ok hcs hsm hinv hmap hm hne hver hsize
  obtain ⟨n, T, hperm, hstart, hproof⟩ := ho.proof
  rw [Prefix.current_versions] at hperm
  have hlenV : ∀ v ∈ Prefix.Batch.vrfs b, v.length = cs.hashSize :=
    Prefix.vrfs_len (fun e he => (hb.addLen e he).1) hb.removeLen
  have hflag : ∀ v ∈ Prefix.Batch.vrfs b, ((Prefix.look n 0 v).1.isInclusion = true ↔ v ∈ (contents bs).map Prod.fst) := by
    intro v hv
    rw [Prefix.look_isInclusion, hstart.isSome hv (hlenV v hv), List.mem_map, List.mem_map]
    constructor
    · rintro ⟨e, he, rfl⟩; exact ⟨e, hperm.mem_iff.1 he, rfl⟩
    · rintro ⟨e, he, rfl⟩; exact ⟨e, hperm.mem_iff.2 he, rfl⟩
  refine ⟨(b.add.map Prod.fst).map (fun v => (Prefix.look n 0 v).1), b.remove.map (fun v => (Prefix.look n 0 v).1), ?_, by simp,
    by simp, ?_, ?_⟩
  · rw [hproof]
    unfold Prefix.Batch.vrfs
    simp
  · intro r hr
    obtain ⟨v, hv, rfl⟩ := List.mem_map.1 hr
    have hV : v ∈ Prefix.Batch.vrfs b := List.mem_append.2 (.inl hv)
    by_contra hc
    have hin := (hflag v hV).1 (by simpa using hc)
    obtain ⟨e, he, rfl⟩ := List.mem_map.1 hv
    exact (List.disjoint_of_nodup_append hdist) hv (hb.fresh e he hin)
  · intro r hr
    obtain ⟨v, hv, rfl⟩ := List.mem_map.1 hr
    exact (hflag v (List.mem_append.2 (.inr hv))).2 (hb.present v hv)

theorem addedSince_true {s : AState} {x : Nat} {v : Bytes} (h : addedSince (some s) x v = true) :
    ∃ i ∈ s.inserted, i.vrf = v ∧ x < i.pos := by
  unfold addedSince at h
  simp only at h
  split at h
  · cases h
  · rename_i e he
    simp only [Bool.and_eq_true, beq_iff_eq, decide_eq_true_eq] at h
    exact ⟨e, List.mem_of_getElem? he, h.1, h.2⟩

/-- what an auditor remembers about the last update is about versions added then -/
def Recent (env : Env) (cs : List Change) (a : Option AState) : Prop :=
  ∀ s, a = some s → ∀ i ∈ s.inserted, ∃ l v x pr, (versionsOf l cs)[v]? = some x ∧ x.pos = i.pos ∧
    computeVrf env l v = .ok (i.vrf, pr)

theorem audit_step {env : Env} (hcs : env.cs.Good) (hsm : Prefix.Small env.cs) {cs : List Change} {us : List AuditorUpdate}
    {st : Store} {head : Option TreeHead} {c : Change} {u : AuditorUpdate} {res : Prefix.MutateResult} {d : Option Nat}
    {a : Option AState} (hinv : Inv env cs us st head) (hf : StepFacts env cs us st c u res d) (hc : ChangeOk env c)
    (hr : InRange (cs ++ [c])) (hne : us = [] ∨ u.added ≠ [] ∨ u.removed ≠ []) (hcount : (contents (us.map batchOf ++ [batchOf u])).length < 2 ^ 54)
    (hchk : ((batchOf u).add.map Prod.fst ++ (batchOf u).remove).Nodup ∧ (batchOf u).Resolved (contents (us.map batchOf)))
    (hd : DescribesO env.cs (logOf env.cs us) a)
    (hrec : Recent env cs a) :
    ∃ s, processed env.cs env.cfg a u = .ok s ∧ Describes env.cs (logOf env.cs (us ++ [u])) s ∧
      s.signature = none ∧ Recent env (cs ++ [c]) (some s) := by
  have hsize := hinv.size
  have hsize' := hr.size
  rw [List.length_append, List.length_singleton] at hsize'
  have hWl : (logOf env.cs us).length = cs.length := by rw [logOf_length, hinv.len]
  have hn : (logOf env.cs us).length + 1 < 2 ^ 64 := by omega
  have hg : GoodTimes (timeOf (logOf env.cs us)) (logOf env.cs us).length := by rw [logOf_length]; exact hinv.times
  have hver : (us.map batchOf).length + 1 < 2 ^ 64 := by rw [List.length_map, hinv.len]; omega
  have hne' : us.map batchOf = [] ∨ (batchOf u).add ≠ [] ∨ (batchOf u).remove ≠ [] := by
    rcases hne with hne | hne | hne
    · left; rw [hne]; rfl
    · right; left; unfold batchOf; simpa using hne
    · right; right; unfold batchOf; simpa using hne
  have hentry := hinv.getEntry hcs
  obtain ⟨hpd1, hpd2⟩ := previousDistinguished_spec hentry hg hc.now (by omega)
  have hlast := hpd1 d (by rw [hWl]; exact hf.dle)
  obtain ⟨d', hd', hdg⟩ := hpd2 hlast
  rw [hWl, hf.dle] at hd'
  obtain rfl := Except.ok.inj hd'
  have ht : u.timestamp < 2 ^ 64 := by rw [hf.time]; exact hc.now
  have c1 : ∀ s, a = some s → s.timestamp ≤ u.timestamp := by
    intro s hs
    subst hs
    have hds : Describes env.cs (logOf env.cs us) s := hd
    rw [hds.time, hf.time]
    exact hlast hds.pos
  -- the proof
  have hba := Props.C12_before_after_partial hcs hsm hinv.hist (batchOf u) res hf.mutate hne' hver hcount hchk.1 hchk.2
  have hb1 : entries (batchOf u).add = u.added := entries_pairs _
  have hb2 : entries ((batchOf u).remove.zip res.removed) = u.removed := by
    rw [← hf.removed]
    unfold entries batchOf
    rw [List.zip_map', List.map_map]
    exact List.map_id _
  rw [hb1, hb2, ← hf.proof] at hba
  obtain ⟨hmap, X, hpinv⟩ := Prefix.history_inv hcs hsm hinv.hist
  obtain ⟨_, hout⟩ := Prefix.mutate_ok hcs hsm hpinv hmap hf.mutate hne' hver hcount
  have hroot : res.root = rootHash env.cs.H env.cs.hashSize (contents ((us ++ [u]).map batchOf)) := by
    rw [hout.root, Prefix.current_versions, List.map_append, List.map_singleton, Prefix.contents_snoc]
  have hW : logOf env.cs (us ++ [u]) = logOf env.cs us ++ [⟨u.timestamp, res.root⟩] := by rw [logOf_snoc, hroot]
  obtain ⟨A, R, hres, hA, hR, hAf, hRt⟩ := mutate_results hcs hsm hinv.hist (batchOf u) res hf.mutate hne' hver hcount hchk.1
  rw [← hf.proof] at hres
  have hAl : A.length = u.added.length := by rw [hA]; unfold batchOf; simp
  have hRl : R.length = u.removed.length := by rw [hR]; unfold batchOf; simp
  have hgood := good_next res.root hd hg ht c1
  obtain ⟨r, p, h1, h2, h3⟩ := previousRightmost_spec (cfg := env.cfg) hd (good_next [] hd hg ht c1) hn
  obtain ⟨r', s', h4, h5, h6, h7, h8⟩ := updateState_spec hcs (cfg := env.cfg) (p := p) u.added hd hgood hn
    (by intro y hy; rw [timeOf_root _ _ _ []]; exact h3 y hy)
  have hrd : r = d := by
    rw [hf.time] at h2
    exact isGreatest'_unique h2 hdg
  subst hrd
  have hremvrf : u.removed.map Prefix.Entry.vrf = (batchOf u).remove := rfl
  have haddvrf : u.added.map Prefix.Entry.vrf = (batchOf u).add.map Prod.fst := by
    unfold batchOf
    simp only [List.map_map, Function.comp_def]
  refine ⟨s', processed_ok.2 ⟨c1, ?_, ?_, ?_, ?_, ?_, r, p, _, _, h1, ?_, ?_, hba, ?_, h4⟩, ?_, h6, ?_⟩
  · refine sortedStrictly_of ?_ (by rw [haddvrf]; exact hf.valid.addDistinct)
    have := hf.sortedAdd
    unfold Prefix.Sorted at this ⊢
    rw [List.pairwise_map]
    exact this
  · exact sortedStrictly_of (by rw [hremvrf]; exact hf.sortedRemove) (by rw [hremvrf]; exact hf.valid.removeDistinct)
  · rw [hres, List.length_append, hAl, hRl]
  · unfold addedAbsent
    rw [List.all_eq_true]
    intro e he
    rw [hres] at he
    have : e.2 ∈ A := by
      obtain ⟨i, hi⟩ := List.mem_iff_getElem?.1 he
      rw [List.getElem?_zip_eq_some] at hi
      have hlt : i < u.added.length := by
        by_contra hcon
        rw [List.getElem?_eq_none (by omega)] at hi
        cases hi.1
      rw [List.getElem?_append_left (by omega)] at hi
      exact List.mem_of_getElem? hi.2
    rw [hAf _ this]
    rfl
  · rw [hres, List.drop_left' hAl, List.all_eq_true]
    exact hRt
  · intro hnone
    by_contra hrem
    obtain ⟨e, he⟩ := List.exists_mem_of_ne_nil _ hrem
    obtain ⟨l, v, x, d', pr, _, _, _, hsome, _⟩ := hf.recent e.vrf (by rw [← hremvrf]; exact List.mem_map.2 ⟨e, he, rfl⟩)
    rw [hsome] at hnone
    cases hnone
  · intro e he
    obtain ⟨l, v, x, d', pr, _, hx, hpr, hsome, hle⟩ := hf.recent e.vrf (by rw [← hremvrf]; exact List.mem_map.2 ⟨e, he, rfl⟩)
    subst hsome
    cases a with
    | none =>
      exfalso
      have hW0 : logOf env.cs us = [] := hd
      have := h2.1.2
      rw [hW0] at this
      simp at this
    | some s =>
      by_contra hcon
      obtain ⟨i, hi, hiv, hlt⟩ := addedSince_true (by simpa using hcon)
      obtain ⟨l', v', x', pr', hx', hpos, hpr'⟩ := hrec s rfl i hi
      obtain ⟨p1, hp1⟩ := hinv.total l v x hx
      obtain ⟨p2, hp2⟩ := hinv.total l' v' x' hx'
      obtain ⟨q1, hq1⟩ := pairOf_vrf hp1
      obtain ⟨q2, hq2⟩ := pairOf_vrf hp2
      rw [hpr] at hq1
      rw [hpr'] at hq2
      obtain ⟨e1, _⟩ := Prod.mk.inj (Except.ok.inj hq1)
      obtain ⟨e2, _⟩ := Prod.mk.inj (Except.ok.inj hq2)
      obtain ⟨rfl, rfl⟩ := hinv.inj l v x p1 l' v' x' p2 hx hp1 hx' hp2 (by rw [← e1, ← e2, hiv])
      rw [hx] at hx'
      obtain rfl := Option.some.inj hx'
      have := hle x.pos (List.mem_map.2 ⟨x, List.mem_of_getElem? hx, rfl⟩)
      change d' < i.pos at hlt
      omega
  · intro s hs
    subst hs
    have hds : Describes env.cs (logOf env.cs us) s := hd
    have hu0 : us ≠ [] := by
      intro h0
      have := hds.pos
      rw [h0] at this
      simp [logOf] at this
    obtain ⟨us', w, rfl⟩ : ∃ us' w, us = us' ++ [w] := ⟨us.dropLast, us.getLast hu0, (List.dropLast_append_getLast hu0).symm⟩
    rw [hds.root _ (by rw [logOf_snoc, List.getLast?_concat])]
  · rw [hW]; exact h5
  · intro s hs i hi
    obtain rfl := Option.some.inj hs
    rw [h8, mem_mergeInserted] at hi
    obtain ⟨e, he, rfl⟩ := List.mem_map.1 (List.mem_filter.1 hi).1
    obtain ⟨l, v, x, pr, hx, hpos, hpr⟩ := hf.addedPos e he
    exact ⟨l, v, x, pr, hx, by rw [hpos, hWl], hpr⟩

end Katie.Server
