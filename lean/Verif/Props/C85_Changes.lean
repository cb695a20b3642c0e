import Verif.Lemmas.ChangeMade
import Verif.Props.ServerExample

/-
Property C85: the server makes exactly the acceptable changes, and refuses the others with an error.
-/

namespace Katie.Props
open Katie Katie.Wire Katie.Server Katie.Alg Katie.ServerSpec Katie.PrefixSpec Katie.AuditSpec Katie.SearchSpec

/-- **Property C85**: a change that keeps to the formats is made if and only if it is acceptable. -/
theorem C85_made_iff {env : Env} (hcs : env.cs.Good) (hsm : Prefix.Small env.cs) (hable : Able env)
    {cs : List Change} {us : List AuditorUpdate} {t : Tree} (hruns : Runs env cs us t) {c : Change}
    (hc : ChangeOk env c) (hr : InRange (cs ++ [c])) (hne : ChangesSomething cs c) :
    (∃ u t', mutate env c t = (.ok u, t')) ↔ Acceptable env cs us c := by
  obtain ⟨htx, h⟩ := runs_inv hcs hsm hruns
  have hWl : (logOf env.cs us).length = cs.length := by rw [logOf_length, h.len]
  have hn : t.size = cs.length := h.treeSize
  have hsize := h.size
  have hlast : ∀ u, us.getLast? = some u → 0 < cs.length ∧ timeOf (logOf env.cs us) (cs.length - 1) = u.timestamp := by
    intro u hu
    obtain ⟨us', rfl⟩ := List.getLast?_eq_some_iff.1 hu
    have hl := h.len
    rw [List.length_append, List.length_singleton] at hl
    refine ⟨by omega, ?_⟩
    unfold timeOf logOf
    rw [show cs.length - 1 = us'.length by omega]
    simp
  have hspec := previousDistinguished_spec (now := c.now) (h.getEntry hcs) (by rw [logOf_length]; exact h.times) hc.now
    (by rw [hWl]; exact hsize)
  rw [hWl] at hspec
  constructor
  · rintro ⟨u, t', hm⟩
    obtain ⟨hd, st, hms, rfl⟩ := mutate_ok_iff hm
    rw [hn, htx] at hms
    obtain ⟨⟨d, hd1, hrem⟩, hchg⟩ := mutateStore_made h hc hr hms hne
    obtain ⟨h', -⟩ := mutate_step hcs hsm h hc hr hms hchg
    have htime := hspec.1 d hd1
    obtain ⟨d', hd2, hgr⟩ := hspec.2 htime
    rw [hd1] at hd2
    obtain rfl := Except.ok.inj hd2
    refine ⟨?_, ?_, ?_, ?_⟩
    · intro u hu
      obtain ⟨h0, h1⟩ := hlast u hu
      rw [← h1]
      exact htime h0
    · intro p hp
      have hf : p ∈ c.add.filter (fun q => q.label == p.label) := List.mem_filter.2 ⟨hp, by simp⟩
      have ha : p.value ∈ added p.label c := List.mem_map_of_mem hf
      obtain ⟨i, hi, hx⟩ := List.getElem_of_mem ha
      have hv : (versionsOf p.label (cs ++ [c]))[(kept p.label c (versionsOf p.label cs)).length + i]? =
          some ⟨cs.length, p.value, c.opening p.label ((kept p.label c (versionsOf p.label cs)).length + i)⟩ := by
        rw [versionsOf_snoc]
        unfold step fresh
        rw [List.getElem?_append_right (by omega), show ∀ a b : Nat, a + b - a = b by omega]
        rw [List.getElem?_mapIdx, List.getElem?_eq_getElem hi, hx]
        rfl
      obtain ⟨q, hq⟩ := h'.total _ _ _ hv
      obtain ⟨pr, hpr⟩ := pairOf_vrf hq
      refine ⟨computeVrf_label hpr, ?_⟩
      unfold pairOf at hq
      obtain ⟨w, -, hq⟩ := G.bind_eq_ok.1 hq
      obtain ⟨b, hb, -⟩ := G.bind_eq_ok.1 hq
      unfold commitmentValue at hb
      obtain ⟨-, z, -, hz, -⟩ := wSeq_ok.1 hb
      obtain ⟨-, z, -, hz, -⟩ := wSeq_ok.1 hz
      exact value_encodes.1 ⟨z, hz⟩
    · intro l hl x hx
      obtain ⟨y, rfl, hle⟩ := hrem l hl x hx
      exact ⟨y, hle, hgr.1.2, hgr.1.1⟩
    · intro l v l' v' o p p' hv hv' ho ho'
      obtain ⟨q, hq⟩ := h'.total l v _ (List.getElem?_eq_getElem hv)
      obtain ⟨q', hq'⟩ := h'.total l' v' _ (List.getElem?_eq_getElem hv')
      obtain ⟨pr, hpr⟩ := pairOf_vrf hq
      obtain ⟨pr', hpr'⟩ := pairOf_vrf hq'
      rw [ho] at hpr
      rw [ho'] at hpr'
      refine h'.inj l v _ q l' v' _ q' (List.getElem?_eq_getElem hv) hq (List.getElem?_eq_getElem hv') hq' ?_
      rw [← (Prod.mk.inj (Except.ok.inj hpr)).1, ← (Prod.mk.inj (Except.ok.inj hpr')).1]
  · rintro ⟨a1, a2, a3, a4⟩
    obtain ⟨d, hd1, hgr⟩ := hspec.2 (by
      intro h0
      cases hu : us.getLast? with
      | none =>
        have := List.getLast?_eq_none_iff.1 hu
        have hl := h.len
        rw [this] at hl
        simp at hl
        omega
      | some u =>
        rw [(hlast u hu).2]
        exact a1 u hu)
    obtain ⟨hd, u, st', hms, -⟩ := mutateStore_total hcs hsm h hc hr hable.vrf hable.config hable.sign a2 hd1 (by
      intro l hl x hx
      obtain ⟨y, hy1, hy2, hy3⟩ := a3 l hl x hx
      cases d with
      | none => exact absurd ⟨hy3, hy2⟩ (hgr y)
      | some m => exact ⟨m, rfl, hy1.trans (hgr.2 y ⟨hy3, hy2⟩)⟩) a4 hne
    refine ⟨u, { t with db := st', tx := st', head := some hd }, ?_⟩
    unfold mutate
    rw [hn, htx, hms]

/-- **Property C85**: after any execution, an acceptable change extends the execution by one log entry, with the time
of the change. -/
theorem C85_extends {env : Env} (hcs : env.cs.Good) (hsm : Prefix.Small env.cs) (hable : Able env)
    {cs : List Change} {us : List AuditorUpdate} {t : Tree} (hruns : Runs env cs us t) {c : Change}
    (hc : ChangeOk env c) (hr : InRange (cs ++ [c])) (hne : ChangesSomething cs c) (ha : Acceptable env cs us c) :
    ∃ u t', mutate env c t = (.ok u, t') ∧ t'.size = t.size + 1 ∧ u.timestamp = c.now ∧ Runs env (cs ++ [c]) (us ++ [u]) t' := by
  obtain ⟨htx, h⟩ := runs_inv hcs hsm hruns
  obtain ⟨u, t', hm⟩ := (C85_made_iff hcs hsm hable hruns hc hr hne).2 ha
  obtain ⟨hd, st, hms, ht'⟩ := mutate_ok_iff hm
  rw [h.treeSize, htx] at hms
  have hruns' := hruns.change hm hc hr (mutateStore_made h hc hr hms hne).2
  obtain ⟨-, res, d, hf⟩ := mutate_step hcs hsm h hc hr hms (mutateStore_made h hc hr hms hne).2
  refine ⟨u, t', hm, ?_, hf.time, hruns'⟩
  rw [(runs_inv hcs hsm hruns').2.treeSize, h.treeSize, List.length_append, List.length_singleton]

/-- **Property C85**: a change that is not acceptable is refused with an error, not with a panic; nothing is committed. -/
theorem C85_refused {env : Env} (hcs : env.cs.Good) (hsm : Prefix.Small env.cs) (hable : Able env)
    {cs : List Change} {us : List AuditorUpdate} {t : Tree} (hruns : Runs env cs us t) {c : Change}
    (hc : ChangeOk env c) (hr : InRange (cs ++ [c])) (hne : ChangesSomething cs c) (ha : ¬ Acceptable env cs us c) :
    ∃ msg t', mutate env c t = (goErr msg, t') ∧ t'.db = t.db ∧ t'.head = t.head := by
  obtain ⟨htx, h⟩ := runs_inv hcs hsm hruns
  cases hm : mutate env c t with
  | mk r t' =>
    cases r with
    | ok u => exact absurd ((C85_made_iff hcs hsm hable hruns hc hr hne).1 ⟨u, t', hm⟩) ha
    | error e =>
      have h1 := mutate_error hm
      have : IsErr e := by
        unfold mutate at hm
        rw [h.treeSize, htx] at hm
        split at hm
        · rename_i e' st he
          obtain ⟨h2, -⟩ := Prod.mk.inj hm
          cases h2
          exact mutateStore_soft hcs hsm h hc hr hable.config hable.sign hne he
        · rename_i hd r st hms
          obtain ⟨rfl, -⟩ := Prod.mk.inj hm
          exact absurd hms mutateStore_update
      obtain ⟨msg, rfl⟩ := this
      exact ⟨msg, t', rfl, h1⟩

/-! ### examples -/

theorem toyEnv_able : Able toyEnv where
  vrf _ := rfl
  config := ⟨_, show marshalConfig toyEnv.cfg = .ok _ from rfl⟩
  sign _ := ⟨_, rfl, by simp⟩

/-- after `toyHistory`, label 10 may be removed and added again -/
def toyChange10 : Change := toyChange [⟨[10], ⟨[8], none⟩⟩] [[10]] 300

theorem toyChange10_ok : ChangeOk toyEnv toyChange10 ∧ InRange (toyHistory ++ [toyChange10]) ∧ ChangesSomething toyHistory toyChange10 :=
  ⟨toyChange_ok _ _ _ (by decide +kernel) (by simp [UpdateValue.Typed, SuffixTyped, toyEnv, thirdPartyAuditing, thirdPartyManagement]),
    inRange_of_short (by decide +kernel) (by decide +kernel), .inr (.inl (by simp [toyChange10, toyChange]))⟩

example : ∃ u t', mutate toyEnv toyChange10 toyT5 = (.ok u, t') ∧ t'.size = 6 ∧
    Runs toyEnv (toyHistory ++ [toyChange10]) ([toyU1, toyU2, toyU3, toyU4, toyU5] ++ [u]) t' := by
  obtain ⟨h1, h2, h3⟩ := toyChange10_ok
  have hg := toySuite_good
  have hsm : Prefix.Small toyEnv.cs := by show (1 : Nat) ≤ 32; decide
  have hm : ((mutate toyEnv toyChange10 toyT5).1.toOption.isSome) = true := by decide +kernel
  have ha := (C85_made_iff hg hsm toyEnv_able toyHistory_runs h1 h2 h3).1 (by
    cases h : mutate toyEnv toyChange10 toyT5 with
    | mk r t' =>
      rw [h] at hm
      cases r with
      | ok u => exact ⟨u, t', rfl⟩
      | error e => cases hm)
  have hsz : toyT5.size = 5 := by decide
  obtain ⟨u, t', k1, k2, -, k3⟩ := C85_extends hg hsm toyEnv_able toyHistory_runs h1 h2 h3 ha
  exact ⟨u, t', k1, by rw [k2, hsz], k3⟩

/-- a change from before the last one is refused -/
example : ∃ msg t', mutate toyEnv (toyChange [⟨[70], ⟨[8], none⟩⟩] [] 299) toyT5 = (goErr msg, t') ∧ t'.db = toyT5.db ∧ t'.head = toyT5.head :=
  C85_refused toySuite_good (by show (1 : Nat) ≤ 32; decide) toyEnv_able toyHistory_runs
    (toyChange_ok _ _ _ (by decide +kernel) (by simp [UpdateValue.Typed, SuffixTyped, toyEnv, thirdPartyAuditing, thirdPartyManagement]))
    (inRange_of_short (by decide +kernel) (by decide +kernel)) (.inr (.inl (by simp [toyChange])))
    (fun h => absurd (h.time toyU5 rfl) (by decide))

/-- the first change of an empty server, checked against the conditions -/
example : Acceptable toyEnv [] [] (toyChange [⟨[10], ⟨[1], none⟩⟩] [] 5) where
  time u hu := by simp at hu
  values p hp := by
    simp only [toyChange, List.mem_singleton] at hp
    subst hp
    exact ⟨by simp, by simp [Short]⟩
  settled l hl := by simp [toyChange] at hl
  apart l v l' v' o p p' hv hv' _ _ := by
    rw [versionsOf_snoc] at hv hv'
    have key : ∀ l, (step l 0 (toyChange [⟨[10], ⟨[1], none⟩⟩] [] 5) []).length = if l = [10] then 1 else 0 := by
      intro l
      unfold step kept fresh added
      by_cases hl : l = [10]
      · subst hl; rfl
      · rw [if_neg hl]
        simp [toyChange, Ne.symm hl]
    simp only [List.length_nil, versionsOf_nil, key] at hv hv'
    by_cases hl : l = [10] <;> by_cases hl' : l' = [10] <;> simp [hl, hl'] at hv hv'
    exact ⟨by rw [hl, hl'], by omega⟩

end Katie.Props
