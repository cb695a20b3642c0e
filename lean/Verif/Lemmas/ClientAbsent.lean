import Verif.Lemmas.ClientSound
import Verif.Lemmas.ServeExchange

/-
A search by the client that ends with an error of the algorithm itself: the answers were those of the log.
-/

namespace Katie.Alg
open Katie Katie.Wire Katie.Ladder Katie.Client Katie.CommittedSpec Katie.SearchTree Katie.SearchSpec Prog

section
variable {cs : Log.Suite} {Vs : Versions} {proofs : List Prefix.Proof} {E : List (List Prefix.Entry × Prefix.Proof)}
  {M : List (Nat × Nat)} {roots : Nat → Option Bytes} {ts : Nat → Nat} {g : Nat → Int} {stop : Nat → Int → Bool} {n : Nat}

theorem Facts.allOk {vs : List Visit} {tr : List Ev} (h : Facts cs Vs proofs E M roots vs tr) : ∀ e ∈ tr, ∃ a, e.a = .ok a := by
  induction h with
  | nil => simp
  | ts _ _ ih => exact List.forall_mem_cons.2 ⟨⟨_, rfl⟩, ih⟩
  | search _ _ _ _ _ _ ih => exact List.forall_mem_cons.2 ⟨⟨_, rfl⟩, ih⟩
  | monitor _ _ _ _ ih => exact List.forall_mem_cons.2 ⟨⟨_, rfl⟩, ih⟩
  | incl _ _ _ ih => exact List.forall_mem_cons.2 ⟨⟨_, rfl⟩, ih⟩
  | stop _ ih => exact List.forall_mem_cons.2 ⟨⟨_, rfl⟩, ih⟩

theorem runs_call_facts {α : Type} {q : Req} {f : q.Resp → Prog α} {tr : List Ev} {r : G α} {vs : List Visit}
    (h : Runs (call q >>= f) tr r) (hF : Facts cs Vs proofs E M roots vs tr) :
    ∃ a t, tr = ⟨q, .ok a⟩ :: t ∧ Runs (f a) t r := by
  have h' : Runs (.op q (fun a => Prog.ret a >>= f)) tr r := h
  cases h' with
  | @op _ _ a t _ h =>
    obtain ⟨b, hb⟩ := hF.allOk _ List.mem_cons_self
    replace hb : a = .ok b := hb
    rw [hb] at h ⊢
    exact ⟨b, t, rfl, h⟩

theorem runs_search_facts {α : Type} {x v : Nat} {om : Bool} {f : Int → Prog α} {tr : List Ev} {r : G α} {vs : List Visit}
    (h : Runs (getSearch x v om >>= f) tr r) (hF : Facts cs Vs proofs E M roots vs tr) :
    ∃ (a : Int) (t : List Ev), tr = ⟨.search x v om, Except.ok a⟩ :: t ∧ Runs (f a) t r := runs_call_facts h hF

theorem runs_ts_facts {α : Type} {x : Nat} {f : Nat → Prog α} {tr : List Ev} {r : G α} {vs : List Visit}
    (h : Runs (getTs x >>= f) tr r) (hF : Facts cs Vs proofs E M roots vs tr) :
    ∃ (a : Nat) (t : List Ev), tr = ⟨.ts x, Except.ok a⟩ :: t ∧ Runs (f a) t r := runs_call_facts h hF

theorem runs_incl_facts {α : Type} {x : Nat} {l : List Nat} {f : Unit → Prog α} {tr : List Ev} {r : G α} {vs : List Visit}
    (h : Runs (getIncl x l >>= f) tr r) (hF : Facts cs Vs proofs E M roots vs tr) :
    ∃ (t : List Ev), tr = ⟨.incl x l, Except.ok ()⟩ :: t ∧ Runs (f ()) t r := by
  obtain ⟨a, t, h⟩ := runs_call_facts h hF
  exact ⟨t, h⟩

theorem fixedFinish_agrees (hT : Truth cs Vs proofs E M roots ts g n) {ver : Nat} {terminal : Option Nat} {expired : Bool}
    {dist : List Nat} {vs : List Visit} {tr : List Ev} {r : G Nat}
    (h : Runs (fixedFinish ver terminal expired dist) tr r) (hF : Facts cs Vs proofs E M roots vs tr) :
    AgreesWith tr (honest ts g stop) := by
  unfold fixedFinish at h
  cases terminal with
  | none => rw [(runs_ret.1 h).1]; exact .nil
  | some t =>
    simp only at h
    rcases runs_ite.1 h with ⟨_, h⟩ | ⟨_, h⟩
    · rw [(runs_ret.1 h).1]; exact .nil
    obtain ⟨t2, rfl, h2⟩ := runs_incl_facts h hF
    obtain ⟨rfl, -⟩ := runs_ret.1 h2
    cases hF with
    | incl f1 f2 f3 =>
      have h := hT.shown _ _ _ (f1 (by simp)) (f2 ver (by simp))
      have hle : (ver : Int) ≤ g t := by simpa using h.symm
      refine AgreesWith.cons ?_ .nil
      simp [honest, hle]

theorem fixedLoop_agrees {cfg : Config} (hg : SearchSpec.Grows g n) (hT : Truth cs Vs proofs E M roots ts g n) {ver rightmost : Nat}
    (hver : ver < 2 ^ 32) : ∀ (fuel lo hi : Nat) (anc : List Nat) (s : FixedState) (vs : List Visit) (tr : List Ev)
    (r : G Nat), At n lo hi anc → s.x = rt lo hi →
    (∀ i ∈ vs, i.Truthful g n ∧ g i.x ≠ ver ∧ ((i.x < lo ∧ g i.x < ver) ∨ (hi ≤ i.x ∧ (ver : Int) < g i.x))) →
    Runs (fixedLoop cfg ver n rightmost fuel s) tr r → Facts cs Vs proofs E M roots vs tr →
    AgreesWith tr (honest ts g stop) := by
  intro fuel
  induction fuel with
  | zero => intro lo hi anc s vs tr r _ _ _ h _; rw [(runs_ret.1 h).1]; exact .nil
  | succ fuel ih =>
    intro lo hi anc s vs tr r hat hsx hvs hrun hF
    have hb := hat.bounds
    unfold fixedLoop at hrun
    obtain ⟨t, tr2, htr, hr_tr2⟩ := runs_ts_facts hrun hF
    subst htr
    clear hrun
    have hrun := hr_tr2
    clear hr_tr2
    cases hF with
    | ts f1 hF =>
    have hts := hT.times _ _ f1
    have cons1 : AgreesWith tr2 (honest ts g stop) → AgreesWith (⟨.ts s.x, .ok t⟩ :: tr2) (honest ts g stop) :=
      AgreesWith.cons (by rw [hts]; rfl)
    rcases runs_ite.1 hrun with ⟨hexp, hrun⟩ | ⟨hexp, hrun⟩
    · rcases runs_ite.1 hrun with ⟨hnr, hrun⟩ | ⟨hnr, hrun⟩
      · exact cons1 (fixedFinish_agrees (stop := stop) hT hrun hF)
      · have hr : rt lo hi + 1 < hi := by
          by_contra hc
          exact hnr (by rw [hsx]; exact (noRightChild_iff hat).2 hc)
        rw [hsx, right_rt hat hr] at hrun
        exact cons1 (ih _ _ _ _ vs _ r (.right hat hr) rfl (by
          intro i hi'
          obtain ⟨i1, i2, i3⟩ := hvs i hi'
          refine ⟨i1, i2, ?_⟩
          omega) hrun hF)
    · simp only at hrun
      obtain ⟨res, t2, htr, hr_t2⟩ := runs_search_facts hrun hF
      subst htr
      clear hrun
      have hrun := hr_t2
      clear hr_t2
      cases hF with
      | @search _ _ _ _ _ _ vt vt' w flags f1 f2 f3 f4 f5 f6 =>
      rw [hsx] at f2 f3 f5 f6
      have hfl : ∀ v b, (v, b) ∈ w.zip flags → b = decide ((v : Int) ≤ g (rt lo hi)) :=
        fun v b h => hT.shown _ v b f2 (f5 v b h)
      obtain ⟨hres, heq⟩ := ladder_truth hg hver (hT.size _ f2) f3 f1 (fun i hi => (hvs i hi).1)
        (fun i hi => by have := (hvs i hi).2.2; constructor <;> intro _ <;> omega) hfl
      have hnew : Visit.Truthful g n ⟨rt lo hi, ver, true, w, flags, res⟩ := ⟨hT.size _ f2, hfl⟩
      have cons2 : AgreesWith t2 (honest ts g stop) →
          AgreesWith (⟨.ts s.x, .ok t⟩ :: ⟨.search s.x ver true, .ok res⟩ :: t2) (honest ts g stop) :=
        fun h => cons1 (AgreesWith.cons (by rw [hsx]; exact congrArg Except.ok hres) h)
      rcases runs_ite.1 hrun with ⟨hm1, hrun⟩ | ⟨hm1, hrun⟩
      · have hlt : g (rt lo hi) < ver := by
          exact cmp3_lt (hres.symm.trans hm1)
        rcases runs_ite.1 hrun with ⟨hnr, hrun⟩ | ⟨hnr, hrun⟩
        · exact cons2 (fixedFinish_agrees (stop := stop) hT hrun f6)
        · have hr : rt lo hi + 1 < hi := by
            by_contra hc
            exact hnr (by rw [hsx]; exact (noRightChild_iff hat).2 hc)
          rw [hsx, right_rt hat hr] at hrun
          exact cons2 (ih _ _ _ _ _ _ r (.right hat hr) rfl (by
            intro i hi'
            rcases List.mem_append.1 hi' with hi' | hi'
            · obtain ⟨i1, i2, i3⟩ := hvs i hi'
              refine ⟨i1, i2, ?_⟩
              omega
            · rw [List.mem_singleton.1 hi']
              refine ⟨hnew, by simp only; omega, Or.inl ⟨by simp, hlt⟩⟩) hrun f6)
      · rcases runs_ite.1 hrun with ⟨h1', hrun⟩ | ⟨h1', hrun⟩
        · have hgt : (ver : Int) < g (rt lo hi) := by
            exact cmp3_gt (hres.symm.trans h1')
          rcases runs_ite.1 hrun with ⟨hnl, hrun⟩ | ⟨hnl, hrun⟩
          · exact cons2 (fixedFinish_agrees (stop := stop) hT hrun f6)
          · have hl : lo < rt lo hi := by
              have := mt (noLeftChild_iff hat).2 (by rw [← hsx]; exact hnl)
              omega
            rw [hsx, left_rt hat, if_pos hl] at hrun
            exact cons2 (ih _ _ _ _ _ _ r (.left hat hl) rfl (by
              intro i hi'
              rcases List.mem_append.1 hi' with hi' | hi'
              · obtain ⟨i1, i2, i3⟩ := hvs i hi'
                refine ⟨i1, i2, ?_⟩
                omega
              · rw [List.mem_singleton.1 hi']
                refine ⟨hnew, by simp only; omega, Or.inr ⟨by simp, hgt⟩⟩) hrun f6)
        · have hend : t2 = [] := by
            rcases runs_ite.1 hrun with ⟨_, h⟩ | ⟨_, h⟩
            · exact (runs_ret.1 h).1
            · rcases runs_ite.1 h with ⟨_, h⟩ | ⟨_, h⟩
              · exact (runs_ret.1 h).1
              · exact (runs_ret.1 h).1
          subst hend
          exact cons2 .nil

/-- The answers to a fixed-version search that were checked against the log are those of the log, however the search ends. -/
theorem fixedVersionSearch_agrees {cfg : Config} (h0 : 0 < n) (hg : SearchSpec.Grows g n)
    (hT : Truth cs Vs proofs E M roots ts g n) {ver : Nat}
    (hver : ver < 2 ^ 32) {tr : List Ev} {r : G Nat} (h : Runs (fixedVersionSearch cfg ver n) tr r)
    (hF : Facts cs Vs proofs E M roots [] tr) : AgreesWith tr (honest ts g stop) := by
  unfold fixedVersionSearch at h
  rw [if_neg (by omega)] at h
  obtain ⟨t, t2, htr, hr_t2⟩ := runs_ts_facts h hF
  subst htr
  cases hF with
  | ts f1 hF =>
    have hts := hT.times _ _ f1
    exact AgreesWith.cons (by rw [hts]; rfl)
      (fixedLoop_agrees (stop := stop) hg hT hver _ _ _ _ _ [] t2 r (.root h0) (root_eq h0) (by simp) hr_t2 hF)

theorem evals_total {α : Type} (prog : Prog α) (p : Provider Received) : Provider.evals cs (total prog) p = Provider.evals cs prog p := by
  induction prog generalizing p with
  | ret r => rfl
  | op q k ih =>
    change _ ++ _ = _ ++ _
    rw [← ih]

end

end Katie.Alg
