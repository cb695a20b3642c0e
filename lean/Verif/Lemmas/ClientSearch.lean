import Verif.Lemmas.ClientFinish
import Verif.Lemmas.Search
import Verif.Lemmas.Faults
import Verif.Lemmas.Spine
import Verif.Props.C19_C22_Ladder

/-
What a client that accepted knows about a label: the prefix proofs say the truth, so the search ladders are interpreted
correctly, so the search is a search on the log that the tree head commits to.
-/

namespace Katie.Alg
open Katie Katie.Wire Katie.Ladder Katie.CommittedSpec Katie.SearchSpec Katie.SearchTree Prog

/-! ### the prefix proofs say the truth -/

theorem evaluateRoot_ne_nil {cs : Log.Suite} (hcs : cs.Good) {es : List Prefix.Entry} {pf : Prefix.Proof} {root : Bytes}
    (hp : Prefix.WireProof cs.hashSize pf) (h : Prefix.evaluateRoot cs es pf = .ok root) : root ≠ [] := by
  unfold Prefix.evaluateRoot at h
  obtain ⟨n, h1, h2⟩ := G.bind_eq_ok.1 h
  obtain rfl := Except.ok.inj h2
  have h3 := Prefix.Node.hash_length hcs n (Prefix.evaluate_spec hp h1).1
  intro hc
  rw [hc] at h3
  have := hcs.pos
  simp at h3
  omega

/-- What a shown version says about the log, if the proofs are consistent. -/
theorem shown_present {cs : Log.Suite} (hcs : cs.Good) {W : List Content} (hW : WellFormed cs W) {out : Nat → Bytes}
    {Vs : Versions} {proofs : List Prefix.Proof} {E : List (List Prefix.Entry × Prefix.Proof)}
    {p : Provider Received} {r : Provider.Result} (hL : Learned cs W p r)
    (hV : ∀ v k, Vs.lookup v = some k → v < 2 ^ 32 ∧ k.vrf = out v)
    (hwire : ∀ pf ∈ proofs, Prefix.WireProof cs.hashSize pf)
    (hclean : ∀ e ∈ E, Consistent e.1 e.2)
    (hnb : ¬ HashBroken cs (logStrings cs W) (proofStrings cs E)) {x v : Nat} {b : Bool}
    (hx : x ∈ p.timestamps.map Prod.fst) (h : Shown cs Vs proofs E (fun x => p.prefixTrees.lookup x) x v b) :
    ∃ c, W[x]? = some c ∧ v < 2 ^ 32 ∧ b = decide (out v ∈ c.map.map Prod.fst) ∧
      (b = true → ∃ k com, Vs.lookup v = some k ∧ k.com = some com ∧ (out v, com) ∈ c.map) := by
  obtain ⟨es, pf, root, k, res, h1, h2, h3, h4, h5, h6, h7, h8, h9⟩ := h
  obtain ⟨⟨x', t⟩, hxt, rfl⟩ := List.mem_map.1 hx
  obtain ⟨c, hc, hroot⟩ := hL.roots _ _ _ hxt (evaluateRoot_ne_nil hcs (hwire pf h1) h4) h5
  obtain ⟨hv32, hkv⟩ := hV v k h6
  have hver : Prefix.verify cs es pf (PrefixSpec.rootHash cs.H cs.hashSize c.map) = .ok () := by
    unfold Prefix.verify
    rw [h4, G.ok_bind, hroot]
    simp
  have hmap := hW.maps c (List.mem_of_getElem? hc)
  have hmono : ∀ a, Props.Broken cs (Props.verifierInputs cs es pf) (PrefixSpec.rootInputs cs.H cs.hashSize c.map) → a := by
    intro a hb
    exfalso
    apply hnb
    have hb : HashBroken cs (Props.verifierInputs cs es pf) (PrefixSpec.rootInputs cs.H cs.hashSize c.map) := hb
    refine hb.symm.mono ?_ ?_
    · intro s hs
      refine List.mem_append_right _ (List.mem_flatMap.2 ⟨c, List.mem_of_getElem? hc, hs⟩)
    · intro s hs
      exact List.mem_flatMap.2 ⟨_, h2, hs⟩
  have hcon := hclean _ h2 _ _ h7
  refine ⟨c, hc, hv32, ?_⟩
  cases b with
  | true =>
    rcases Props.C10_inclusion_sound_partial hcs c.map hmap es pf (hwire pf h1) hver k.entry res h7 h8
      (by rw [if_pos h8] at hcon; exact hcon) with hin | hb
    · rw [show k.entry.vrf = out v from hkv] at hin
      refine ⟨(decide_eq_true (List.mem_map.2 ⟨_, hin, rfl⟩)).symm, fun _ => ?_⟩
      obtain ⟨com, hcom⟩ : ∃ com, k.com = some com := Option.ne_none_iff_exists'.1 (h9 rfl)
      refine ⟨k, com, h6, hcom, ?_⟩
      have : k.entry.com = com := by unfold Known.entry; rw [hcom]; rfl
      rwa [this] at hin
    · exact hmono _ hb
  | false =>
    rcases Props.C11_non_inclusion_sound_partial hcs c.map hmap es pf (hwire pf h1) hver k.entry res h7 h8
      (by rw [if_neg (by rw [h8]; simp)] at hcon; exact hcon) with hin | hb
    · rw [show k.entry.vrf = out v from hkv] at hin
      exact ⟨(decide_eq_false hin).symm, fun h => by cases h⟩
    · exact hmono _ hb

/-! ### the ladders -/

/-- a visit with true results -/
def Visit.Truthful (g : Nat → Int) (n : Nat) (i : Visit) : Prop :=
  i.x < n ∧ ∀ v b, (v, b) ∈ i.w.zip i.flags → b = decide ((v : Int) ≤ g i.x)

theorem getLast?_mem {α : Type} {l : List α} {a : α} (h : l.getLast? = some a) : a ∈ l := List.mem_of_getLast? h

/-- If what was seen before is true, and the search has gone left and right as it should, and the new results are true,
then the ladder is interpreted correctly; and if it says "equal", the version itself has been shown, here or on the left. -/
theorem ladder_truth {g : Nat → Int} {n : Nat} (hg : SearchSpec.Grows g n) {vt vt' : Tracker} {x ver : Nat}
    {flags : List Bool} {w : List Nat} {res : Int} {vs : List Visit} (hver : ver < 2 ^ 32) (hx : x < n)
    (h : receiveLadder vt x ver true flags = .ok (w, res, vt')) (ht : TrackedBy vt vs)
    (htrue : ∀ i ∈ vs, i.Truthful g n)
    (hdir : ∀ i ∈ vs, (i.x < x → g i.x ≤ ver) ∧ (x < i.x → (ver : Int) ≤ g i.x))
    (hfl : ∀ v b, (v, b) ∈ w.zip flags → b = decide ((v : Int) ≤ g x)) :
    res = cmp3 (g x) ver ∧
    (res = 0 → (ver, true) ∈ w.zip flags ∨ ∃ i ∈ vs, i.x < x ∧ g i.x = ver) := by
  unfold receiveLadder at h
  obtain ⟨l, hl, h⟩ := G.bind_eq_ok.1 h
  obtain ⟨r, hr, h⟩ := G.bind_eq_ok.1 h
  obtain ⟨vt2, hv, h⟩ := G.bind_eq_ok.1 h
  obtain ⟨rfl, rfl, rfl⟩ : l.take flags.length = w ∧ r = res ∧ vt2 = vt' := by
    have := Except.ok.inj h; simpa using this
  rw [take_zip] at hfl ⊢
  have hsmall : ver < 2 ^ 31 - 1 := by
    by_contra hc
    unfold searchBinaryLadder baseBinaryLadder at hl
    rw [base_diverges (by omega) hver] at hl
    cases hl
  obtain ⟨b, hb, hbis, -⟩ := baseBinaryLadder_ok hsmall
  unfold searchBinaryLadder at hl
  rw [hb, G.ok_bind] at hl
  have hl := Except.ok.inj hl
  rw [searchLoop_self] at hl
  -- what may be left out
  have hleft : ∀ v ∈ (vt.searchMaps x true).1, ∃ i ∈ vs, i.x < x ∧ (v : Int) ≤ g i.x := by
    intro v hv
    unfold Tracker.searchMaps at hv
    simp only [Bool.not_true, Bool.false_eq_true, if_false, List.mem_flatMap, List.mem_filter, decide_eq_true_eq] at hv
    obtain ⟨e, ⟨he, hlt⟩, hv⟩ := hv
    obtain ⟨i, hi, e1, e2⟩ := ht.1 e he
    refine ⟨i, hi, by omega, ?_⟩
    have := (htrue i hi).2 v true (e2 v hv)
    simpa using this
  have hright : ∀ v ∈ (vt.searchMaps x true).2, ∃ i ∈ vs, x < i.x ∧ g i.x < (v : Int) := by
    intro v hv
    unfold Tracker.searchMaps at hv
    simp only [Bool.not_true, Bool.false_eq_true, if_false, List.mem_flatMap, List.mem_filter, decide_eq_true_eq] at hv
    obtain ⟨e, ⟨he, hlt⟩, hv⟩ := hv
    obtain ⟨i, hi, e1, e2⟩ := ht.2 e he
    refine ⟨i, hi, by omega, ?_⟩
    have := (htrue i hi).2 v false (e2 v hv)
    simpa using this
  have hvm : ver ∈ b := (List.mem_filter.1 (getLast?_mem hbis.lowEnd)).1
  have hvm1 : ver + 1 ∈ b := (List.mem_filter.1 (getLast?_mem hbis.highEnd)).1
  have hcases : ∀ v ∈ b, v ∈ l ∨ (∃ i ∈ vs, i.x < x ∧ (v : Int) ≤ g i.x) ∨ (∃ i ∈ vs, x < i.x ∧ g i.x < (v : Int)) := by
    intro v hv
    by_cases h1 : v ∈ (vt.searchMaps x true).1
    · exact Or.inr (Or.inl (hleft v h1))
    by_cases h2 : v ∈ (vt.searchMaps x true).2
    · exact Or.inr (Or.inr (hright v h2))
    left
    rw [← hl, List.mem_filter]
    refine ⟨hv, ?_⟩
    simp [h1, h2]
  obtain ⟨c0, c1, cm, call⟩ := Props.C20_interpretation l ver flags
  rcases call r hr with rfl | rfl | rfl
  · have hfe := c0.1 hr
    have hz : ∀ v ∈ l, (v, decide (v ≤ ver)) ∈ l.zip flags := by
      intro v hv
      rw [hfe, List.zip_map_right]
      refine List.mem_map.2 ⟨(v, v), ?_, rfl⟩
      rw [List.mem_iff_getElem]
      obtain ⟨i, hi, rfl⟩ := List.mem_iff_getElem.1 hv
      exact ⟨i, by simpa using hi, by simp⟩
    have hlo : (ver : Int) ≤ g x ∧ ((ver, true) ∈ l.zip flags ∨ ∃ i ∈ vs, i.x < x ∧ g i.x = ver) := by
      rcases hcases ver hvm with h1 | ⟨i, hi, h1, h2⟩ | ⟨i, hi, h1, h2⟩
      · have h3 := hz ver h1
        have := hfl _ _ h3
        simp only [le_refl, decide_true] at this h3
        exact ⟨by simpa using this.symm, Or.inl h3⟩
      · have h3 := hg i.x x (by omega) hx
        have h4 := (hdir i hi).1 h1
        exact ⟨by omega, Or.inr ⟨i, hi, h1, by omega⟩⟩
      · have := (hdir i hi).2 h1
        omega
    have hhi : g x < (ver : Int) + 1 := by
      rcases hcases (ver + 1) hvm1 with h1 | ⟨i, hi, h1, h2⟩ | ⟨i, hi, h1, h2⟩
      · have := hfl _ _ (hz (ver + 1) h1)
        have h3 : ¬ (((ver + 1 : Nat) : Int) ≤ g x) := by
          intro hc
          rw [decide_eq_true hc] at this
          simp at this
        push_cast at h3
        omega
      · have := (hdir i hi).1 h1
        push_cast at h2
        omega
      · have h3 := hg x i.x (by omega) (htrue i hi).1
        push_cast at h2
        omega
    refine ⟨?_, fun _ => hlo.2⟩
    unfold cmp3
    rw [if_neg (by omega), if_neg (by omega)]
  · obtain ⟨pre, v, post, e1, e2, e3⟩ := c1.1 hr
    have hm : (v, true) ∈ l.zip flags := by
      rw [e1, e3, List.zip_append (by simp)]
      simp
    have h3 : (v : Int) ≤ g x := by simpa using (hfl _ _ hm).symm
    refine ⟨?_, fun h => absurd h (by decide)⟩
    unfold cmp3
    rw [if_neg (by omega), if_pos (by omega)]
  · obtain ⟨pre, v, post, e1, e2, e3⟩ := cm.1 hr
    have hm : (v, false) ∈ l.zip flags := by
      rw [e1, e3, List.zip_append (by simp)]
      simp
    have h3 : ¬ (v : Int) ≤ g x := by
      have := (hfl _ _ hm).symm
      simpa using this
    refine ⟨?_, fun h => absurd h (by decide)⟩
    unfold cmp3
    rw [if_pos (by omega)]

theorem cmp3_cases (a : Int) (t : Nat) : cmp3 a t = -1 ∨ cmp3 a t = 1 ∨ cmp3 a t = 0 := by
  unfold cmp3
  split
  · exact Or.inl rfl
  · split
    · exact Or.inr (Or.inl rfl)
    · exact Or.inr (Or.inr rfl)

theorem cmp3_lt {a : Int} {t : Nat} (h : cmp3 a t = -1) : a < t := by
  unfold cmp3 at h
  split at h
  · assumption
  · split at h <;> cases h

theorem cmp3_gt {a : Int} {t : Nat} (h : cmp3 a t = 1) : (t : Int) < a := by
  unfold cmp3 at h
  split at h
  · cases h
  · split at h
    · assumption
    · cases h

/-! ### the loops -/

section
variable {cs : Log.Suite} {Vs : Versions} {proofs : List Prefix.Proof} {E : List (List Prefix.Entry × Prefix.Proof)}
  {M : List (Nat × Nat)} {roots : Nat → Option Bytes} {ts : Nat → Nat} {g : Nat → Int} {stop : Nat → Int → Bool} {n : Nat}

/-- what is known about the table of timestamps and the shown versions -/
structure Truth (cs : Log.Suite) (Vs : Versions) (proofs : List Prefix.Proof) (E : List (List Prefix.Entry × Prefix.Proof))
    (M : List (Nat × Nat)) (roots : Nat → Option Bytes) (ts : Nat → Nat) (g : Nat → Int) (n : Nat) : Prop where
  times : ∀ x a, (x, a) ∈ M → a = ts x
  size : ∀ x ∈ M.map Prod.fst, x < n
  shown : ∀ x v b, x ∈ M.map Prod.fst → Shown cs Vs proofs E roots x v b → b = decide ((v : Int) ≤ g x)

theorem honest_search {x v : Nat} {om : Bool} : honest ts g stop (.search x v om) = Except.ok (cmp3 (g x) v) := rfl

theorem AgreesWith.cons {e : Ev} {tr : List Ev} {A : (q : Req) → G q.Resp} (h1 : e.a = A e.q) (h2 : AgreesWith tr A) :
    AgreesWith (e :: tr) A := by
  intro f hf
  rcases List.mem_cons.1 hf with rfl | hf
  · exact h1
  · exact h2 f hf

theorem AgreesWith.nil {A : (q : Req) → G q.Resp} : AgreesWith [] A := by simp [AgreesWith]

theorem runs_call_bind {α : Type} {q : Req} {f : q.Resp → Prog α} {tr : List Ev} {b : α}
    (h : Runs (call q >>= f) tr (.ok b)) : ∃ a t, tr = ⟨q, .ok a⟩ :: t ∧ Runs (f a) t (.ok b) := by
  obtain ⟨a, t1, t2, e, h1, h2⟩ := runs_bind_ok.1 h
  have h1 := runs_call.1 h1
  subst h1
  exact ⟨a, t2, e, h2⟩

theorem runs_search_bind {α : Type} {x v : Nat} {om : Bool} {f : Int → Prog α} {tr : List Ev} {b : α}
    (h : Runs (getSearch x v om >>= f) tr (.ok b)) :
    ∃ (a : Int) (t : List Ev), tr = ⟨.search x v om, Except.ok a⟩ :: t ∧ Runs (f a) t (.ok b) := runs_call_bind h

theorem runs_ts_bind {α : Type} {x : Nat} {f : Nat → Prog α} {tr : List Ev} {b : α}
    (h : Runs (getTs x >>= f) tr (.ok b)) :
    ∃ (a : Nat) (t : List Ev), tr = ⟨.ts x, Except.ok a⟩ :: t ∧ Runs (f a) t (.ok b) := runs_call_bind h

theorem runs_incl_bind {α : Type} {x : Nat} {l : List Nat} {f : Unit → Prog α} {tr : List Ev} {b : α}
    (h : Runs (getIncl x l >>= f) tr (.ok b)) :
    ∃ (t : List Ev), tr = ⟨.incl x l, Except.ok ()⟩ :: t ∧ Runs (f ()) t (.ok b) := by
  obtain ⟨a, t, h⟩ := runs_call_bind h
  exact ⟨t, h⟩

theorem runs_lift_bind {α β : Type} {x : G α} {f : α → Prog β} {tr : List Ev} {b : β}
    (h : Runs (lift x >>= f) tr (.ok b)) : ∃ a, x = .ok a ∧ Runs (f a) tr (.ok b) := by
  obtain ⟨a, t1, t2, e, h1, h2⟩ := runs_bind_ok.1 h
  obtain ⟨rfl, h3⟩ := runs_lift.1 h1
  rw [List.nil_append] at e
  subst e
  exact ⟨a, h3.symm, h2⟩

theorem greatestLoop_facts (hg : SearchSpec.Grows g n) (hT : Truth cs Vs proofs E M roots ts g n) {ver : Nat}
    (hver : ver < 2 ^ 32) : ∀ (fuel lo : Nat) (anc : List Nat) (terminal : Option Nat) (vs : List Visit) (tr : List Ev)
    (r : Nat), At n lo n anc →
    (∀ i ∈ vs, i.Truthful g n ∧ i.x < lo ∧ g i.x ≤ ver ∧ (terminal = none → g i.x ≠ ver)) →
    (∀ t, terminal = some t → t ∈ M.map Prod.fst ∧ Shown cs Vs proofs E roots t ver true) →
    Runs (greatestLoop ver n fuel (rt lo n) terminal) tr (.ok r) → Facts cs Vs proofs E M roots vs tr →
    AgreesWith tr (honest ts g stop) ∧ r ∈ M.map Prod.fst ∧ Shown cs Vs proofs E roots r ver true := by
  intro fuel
  induction fuel with
  | zero => intro lo anc terminal vs tr r _ _ _ h; cases h
  | succ fuel ih =>
    intro lo anc terminal vs tr r hat hvs hterm hrun hF
    have hb := hat.bounds
    unfold greatestLoop at hrun
    obtain ⟨res, tr2, htr, hr_tr2⟩ := runs_search_bind hrun
    subst htr
    clear hrun
    have hrun := hr_tr2
    clear hr_tr2
    cases hF with
    | @search _ _ _ _ _ _ vt vt' w flags f1 f2 f3 f4 f5 f6 =>
    have hfl : ∀ v b, (v, b) ∈ w.zip flags → b = decide ((v : Int) ≤ g (rt lo n)) :=
      fun v b h => hT.shown _ v b f2 (f5 v b h)
    obtain ⟨hres, heq⟩ := ladder_truth hg hver (hT.size _ f2) f3 f1 (fun i hi => (hvs i hi).1)
      (fun i hi => ⟨fun _ => (hvs i hi).2.2.1, fun h => by have := (hvs i hi).2.1; omega⟩) hfl
    have hnew : Visit.Truthful g n ⟨rt lo n, ver, true, w, flags, res⟩ := ⟨hT.size _ f2, hfl⟩
    rcases runs_ite.1 hrun with ⟨_, h⟩ | ⟨hne1, hrun⟩
    · exact absurd h runs_fail_ok
    simp only at hrun
    have hle : g (rt lo n) ≤ ver := by
      by_contra hc
      apply hne1
      rw [hres]; unfold cmp3
      rw [if_neg (by omega), if_pos (by omega)]
    -- the new terminal entry
    have hterm' : ∀ t, (if res = 0 ∧ terminal = none then some (rt lo n) else terminal) = some t →
        t ∈ M.map Prod.fst ∧ Shown cs Vs proofs E roots t ver true := by
      intro t ht
      split at ht
      · next hc =>
        cases ht
        refine ⟨f2, ?_⟩
        rcases heq hc.1 with h | ⟨i, hi, -, h⟩
        · exact f5 _ _ h
        · exact absurd h ((hvs i hi).2.2.2 hc.2)
      · exact hterm t ht
    rcases runs_ite.1 hrun with ⟨hx, hrun⟩ | ⟨hx, hrun⟩
    · obtain ⟨y, h1, hrun⟩ := runs_lift_bind hrun
      have hr : rt lo n + 1 < n := by omega
      rw [right_rt hat hr] at h1
      cases h1
      obtain ⟨a1, a2⟩ := ih _ _ _ (vs ++ [⟨rt lo n, ver, true, w, flags, res⟩]) _ r (.right hat hr) (by
        intro i hi
        rcases List.mem_append.1 hi with hi | hi
        · obtain ⟨i1, i2, i3, i4⟩ := hvs i hi
          refine ⟨i1, by omega, i3, ?_⟩
          intro ht
          apply i4
          split at ht
          · cases ht
          · exact ht
        · rw [List.mem_singleton.1 hi]
          refine ⟨hnew, by simp, hle, ?_⟩
          intro ht he
          simp only at he
          have h0 : res = 0 := by
            rw [hres]; unfold cmp3
            rw [if_neg (by omega), if_neg (by omega)]
          rw [h0] at ht
          cases terminal <;> simp at ht) hterm' hrun f6
      exact ⟨AgreesWith.cons (congrArg Except.ok hres) a1, a2⟩
    · rcases runs_ite.1 hrun with ⟨_, h⟩ | ⟨_, hrun⟩
      · exact absurd h runs_fail_ok
      rcases runs_ite.1 hrun with ⟨_, h⟩ | ⟨h0, hrun⟩
      · exact absurd h runs_fail_ok
      obtain ⟨rfl, h⟩ := runs_pure.1 hrun
      have h0 : res = 0 := by simpa using h0
      refine ⟨AgreesWith.cons (congrArg Except.ok hres) .nil, ?_⟩
      obtain ⟨t, ht⟩ : ∃ t, (if res = 0 ∧ terminal = none then some (rt lo n) else terminal) = some t := by
        cases terminal with
        | none => exact ⟨_, if_pos ⟨h0, rfl⟩⟩
        | some t => exact ⟨t, if_neg (by simp)⟩
      rw [ht] at h
      cases h
      exact hterm' _ ht

theorem fixedFinish_facts (hT : Truth cs Vs proofs E M roots ts g n) {ver : Nat} {terminal : Option Nat} {expired : Bool}
    {dist : List Nat} {vs : List Visit} {tr : List Ev} {r : Nat}
    (h : Runs (fixedFinish ver terminal expired dist) tr (.ok r)) (hF : Facts cs Vs proofs E M roots vs tr) :
    AgreesWith tr (honest ts g stop) ∧ r ∈ M.map Prod.fst ∧ Shown cs Vs proofs E roots r ver true := by
  unfold fixedFinish at h
  cases terminal with
  | none => exact absurd h runs_fail_ok
  | some t =>
    simp only at h
    rcases runs_ite.1 h with ⟨_, h⟩ | ⟨_, h⟩
    · exact absurd h runs_fail_ok
    obtain ⟨t2, htr, hr_t2⟩ := runs_incl_bind h
    subst htr
    clear h
    have h := hr_t2
    clear hr_t2
    obtain ⟨rfl, h⟩ := runs_pure.1 h
    cases h
    cases hF with
    | incl f1 f2 f3 =>
      have hk := f1 (by simp)
      have hs := f2 ver (by simp)
      refine ⟨AgreesWith.cons ?_ .nil, hk, hs⟩
      have h := hT.shown _ _ _ hk hs
      have hle : (ver : Int) ≤ g r := by simpa using h.symm
      simp [honest, hle]

theorem fixedLoop_facts {cfg : Config} (hg : SearchSpec.Grows g n) (hT : Truth cs Vs proofs E M roots ts g n) {ver rightmost : Nat}
    (hver : ver < 2 ^ 32) : ∀ (fuel lo hi : Nat) (anc : List Nat) (s : FixedState) (vs : List Visit) (tr : List Ev)
    (r : Nat), At n lo hi anc → s.x = rt lo hi →
    (∀ i ∈ vs, i.Truthful g n ∧ g i.x ≠ ver ∧ ((i.x < lo ∧ g i.x < ver) ∨ (hi ≤ i.x ∧ (ver : Int) < g i.x))) →
    Runs (fixedLoop cfg ver n rightmost fuel s) tr (.ok r) → Facts cs Vs proofs E M roots vs tr →
    AgreesWith tr (honest ts g stop) ∧ r ∈ M.map Prod.fst ∧ Shown cs Vs proofs E roots r ver true := by
  intro fuel
  induction fuel with
  | zero => intro lo hi anc s vs tr r _ _ _ h; cases h
  | succ fuel ih =>
    intro lo hi anc s vs tr r hat hsx hvs hrun hF
    have hb := hat.bounds
    unfold fixedLoop at hrun
    obtain ⟨t, tr2, htr, hr_tr2⟩ := runs_ts_bind hrun
    subst htr
    clear hrun
    have hrun := hr_tr2
    clear hr_tr2
    cases hF with
    | ts f1 hF =>
    have hts := hT.times _ _ f1
    have cons1 : AgreesWith tr2 (honest ts g stop) → AgreesWith (⟨.ts s.x, .ok t⟩ :: tr2) (honest ts g stop) :=
      AgreesWith.cons (by rw [hts]; rfl)
    rcases runs_ite.1 hrun with ⟨hexp, hrun⟩ | ⟨hexp, hrun⟩
    · rcases runs_ite.1 hrun with ⟨hnr, hrun⟩ | ⟨hnr, hrun⟩
      · obtain ⟨a1, a2⟩ := fixedFinish_facts (stop := stop) hT hrun hF
        exact ⟨cons1 a1, a2⟩
      · have hr : rt lo hi + 1 < hi := by
          by_contra hc
          exact hnr (by rw [hsx]; exact (noRightChild_iff hat).2 hc)
        obtain ⟨y, h1, hrun⟩ := runs_lift_bind hrun
        rw [hsx, right_rt hat hr] at h1
        cases h1
        obtain ⟨a1, a2⟩ := ih _ _ _ _ vs _ r (.right hat hr) rfl (by
          intro i hi'
          obtain ⟨i1, i2, i3⟩ := hvs i hi'
          refine ⟨i1, i2, ?_⟩
          omega) hrun hF
        exact ⟨cons1 a1, a2⟩
    · simp only at hrun
      obtain ⟨res, t2, htr, hr_t2⟩ := runs_search_bind hrun
      subst htr
      clear hrun
      have hrun := hr_t2
      clear hr_t2
      cases hF with
      | @search _ _ _ _ _ _ vt vt' w flags f1 f2 f3 f4 f5 f6 =>
      rw [hsx] at f2 f3 f5 f6
      have hfl : ∀ v b, (v, b) ∈ w.zip flags → b = decide ((v : Int) ≤ g (rt lo hi)) :=
        fun v b h => hT.shown _ v b f2 (f5 v b h)
      obtain ⟨hres, heq⟩ := ladder_truth hg hver (hT.size _ f2) f3 f1 (fun i hi => (hvs i hi).1)
        (fun i hi => by have := (hvs i hi).2.2; constructor <;> intro _ <;> omega) hfl
      have hnew : Visit.Truthful g n ⟨rt lo hi, ver, true, w, flags, res⟩ := ⟨hT.size _ f2, hfl⟩
      have cons2 : AgreesWith t2 (honest ts g stop) →
          AgreesWith (⟨.ts s.x, .ok t⟩ :: ⟨.search s.x ver true, .ok res⟩ :: t2) (honest ts g stop) :=
        fun h => cons1 (AgreesWith.cons (by rw [hsx]; exact congrArg Except.ok hres) h)
      rcases runs_ite.1 hrun with ⟨hm1, hrun⟩ | ⟨hm1, hrun⟩
      · have hlt : g (rt lo hi) < ver := by
          exact cmp3_lt (hres.symm.trans hm1)
        rcases runs_ite.1 hrun with ⟨hnr, hrun⟩ | ⟨hnr, hrun⟩
        · obtain ⟨a1, a2⟩ := fixedFinish_facts (stop := stop) hT hrun f6
          exact ⟨cons2 a1, a2⟩
        · have hr : rt lo hi + 1 < hi := by
            by_contra hc
            exact hnr (by rw [hsx]; exact (noRightChild_iff hat).2 hc)
          obtain ⟨y, h1, hrun⟩ := runs_lift_bind hrun
          rw [hsx, right_rt hat hr] at h1
          cases h1
          obtain ⟨a1, a2⟩ := ih _ _ _ _ _ _ r (.right hat hr) rfl (by
            intro i hi'
            rcases List.mem_append.1 hi' with hi' | hi'
            · obtain ⟨i1, i2, i3⟩ := hvs i hi'
              refine ⟨i1, i2, ?_⟩
              omega
            · rw [List.mem_singleton.1 hi']
              refine ⟨hnew, by simp only; omega, Or.inl ⟨by simp, hlt⟩⟩) hrun f6
          exact ⟨cons2 a1, a2⟩
      · rcases runs_ite.1 hrun with ⟨h1', hrun⟩ | ⟨h1', hrun⟩
        · have hgt : (ver : Int) < g (rt lo hi) := by
            exact cmp3_gt (hres.symm.trans h1')
          rcases runs_ite.1 hrun with ⟨hnl, hrun⟩ | ⟨hnl, hrun⟩
          · obtain ⟨a1, a2⟩ := fixedFinish_facts (stop := stop) hT hrun f6
            exact ⟨cons2 a1, a2⟩
          · have hl : lo < rt lo hi := by
              have := mt (noLeftChild_iff hat).2 (by rw [← hsx]; exact hnl)
              omega
            obtain ⟨y, h1, hrun⟩ := runs_lift_bind hrun
            rw [hsx, left_rt hat, if_pos hl] at h1
            cases h1
            obtain ⟨a1, a2⟩ := ih _ _ _ _ _ _ r (.left hat hl) rfl (by
              intro i hi'
              rcases List.mem_append.1 hi' with hi' | hi'
              · obtain ⟨i1, i2, i3⟩ := hvs i hi'
                refine ⟨i1, i2, ?_⟩
                omega
              · rw [List.mem_singleton.1 hi']
                refine ⟨hnew, by simp only; omega, Or.inr ⟨by simp, hgt⟩⟩) hrun f6
            exact ⟨cons2 a1, a2⟩
        · have h0 : res = 0 := by
            rcases cmp3_cases (g (rt lo hi)) ver with h | h | h
            · exact absurd (hres.trans h) hm1
            · exact absurd (hres.trans h) h1'
            · exact hres.trans h
          have hsh : Shown cs Vs proofs E roots (rt lo hi) ver true := by
            rcases heq h0 with h | ⟨i, hi', -, h⟩
            · exact f5 _ _ h
            · exact absurd h (hvs i hi').2.1
          have hend : Runs (pure s.x : Prog Nat) t2 (.ok r) := by
            rcases runs_ite.1 hrun with ⟨_, h⟩ | ⟨_, h⟩
            · exact h
            · rcases runs_ite.1 h with ⟨_, h⟩ | ⟨_, h⟩
              · exact h
              · exact absurd h runs_fail_ok
          obtain ⟨rfl, h⟩ := runs_pure.1 hend
          cases h
          rw [hsx]
          rw [hsx] at cons2
          exact ⟨cons2 .nil, f2, hsh⟩

theorem fixedVersionSearch_facts {cfg : Config} (h0 : 0 < n) (hg : SearchSpec.Grows g n)
    (hT : Truth cs Vs proofs E M roots ts g n) {ver : Nat}
    (hver : ver < 2 ^ 32) {tr : List Ev} {r : Nat} (h : Runs (fixedVersionSearch cfg ver n) tr (.ok r))
    (hF : Facts cs Vs proofs E M roots [] tr) :
    AgreesWith tr (honest ts g stop) ∧ r ∈ M.map Prod.fst ∧ Shown cs Vs proofs E roots r ver true := by
  unfold fixedVersionSearch at h
  rw [if_neg (by omega)] at h
  obtain ⟨t, t2, htr, hr_t2⟩ := runs_ts_bind h
  subst htr
  clear h
  have h := hr_t2
  clear hr_t2
  cases hF with
  | ts f1 hF =>
    have hts := hT.times _ _ f1
    obtain ⟨a1, a2⟩ := fixedLoop_facts (stop := stop) hg hT hver _ _ _ _ _ [] t2 r (.root h0) (root_eq h0) (by simp) h hF
    exact ⟨AgreesWith.cons (by rw [hts]; rfl) a1, a2⟩

end

/-! ### which requests are made, and that errors end a search -/

/-- the program makes only requests that read -/
def OnlyReads {α : Type} : Prog α → Prop
  | .ret _ => True
  | .op q k => q.reads = true ∧ ∀ a, OnlyReads (k a)

theorem OnlyReads.bind {α β : Type} {p : Prog α} {f : α → Prog β} (h : OnlyReads p) (hf : ∀ a, OnlyReads (f a)) :
    OnlyReads (p >>= f) := by
  change OnlyReads (p.bind f)
  induction p with
  | ret r =>
    cases r with
    | ok a => exact hf a
    | error e => trivial
  | op q k ih => exact ⟨h.1, fun a => ih a (h.2 a)⟩

theorem OnlyReads.call {q : Req} (h : q.reads = true) : OnlyReads (Prog.call q) := ⟨h, fun _ => trivial⟩

theorem OnlyReads.ite {α : Type} {c : Prop} [Decidable c] {p q : Prog α} (hp : OnlyReads p) (hq : OnlyReads q) :
    OnlyReads (if c then p else q) := by split <;> assumption

theorem OnlyReads.ret' {α : Type} (r : G α) : OnlyReads (Prog.ret r) := trivial

theorem OnlyReads.attempt {α : Type} {p : Prog α} (h : OnlyReads p) : OnlyReads (Prog.attempt p) := by
  induction p with
  | ret r => match r with
    | .ok a => exact .ret' _
    | .error (.err m) => exact .ret' _
    | .error (.panic m) => exact .ret' _
    | .error .diverge => exact .ret' _
  | op q k ih => exact ⟨h.1, fun a => ih a (h.2 a)⟩

theorem OnlyReads.runs {α : Type} {p : Prog α} (h : OnlyReads p) {tr : List Ev} {r : G α} (hr : Runs p tr r) :
    ∀ e ∈ tr, e.q.reads = true := by
  induction hr with
  | ret => simp
  | op a _ ih =>
    intro e he
    rcases List.mem_cons.1 he with rfl | he
    · exact h.1
    · exact ih (h.2 _) e he

theorem Asks.runs {α : Type} {P : Nat → Prop} {p : Prog α} (h : Asks P p) {tr : List Ev} {r : G α} (hr : Runs p tr r) :
    ∀ e ∈ tr, ∃ x, e.q = .ts x ∧ P x := by
  induction hr with
  | ret => simp
  | op a _ ih =>
    intro e he
    rcases List.mem_cons.1 he with rfl | he
    · exact h.1
    · exact ih (h.2 _) e he

theorem rightmostLoop_noCatch {cfg : Config} {n rm : Nat} : ∀ (fuel x : Nat), NoCatch (rightmostLoop cfg n rm fuel x) := by
  intro fuel
  induction fuel with
  | zero => intro x; exact .ret _
  | succ fuel ih =>
    intro x
    unfold rightmostLoop
    exact .ite (.pure' _) (.bind (.call _) (fun t => .ite (.pure' _) (.bind (.lift _) (fun r => ih r))))

theorem rightmostDistinguished_noCatch {cfg : Config} {n : Nat} : NoCatch (rightmostDistinguished cfg n) := by
  unfold rightmostDistinguished
  exact .ite (.pure' _) (.bind (.call _) (fun t => .ite (.pure' _) (rightmostLoop_noCatch _ _)))

theorem greatestLoop_noCatch {ver n : Nat} : ∀ (fuel x : Nat) (t : Option Nat), NoCatch (greatestLoop ver n fuel x t) := by
  intro fuel
  induction fuel with
  | zero => intro x t; exact .ret _
  | succ fuel ih =>
    intro x t
    unfold greatestLoop
    exact .bind (.call _) (fun res => .ite (.fail _) (.ite (.bind (.lift _) (fun r => ih r _))
      (.ite (.fail _) (.ite (.fail _) (.pure' _)))))

theorem fixedFinish_noCatch {ver : Nat} {t : Option Nat} {e : Bool} {d : List Nat} : NoCatch (fixedFinish ver t e d) := by
  unfold fixedFinish
  cases t with
  | none => exact .fail _
  | some t => exact .ite (.fail _) (.bind (.call _) (fun _ => .pure' _))

theorem fixedLoop_noCatch {cfg : Config} {ver n rm : Nat} : ∀ (fuel : Nat) (s : FixedState),
    NoCatch (fixedLoop cfg ver n rm fuel s) := by
  intro fuel
  induction fuel with
  | zero => intro s; exact .ret _
  | succ fuel ih =>
    intro s
    unfold fixedLoop
    exact .bind (.call _) (fun t => .ite (.ite fixedFinish_noCatch (.bind (.lift _) (fun r => ih _)))
      (.bind (.call _) (fun res => .ite (.ite fixedFinish_noCatch (.bind (.lift _) (fun r => ih _)))
        (.ite (.ite fixedFinish_noCatch (.bind (.lift _) (fun r => ih _)))
          (.ite (.pure' _) (.ite (.pure' _) (.fail _)))))))

theorem fixedVersionSearch_noCatch {cfg : Config} {ver n : Nat} : NoCatch (fixedVersionSearch cfg ver n) := by
  unfold fixedVersionSearch
  exact .ite (.fail _) (.bind (.call _) (fun t => fixedLoop_noCatch _ _))

theorem rightmostDistinguished_reads {cfg : Config} {n : Nat} : OnlyReads (rightmostDistinguished cfg n) := by
  have loop : ∀ (rm fuel x : Nat), OnlyReads (rightmostLoop cfg n rm fuel x) := by
    intro rm fuel
    induction fuel with
    | zero => intro x; exact .ret' _
    | succ fuel ih =>
      intro x
      unfold rightmostLoop
      exact .ite (.ret' _) (.bind (.call rfl) (fun t => .ite (.ret' _) (.bind (.ret' _) (fun r => ih r))))
  unfold rightmostDistinguished
  exact .ite (.ret' _) (.bind (.call rfl) (fun t => .ite (.ret' _) (loop _ _ _)))

theorem greatestVersionSearch_reads {cfg : Config} {ver n : Nat} : OnlyReads (greatestVersionSearch cfg ver n) := by
  have loop : ∀ (fuel x : Nat) (t : Option Nat), OnlyReads (greatestLoop ver n fuel x t) := by
    intro fuel
    induction fuel with
    | zero => intro x t; exact .ret' _
    | succ fuel ih =>
      intro x t
      unfold greatestLoop
      exact .bind (.call rfl) (fun res => .ite (.ret' _) (.ite (.bind (.ret' _) (fun r => ih r _))
        (.ite (.ret' _) (.ite (.ret' _) (.ret' _)))))
  unfold greatestVersionSearch
  refine .ite (.ret' _) (.bind (.attempt rightmostDistinguished_reads) (fun d => ?_))
  cases d with
  | error e => exact .ret' _
  | ok d => exact loop _ _ _

theorem fixedVersionSearch_reads {cfg : Config} {ver n : Nat} : OnlyReads (fixedVersionSearch cfg ver n) := by
  have fin : ∀ (t : Option Nat) (e : Bool) (d : List Nat), OnlyReads (fixedFinish ver t e d) := by
    intro t e d
    unfold fixedFinish
    cases t with
    | none => exact .ret' _
    | some t => exact .ite (.ret' _) (.bind (.call rfl) (fun _ => .ret' _))
  have loop : ∀ (rm fuel : Nat) (s : FixedState), OnlyReads (fixedLoop cfg ver n rm fuel s) := by
    intro rm fuel
    induction fuel with
    | zero => intro s; exact .ret' _
    | succ fuel ih =>
      intro s
      unfold fixedLoop
      exact .bind (.call rfl) (fun t => .ite (.ite (fin _ _ _) (.bind (.ret' _) (fun r => ih _)))
        (.bind (.call rfl) (fun res => .ite (.ite (fin _ _ _) (.bind (.ret' _) (fun r => ih _)))
          (.ite (.ite (fin _ _ _) (.bind (.ret' _) (fun r => ih _)))
            (.ite (.ret' _) (.ite (.ret' _) (.ret' _)))))))
  unfold fixedVersionSearch
  exact .ite (.ret' _) (.bind (.call rfl) (fun t => loop _ _ _))

/-- a run that fails has seen no error, or ends with the first one -/
theorem NoCatch.runs_error {α : Type} {p : Prog α} (h : NoCatch p) {tr : List Ev} {r : G α} (hr : Runs p tr r) :
    (∀ e ∈ tr, ∃ a, e.a = .ok a) ∨ ∃ tr' e f, tr = tr' ++ [e] ∧ e.a = .error f := by
  induction h generalizing tr with
  | ret r => cases hr; simp
  | op h1 _ ih =>
    cases hr with
    | @op q k a tr _ h =>
      cases a with
      | error e =>
        rw [h1] at h
        cases h
        exact Or.inr ⟨[], _, e, rfl, rfl⟩
      | ok a =>
        rcases ih a h with h2 | ⟨tr', e, f, rfl, h2⟩
        · left
          intro e he
          rcases List.mem_cons.1 he with rfl | he
          · exact ⟨a, rfl⟩
          · exact h2 e he
        · exact Or.inr ⟨_ :: tr', e, f, rfl, h2⟩

/-- a timestamp that could not be read is not in the table -/
theorem getTimestamp_error {σ : Type} (H : Handle σ) (x : Nat) (p : Provider σ) (f : Fault)
    (h : (p.getTimestamp H x).1 = .error f) : x ∉ (p.getTimestamp H x).2.timestamps.map Prod.fst := by
  unfold Provider.getTimestamp at h ⊢
  split at h
  · cases h
  · next hn =>
    revert h
    generalize H.getTs x p.state = g
    obtain ⟨g1, s⟩ := g
    cases g1 with
    | error e => intro _; exact lookup_none hn
    | ok t =>
      simp only
      intro h
      split at h
      · exact lookup_none hn
      · cases h

/-- If the last request of a run is for a timestamp and fails, then the timestamp is not known in the end. -/
theorem trace_ts_error {α σ : Type} (H : Handle σ) (prog : Prog α) (p : Provider σ) (tr : List Ev) (x : Nat)
    (r : G (Req.ts x).Resp) (f : Fault) (h : p.trace H prog = tr ++ [⟨.ts x, r⟩]) (hf : r = .error f) :
    x ∉ (p.run H prog).2.timestamps.map Prod.fst := by
  induction prog generalizing p tr with
  | ret r => simp [Provider.trace] at h
  | op q k ih =>
    change _ :: Provider.trace H (k (p.answer H q).1) (p.answer H q).2 = _ at h
    cases tr with
    | nil =>
      rw [List.nil_append] at h
      obtain ⟨h1, h2⟩ := List.cons.inj h
      have hk : ∃ r, k (p.answer H q).1 = .ret r := by
        revert h2
        generalize k (p.answer H q).1 = pr
        intro h2
        cases pr with
        | ret r => exact ⟨r, rfl⟩
        | op q k => simp [Provider.trace] at h2
      obtain ⟨rr, hk⟩ := hk
      have hrun : (p.run H (.op q k)).2 = (p.answer H q).2 := by
        change (Provider.run H (k (p.answer H q).1) (p.answer H q).2).2 = _
        rw [hk]; rfl
      rw [hrun]
      cases h1
      exact getTimestamp_error H x p f hf
    | cons e tr =>
      rw [List.cons_append] at h
      exact ih _ _ tr (List.cons.inj h).2

theorem ev_ts {e : Ev} {x : Nat} (hx : e.q = .ts x) (h : ∃ a, e.a = .ok a) : ∃ a : Nat, e = ⟨.ts x, Except.ok a⟩ := by
  obtain ⟨q, b⟩ := e
  obtain ⟨a, ha⟩ := h
  simp only at hx
  subst hx
  exact ⟨a, congrArg (Ev.mk (.ts x)) ha⟩

/-- A greatest-version search that succeeds, after which the timestamps of the whole frontier are known, has seen no
error: the one that it ignores would have left an unknown timestamp. -/
theorem greatest_allOk {σ : Type} (H : Handle σ) {cfg : Config} {ver n r : Nat} (h0 : 0 < n) {p : Provider σ}
    (hm : TsMap p.timestamps) (hrun : (p.run H (greatestVersionSearch cfg ver n)).1 = .ok r)
    (hfr : ∀ y, Spine 0 n y → y ∈ (p.run H (greatestVersionSearch cfg ver n)).2.timestamps.map Prod.fst)
    (hl : n - 1 ∈ (p.run H (greatestVersionSearch cfg ver n)).2.timestamps.map Prod.fst) :
    (∀ e ∈ p.trace H (greatestVersionSearch cfg ver n), ∃ a, e.a = .ok a) ∧
    ∃ dle tr1 tr2, p.trace H (greatestVersionSearch cfg ver n) = tr1 ++ tr2 ∧
      Runs (rightmostDistinguished cfg n) tr1 (.ok dle) ∧
      Runs (greatestLoop ver n n (dle.getD (root n)) none) tr2 (.ok r) := by
  obtain ⟨-, hm', hR, hts, -⟩ := run_spec H (greatestVersionSearch cfg ver n) p hm
  rw [hrun] at hR
  have hterr := trace_ts_error H (greatestVersionSearch cfg ver n) p
  revert hterr hts hR hfr hl hm'
  generalize p.trace H (greatestVersionSearch cfg ver n) = tr
  generalize (p.run H (greatestVersionSearch cfg ver n)).2.timestamps = M
  intro hfr hl hm' hR hts hterr
  unfold greatestVersionSearch at hR
  rw [if_neg (by omega)] at hR
  obtain ⟨dle, tr1, tr2, htr, h1, h2⟩ := runs_bind_ok.1 hR
  have hasks : Asks (fun x => x ∈ M.map Prod.fst) (rightmostDistinguished cfg n) := rightmostDistinguished_asks h0 hfr hl
  obtain ⟨r', h3, h4⟩ := runs_attempt h1
  have hq := hasks.runs h3
  -- if every answer is fine, the search for the rightmost distinguished entry succeeds
  have key : (∀ e ∈ tr1, ∃ a, e.a = .ok a) → ∃ d, r' = .ok d := by
    intro hall
    obtain ⟨ts, hts'⟩ : ∃ ts : Nat → Nat, ∀ x, ts x = (M.lookup x).getD 0 := ⟨_, fun _ => rfl⟩
    obtain ⟨d, hd, -⟩ := rightmostDistinguished_eval (cfg := cfg) (n := n)
      (honest_ts (ts := ts) (g := fun _ => 0) (stop := fun _ _ => false))
    refine ⟨d, ?_⟩
    rw [← h3.eval_eq (A := honest ts (fun _ => 0) (fun _ _ => false)) ?_]
    · exact hd
    · intro e he
      obtain ⟨x, hx, -⟩ := hq e he
      obtain ⟨a, rfl⟩ := ev_ts hx (hall e he)
      have := lookup_of_mem hm'.keys (hts x a (by rw [htr]; exact List.mem_append_left _ he))
      simp [honest, hts', this]
  rcases NoCatch.runs_error rightmostDistinguished_noCatch h3 with hall | ⟨tr', e, f, he, hef⟩
  · obtain ⟨d, rfl⟩ := key hall
    rcases h4 with ⟨m, hc, -⟩ | ⟨a, ha, hd⟩ | ⟨f, hc, -⟩
    · cases hc
    · cases ha
      cases hd
      simp only at h2
      refine ⟨?_, d, tr1, tr2, htr, h3, h2⟩
      intro e he
      rw [htr] at he
      rcases List.mem_append.1 he with he | he
      · exact hall e he
      · exact (greatestLoop_noCatch _ _ _).runs h2 e he
    · cases hc
  · exfalso
    -- the search ended with an error; it was ignored, and nothing was asked afterwards
    have hr' : ∃ f, r' = .error f := by
      rcases hc : r' with f | d
      · exact ⟨f, rfl⟩
      · exfalso
        rw [hc] at h3
        obtain ⟨a, ha⟩ := rightmostDistinguished_noCatch.runs h3 e (by rw [he]; simp)
        rw [hef] at ha; cases ha
    obtain ⟨f', hr'⟩ := hr'
    have h5 : dle = .error f' := by
      rcases h4 with ⟨m, hc, hd⟩ | ⟨a, ha, -⟩ | ⟨f, hc, -, hd⟩
      · rw [hr'] at hd; exact Except.ok.inj hd
      · rw [hr'] at ha; cases ha
      · cases hd
    rw [h5] at h2
    simp only at h2
    obtain ⟨h6, -⟩ := runs_pure.1 h2
    rw [h6, List.append_nil, he] at htr
    obtain ⟨x, hx, hxm⟩ := hq e (by rw [he]; simp)
    obtain ⟨q, b⟩ := e
    simp only at hx
    subst hx
    exact hterr tr' x b f htr hef hxm

/-- reading timestamps does not change the visits -/
theorem Facts.skip_ts {cs : Log.Suite} {Vs : Versions} {proofs : List Prefix.Proof}
    {E : List (List Prefix.Entry × Prefix.Proof)} {M : List (Nat × Nat)} {roots : Nat → Option Bytes} {vs : List Visit}
    {tr1 tr2 : List Ev} (h : Facts cs Vs proofs E M roots vs (tr1 ++ tr2)) (hq : ∀ e ∈ tr1, ∃ x, e.q = .ts x) :
    Facts cs Vs proofs E M roots vs tr2 ∧ ∀ e ∈ tr1, ∃ x a, e = ⟨.ts x, .ok a⟩ ∧ (x, a) ∈ M := by
  induction tr1 with
  | nil => exact ⟨h, by simp⟩
  | cons e tr1 ih =>
    obtain ⟨x, hx⟩ := hq e (by simp)
    obtain ⟨q, b⟩ := e
    simp only at hx
    subst hx
    rw [List.cons_append] at h
    cases h with
    | ts f1 f2 =>
      obtain ⟨i1, i2⟩ := ih f2 (fun e he => hq e (by simp [he]))
      refine ⟨i1, ?_⟩
      intro e he
      rcases List.mem_cons.1 he with rfl | he
      · exact ⟨_, _, rfl, f1⟩
      · exact i2 e he

theorem greatestVersionSearch_facts {cs : Log.Suite} {Vs : Versions} {proofs : List Prefix.Proof}
    {E : List (List Prefix.Entry × Prefix.Proof)} {M : List (Nat × Nat)} {roots : Nat → Option Bytes} {ts : Nat → Nat}
    {g : Nat → Int} {stop : Nat → Int → Bool} {n : Nat} {cfg : Config} (h0 : 0 < n) (ht : GoodTimes ts n)
    (hg : SearchSpec.Grows g n) (hT : Truth cs Vs proofs E M roots ts g n) {ver r : Nat} (hver : ver < 2 ^ 32)
    {tr : List Ev} {dle : Option Nat} {tr1 tr2 : List Ev}
    (htr : tr = tr1 ++ tr2) (h1 : Runs (rightmostDistinguished cfg n) tr1 (.ok dle))
    (h2 : Runs (greatestLoop ver n n (dle.getD (root n)) none) tr2 (.ok r)) (hF : Facts cs Vs proofs E M roots [] tr) :
    AgreesWith tr (honest ts g stop) ∧ r ∈ M.map Prod.fst ∧ Shown cs Vs proofs E roots r ver true := by
  have hasks : Asks (fun _ => True) (rightmostDistinguished cfg n) :=
    rightmostDistinguished_asks h0 (fun _ _ => trivial) trivial
  rw [htr] at hF ⊢
  obtain ⟨f2, f1⟩ := hF.skip_ts (fun e he => by obtain ⟨x, hx, -⟩ := hasks.runs h1 e he; exact ⟨x, hx⟩)
  have ha1 : AgreesWith tr1 (honest ts g stop) := by
    intro e he
    obtain ⟨x, a, rfl, hm⟩ := f1 e he
    rw [hT.times x a hm]
    rfl
  -- the starting point is on the frontier
  have hev := h1.eval_eq ha1
  obtain ⟨d, hd, hgr⟩ := rightmostDistinguished_eval (cfg := cfg) (honest_ts (ts := ts) (g := g) (stop := stop) (n := n))
  rw [hev] at hd
  cases hd
  obtain ⟨lo, anc, hat, hrt⟩ : ∃ lo anc, At n lo n anc ∧ rt lo n = dle.getD (root n) := by
    cases dle with
    | none => exact ⟨0, [], .root h0, (root_eq h0).symm⟩
    | some x =>
      obtain ⟨lo, anc, h, e⟩ := greatest_onFrontier ht (W := cfg.rmw) (x := x)
        ⟨(distinguished_code_iff ht).1 hgr.1, fun y hy => hgr.2 y ((distinguished_code_iff ht).2 hy)⟩
      exact ⟨lo, anc, h, e⟩
  rw [← hrt] at h2
  obtain ⟨a1, a2⟩ := greatestLoop_facts (stop := stop) hg hT hver _ _ _ _ [] tr2 r hat (by simp) (by simp) h2 f2
  refine ⟨?_, a2⟩
  intro e he
  rcases List.mem_append.1 he with he | he
  · exact ha1 e he
  · exact a1 e he

end Katie.Alg
