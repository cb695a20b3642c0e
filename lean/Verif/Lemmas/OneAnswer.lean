import Verif.Lemmas.ClientTracker

/-
Two clients that look at the same log see the same things, whatever the log looks like: versions may be missing or
removed, and timestamps may decrease.
-/

namespace Katie.Ladder
open Katie

/-! ### where the ladders of two versions part -/

/-- two ladders part at `v`: what comes before is the same, and not between the two targets -/
def Fork (t t' : Nat) (l l' : List Nat) : Prop :=
  ∃ p v q q', l = p ++ v :: q ∧ l' = p ++ v :: q' ∧ (∀ u ∈ p, u ≤ t ↔ u ≤ t') ∧ t < v ∧ v ≤ t'

theorem Fork.cons {t t' : Nat} {l l' : List Nat} {u : Nat} (h : Fork t t' l l') (hu : u ≤ t ↔ u ≤ t') :
    Fork t t' (u :: l) (u :: l') := by
  obtain ⟨p, v, q, q', rfl, rfl, h1, h2⟩ := h
  refine ⟨u :: p, v, q, q', rfl, rfl, ?_, h2⟩
  intro w hw
  rcases List.mem_cons.1 hw with rfl | hw
  · exact hu
  · exact h1 w hw

theorem Fork.append_left {t t' : Nat} {l l' : List Nat} (h : Fork t t' l l') : ∀ (u : List Nat),
    (∀ w ∈ u, w ≤ t ↔ w ≤ t') → Fork t t' (u ++ l) (u ++ l')
  | [], _ => h
  | w :: u, hu => (h.append_left u (fun x hx => hu x (List.mem_cons_of_mem _ hx))).cons (hu w List.mem_cons_self)

theorem Fork.append_right {t t' : Nat} {l l' : List Nat} (h : Fork t t' l l') (r r' : List Nat) :
    Fork t t' (l ++ r) (l' ++ r') := by
  obtain ⟨p, v, q, q', rfl, rfl, h1, h2⟩ := h
  exact ⟨p, v, q ++ r, q' ++ r', by simp, by simp, h1, h2⟩

/-- the ladders are the same, and do not tell the targets apart -/
def Same (t t' : Nat) (l l' : List Nat) : Prop := l = l' ∧ ∀ u ∈ l, u ≤ t ↔ u ≤ t'

theorem rise_fork {t t' : Nat} (h : t < t') : ∀ (fuel len : Nat) (l l' : List Nat), rise fuel len t = .ok l →
    rise fuel len t' = .ok l' → Same t t' l l' ∨ Fork t t' l l' := by
  intro fuel
  induction fuel with
  | zero => intro len l l' h1; cases h1
  | succ fuel ih =>
    intro len l l' h1 h2
    unfold rise at h1 h2
    dsimp only at h1 h2
    by_cases c1 : pow32 len > t
    · rw [if_pos c1] at h1
      have h1 : [pow32 len] = l := Except.ok.inj h1
      subst h1
      by_cases c2 : pow32 len > t'
      · rw [if_pos c2] at h2
        have h2 : [pow32 len] = l' := Except.ok.inj h2
        subst h2
        refine Or.inl ⟨rfl, ?_⟩
        intro u hu
        obtain rfl := List.mem_singleton.1 hu
        omega
      · rw [if_neg c2] at h2
        obtain ⟨r, -, h2⟩ := G.bind_eq_ok.1 h2
        have h2 : pow32 len :: r = l' := Except.ok.inj h2
        subst h2
        exact Or.inr ⟨[], _, [], r, rfl, rfl, by simp, c1, by omega⟩
    · rw [if_neg c1] at h1
      rw [if_neg (by omega)] at h2
      obtain ⟨r, hr, h1⟩ := G.bind_eq_ok.1 h1
      have h1 : pow32 len :: r = l := Except.ok.inj h1
      subst h1
      obtain ⟨r', hr', h2⟩ := G.bind_eq_ok.1 h2
      have h2 : pow32 len :: r' = l' := Except.ok.inj h2
      subst h2
      have hu : pow32 len ≤ t ↔ pow32 len ≤ t' := by omega
      rcases ih _ _ _ hr hr' with ⟨rfl, h3⟩ | h3
      · refine Or.inl ⟨rfl, ?_⟩
        intro u hu'
        rcases List.mem_cons.1 hu' with rfl | hu'
        · exact hu
        · exact h3 u hu'
      · exact Or.inr (h3.cons hu)

theorem bisect_fork {t t' : Nat} (h : t < t') : ∀ (fuel lo hi : Nat) (l l' : List Nat), bisect fuel t lo hi = .ok l →
    bisect fuel t' lo hi = .ok l' → Same t t' l l' ∨ Fork t t' l l' := by
  intro fuel
  induction fuel with
  | zero => intro lo hi l l' h1; cases h1
  | succ fuel ih =>
    intro lo hi l l' h1 h2
    unfold bisect at h1 h2
    dsimp only at h1 h2
    split at h1
    swap
    · next c =>
      rw [if_neg c] at h2
      have h1 : [] = l := Except.ok.inj h1
      have h2 : [] = l' := Except.ok.inj h2
      subst h1 h2
      exact Or.inl ⟨rfl, by simp⟩
    next c =>
    rw [if_pos c] at h2
    generalize (lo + hi) % 2 ^ 32 / 2 = val at h1 h2
    by_cases c1 : val ≤ t
    · rw [if_pos c1] at h1
      rw [if_pos (by omega)] at h2
      obtain ⟨r, hr, h1⟩ := G.bind_eq_ok.1 h1
      have h1 : val :: r = l := Except.ok.inj h1
      obtain ⟨r', hr', h2⟩ := G.bind_eq_ok.1 h2
      have h2 : val :: r' = l' := Except.ok.inj h2
      subst h1 h2
      have hu : val ≤ t ↔ val ≤ t' := by omega
      rcases ih _ _ _ _ hr hr' with ⟨rfl, h3⟩ | h3
      · refine Or.inl ⟨rfl, ?_⟩
        intro u hu'
        rcases List.mem_cons.1 hu' with rfl | hu'
        · exact hu
        · exact h3 u hu'
      · exact Or.inr (h3.cons hu)
    · rw [if_neg c1] at h1
      obtain ⟨r, hr, h1⟩ := G.bind_eq_ok.1 h1
      have h1 : val :: r = l := Except.ok.inj h1
      by_cases c2 : val ≤ t'
      · rw [if_pos c2] at h2
        obtain ⟨r', hr', h2⟩ := G.bind_eq_ok.1 h2
        have h2 : val :: r' = l' := Except.ok.inj h2
        subst h1 h2
        exact Or.inr ⟨[], val, r, r', rfl, rfl, by simp, by omega, c2⟩
      · rw [if_neg c2] at h2
        obtain ⟨r', hr', h2⟩ := G.bind_eq_ok.1 h2
        have h2 : val :: r' = l' := Except.ok.inj h2
        subst h1 h2
        have hu : val ≤ t ↔ val ≤ t' := by omega
        rcases ih _ _ _ _ hr hr' with ⟨rfl, h3⟩ | h3
        · refine Or.inl ⟨rfl, ?_⟩
          intro u hu'
          rcases List.mem_cons.1 hu' with rfl | hu'
          · exact hu
          · exact h3 u hu'
        · exact Or.inr (h3.cons hu)

theorem base_small {t : Nat} {l : List Nat} (h32 : t < 2 ^ 32) (h : baseBinaryLadder t = .ok l) : t < 2 ^ 31 - 1 := by
  by_contra hc
  unfold baseBinaryLadder at h
  rw [base_diverges (by omega) h32] at h
  cases h

theorem base_bisection {t : Nat} {l : List Nat} (h32 : t < 2 ^ 32) (h : baseBinaryLadder t = .ok l) : Bisection t l := by
  obtain ⟨l', h1, h2, -⟩ := baseBinaryLadder_ok (base_small h32 h)
  rw [h] at h1
  cases h1
  exact h2

/-- the ladders of two versions part -/
theorem base_fork {t t' : Nat} (h : t < t') (h32 : t < 2 ^ 32) {l l' : List Nat} (h1 : baseBinaryLadder t = .ok l)
    (h2 : baseBinaryLadder t' = .ok l') : Fork t t' l l' := by
  have hb := base_bisection h32 h1
  have hm : t + 1 ∈ l := (List.mem_filter.1 (List.mem_of_getLast? hb.highEnd)).1
  have hns : ¬ Same t t' l l' := by
    rintro ⟨-, h3⟩
    have := h3 _ hm
    omega
  unfold baseBinaryLadder baseLadderFuel at h1 h2
  obtain ⟨o, ho, h1⟩ := G.bind_eq_ok.1 h1
  obtain ⟨o', ho', h2⟩ := G.bind_eq_ok.1 h2
  rcases rise_fork h _ _ _ _ ho ho' with ⟨rfl, h3⟩ | h3
  · split at h1
    · next ub lb rest he =>
      rw [he] at h2
      dsimp only at h2
      obtain ⟨r, hr, h1⟩ := G.bind_eq_ok.1 h1
      have h1 : o ++ r = l := Except.ok.inj h1
      obtain ⟨r', hr', h2⟩ := G.bind_eq_ok.1 h2
      have h2 : o ++ r' = l' := Except.ok.inj h2
      subst h1 h2
      rcases bisect_fork h _ _ _ _ _ hr hr' with ⟨rfl, h4⟩ | h4
      · refine absurd ⟨rfl, ?_⟩ hns
        intro u hu
        rcases List.mem_append.1 hu with hu | hu
        · exact h3 u hu
        · exact h4 u hu
      · exact h4.append_left _ h3
    · cases h1
  · have : ∃ r, o ++ r = l := by
      split at h1
      · obtain ⟨r, -, h1⟩ := G.bind_eq_ok.1 h1
        exact ⟨r, Except.ok.inj h1⟩
      · cases h1
    obtain ⟨r, rfl⟩ := this
    have : ∃ r, o' ++ r = l' := by
      split at h2
      · obtain ⟨r, -, h2⟩ := G.bind_eq_ok.1 h2
        exact ⟨r, Except.ok.inj h2⟩
      · cases h2
    obtain ⟨r', rfl⟩ := this
    exact h3.append_right r r'

theorem Bisection.nodup {t : Nat} {l : List Nat} (h : Bisection t l) : l.Nodup := by
  rw [List.nodup_iff_count_le_one]
  intro a
  by_cases ha : a ≤ t
  · have := List.nodup_iff_count_le_one.1 (h.low.imp (fun h => Nat.ne_of_lt h)) a
    rwa [List.count_filter (by simpa using ha)] at this
  · have := List.nodup_iff_count_le_one.1 (h.high.imp (fun h => (Nat.ne_of_lt h).symm)) a
    rwa [List.count_filter (by simpa using ha)] at this

end Katie.Ladder

namespace Katie.Ladder
open Katie

/-! ### one ladder -/

theorem interpretLoop_det {P : Nat → Bool} {t : Nat} : ∀ (l : List Nat) (f f' : List Bool) (r r' : Int),
    f.length ≤ l.length → f'.length ≤ l.length → interpretLoop t l f = .ok r → interpretLoop t l f' = .ok r' →
    (∀ v b, (v, b) ∈ l.zip f → b = P v) → (∀ v b, (v, b) ∈ l.zip f' → b = P v) → f = f' ∧ r = r' := by
  intro l
  induction l with
  | nil =>
    intro f f' r r' hf hf' h h' _ _
    obtain rfl : f = [] := List.length_eq_zero_iff.1 (by simpa using hf)
    obtain rfl : f' = [] := List.length_eq_zero_iff.1 (by simpa using hf')
    rw [h] at h'
    exact ⟨rfl, Except.ok.inj h'⟩
  | cons v l ih =>
    intro f f' r r' hf hf' h h' hp hp'
    cases f with
    | nil => cases h
    | cons b f =>
      cases f' with
      | nil => cases h'
      | cons b' f' =>
        obtain rfl := hp v b (by simp)
        obtain rfl := hp' v b' (by simp)
        have e : ∀ (c : Prop) [Decidable c] (f : List Bool) (a r : Int) (s : String),
            (if f ≠ [] then goErr s else pure a : G Int) = .ok r → f = [] ∧ r = a := by
          intro c _ f a r s h
          split at h
          · cases h
          · next hc => exact ⟨by simpa using hc, (Except.ok.inj h).symm⟩
        unfold interpretLoop at h h'
        split at h
        · next c =>
          rw [if_pos c] at h'
          obtain ⟨rfl, rfl⟩ := e True _ _ _ _ h
          obtain ⟨rfl, rfl⟩ := e True _ _ _ _ h'
          exact ⟨rfl, rfl⟩
        · next c =>
          rw [if_neg c] at h'
          split at h
          · next c2 =>
            rw [if_pos c2] at h'
            obtain ⟨rfl, rfl⟩ := e True _ _ _ _ h
            obtain ⟨rfl, rfl⟩ := e True _ _ _ _ h'
            exact ⟨rfl, rfl⟩
          · next c2 =>
            rw [if_neg c2] at h'
            obtain ⟨h1, h2⟩ := ih f f' r r' (by simpa using hf) (by simpa using hf') h h'
              (fun w b hw => hp w b (by simp [hw])) (fun w b hw => hp' w b (by simp [hw]))
            exact ⟨by rw [h1], h2⟩

theorem interpret_loop {l : List Nat} {t : Nat} {f : List Bool} {r : Int} (h : interpretSearchLadder l t f = .ok r) :
    f.length ≤ l.length ∧ interpretLoop t l f = .ok r := by
  unfold interpretSearchLadder at h
  split at h
  · cases h
  · exact ⟨by omega, h⟩

/-- The answer of a search ladder is determined by what was omitted, and by what is there. -/
theorem receiveLadder_det {P : Nat → Bool} {vt vt1 vt2 : Tracker} {x ver : Nat} {om : Bool} {f1 f2 : List Bool}
    {w1 w2 : List Nat} {r1 r2 : Int} (h1 : receiveLadder vt x ver om f1 = .ok (w1, r1, vt1))
    (h2 : receiveLadder vt x ver om f2 = .ok (w2, r2, vt2)) (p1 : ∀ v b, (v, b) ∈ w1.zip f1 → b = P v)
    (p2 : ∀ v b, (v, b) ∈ w2.zip f2 → b = P v) : r1 = r2 ∧ vt1 = vt2 := by
  obtain ⟨b, hb, l, rfl, hr, hz, ha⟩ := Alg.receiveLadder_parts h1
  obtain ⟨b', hb', l', rfl, hr', hz', ha'⟩ := Alg.receiveLadder_parts h2
  rw [hb] at hb'
  cases hb'
  rw [hz] at p1
  rw [hz'] at p2
  obtain ⟨e1, e2⟩ := interpret_loop hr
  obtain ⟨e3, e4⟩ := interpret_loop hr'
  obtain ⟨rfl, rfl⟩ := interpretLoop_det _ _ _ _ _ e1 e3 e2 e4 p1 p2
  rw [ha] at ha'
  exact ⟨rfl, Except.ok.inj ha'⟩

theorem addResults_ok {vt vt' : Tracker} {x : Nat} {l : List Nat} {f : List Bool} (h : vt.addResults x true l f = .ok vt') :
    vt'.inclusion = vt.inclusion ++ [(x, ((l.zip f).filter (·.2)).map (·.1))] ∧
    vt'.nonInclusion = vt.nonInclusion ++ [(x, ((l.zip f).filter (!·.2)).map (·.1))] := by
  unfold Tracker.addResults at h
  simp only [Bool.not_true, Bool.false_eq_true, if_false] at h
  split at h
  · cases h
  · rw [← Except.ok.inj h]
    exact ⟨rfl, rfl⟩

theorem mem_shown {l : List Nat} {f : List Bool} {v : Nat} :
    v ∈ ((l.zip f).filter (·.2)).map (·.1) ↔ (v, true) ∈ l.zip f := by
  simp only [List.mem_map, List.mem_filter]
  constructor
  · rintro ⟨⟨a, b⟩, ⟨h1, h2⟩, rfl⟩
    have h2 : b = true := h2
    rwa [← h2]
  · intro h
    exact ⟨_, ⟨h, rfl⟩, rfl⟩

theorem mem_hidden {l : List Nat} {f : List Bool} {v : Nat} :
    v ∈ ((l.zip f).filter (!·.2)).map (·.1) ↔ (v, false) ∈ l.zip f := by
  simp only [List.mem_map, List.mem_filter]
  constructor
  · rintro ⟨⟨a, b⟩, ⟨h1, h2⟩, rfl⟩
    have h2 : b = false := by simpa using h2
    rwa [← h2]
  · intro h
    exact ⟨_, ⟨h, rfl⟩, rfl⟩

theorem sorted_end {l pre post : List Nat} {t u : Nat} (hl : (l.filter (fun v => v ≤ t)).Pairwise (· < ·))
    (h : l = pre ++ u :: post) (hu : u ≤ t) : t ∉ pre := by
  intro ht
  subst h
  rw [List.filter_append, List.pairwise_append] at hl
  have := hl.2.2 t (List.mem_filter.2 ⟨ht, by simp⟩) u (List.mem_filter.2 ⟨by simp, by simpa using hu⟩)
  omega

/-- What a search ladder says about its own target. -/
theorem ladder_target {vt vt' : Tracker} {x ver : Nat} {flags : List Bool} {w : List Nat} {res : Int} (hver : ver < 2 ^ 32)
    (h : receiveLadder vt x ver true flags = .ok (w, res, vt')) :
    (res = 0 → ver ∉ (vt.searchMaps x true).1 → ver ∉ (vt.searchMaps x true).2 → (ver, true) ∈ w.zip flags) ∧
    (res = -1 → (ver, true) ∉ w.zip flags) ∧ (res = 1 → (ver, false) ∉ w.zip flags) ∧ (res = 0 ∨ res = 1 ∨ res = -1) := by
  obtain ⟨b, hb, l, hl, hr, hz, -⟩ := Alg.receiveLadder_parts h
  have hbis := base_bisection hver hb
  rw [hz]
  obtain ⟨c0, c1, cm, call⟩ := Props.C20_interpretation l ver flags
  have hlow : (l.filter (fun v => v ≤ ver)).Pairwise (· < ·) := by
    rw [hl, List.filter_filter]
    refine hbis.low.sublist ?_
    rw [show (fun a => decide (a ≤ ver) && !((vt.searchMaps x true).1.contains a || (vt.searchMaps x true).2.contains a)) =
      (fun a => !((vt.searchMaps x true).1.contains a || (vt.searchMaps x true).2.contains a) && decide (a ≤ ver)) by
        funext a; rw [Bool.and_comm], ← List.filter_filter]
    exact List.filter_sublist
  refine ⟨?_, ?_, ?_, call _ hr⟩
  · rintro rfl h1 h2
    have hm : ver ∈ l := by
      rw [hl, List.mem_filter]
      exact ⟨(List.mem_filter.1 (List.mem_of_getLast? hbis.lowEnd)).1, by simp [h1, h2]⟩
    rw [c0.1 hr]
    obtain ⟨i, hi, hiv⟩ := List.mem_iff_getElem.1 hm
    rw [List.mem_iff_getElem]
    exact ⟨i, by simpa using hi, by simp [hiv]⟩
  · rintro rfl hm
    obtain ⟨pre, u, post, e1, e2, e3⟩ := cm.1 hr
    rw [e1, e3, List.zip_append (by simp)] at hm
    rcases List.mem_append.1 hm with hm | hm
    · exact sorted_end hlow e1 e2 (List.of_mem_zip hm).1
    · simp at hm
  · rintro rfl hm
    obtain ⟨pre, u, post, e1, e2, e3⟩ := c1.1 hr
    rw [e1, e3, List.zip_append (by simp)] at hm
    rcases List.mem_append.1 hm with hm | hm
    · rw [List.zip_map_right] at hm
      obtain ⟨⟨a, a'⟩, ha, he⟩ := List.mem_map.1 hm
      have : a = a' := by
        obtain ⟨i, hi, hiv⟩ := List.mem_iff_getElem.1 ha
        simp at hiv
        exact hiv.1.symm.trans hiv.2
      subst this
      simp only [Prod.map, id, Prod.mk.injEq] at he
      obtain ⟨rfl, he⟩ := he
      simp at he
    · simp at hm

/-! ### two ladders for different targets -/

theorem zip_fst_mem {l : List Nat} {f : List Bool} {v : Nat} {b : Bool} (h : (v, b) ∈ l.zip f) : v ∈ l := (List.of_mem_zip h).1

/-- The same log entry, looked at with two ladders that part at `v`, and neither says "greater": then the one for the
greater target says "less", and the two have shown the same versions before `v`. -/
theorem loop_fork {pr : Nat → Bool} {t t' v : Nat} (h1 : t < v) (h2 : v ≤ t') (Q Q' : List Nat) : ∀ (P : List Nat) (f f' : List Bool)
    (r r' : Int), (P ++ v :: Q).Nodup → (P ++ v :: Q').Nodup → (∀ u ∈ P, u ≤ t ↔ u ≤ t') →
    interpretLoop t (P ++ v :: Q) f = .ok r → interpretLoop t' (P ++ v :: Q') f' = .ok r' → r ≠ 1 → r' ≠ 1 →
    (∀ u b, (u, b) ∈ (P ++ v :: Q).zip f → b = pr u) → (∀ u b, (u, b) ∈ (P ++ v :: Q').zip f' → b = pr u) →
    r' = -1 ∧ (∀ u ∈ P, (u, true) ∈ (P ++ v :: Q).zip f ↔ (u, true) ∈ (P ++ v :: Q').zip f') ∧
      (v, true) ∉ (P ++ v :: Q).zip f ∧ (v, true) ∉ (P ++ v :: Q').zip f' := by
  have e : ∀ (f : List Bool) (a r : Int) (s : String),
      (if f ≠ [] then goErr s else pure a : G Int) = .ok r → f = [] ∧ r = a := by
    intro f a r s h
    split at h
    · cases h
    · next hc => exact ⟨by simpa using hc, (Except.ok.inj h).symm⟩
  intro P
  induction P with
  | nil =>
    intro f f' r r' hn hn' _ hi hi' hr hr' hp hp'
    simp only [List.nil_append] at *
    cases f with
    | nil => cases hi
    | cons b f =>
      cases f' with
      | nil => cases hi'
      | cons b' f' =>
        obtain rfl := hp v b (by simp)
        obtain rfl := hp' v b' (by simp)
        unfold interpretLoop at hi hi'
        cases hb : pr v with
        | true =>
          rw [hb, if_pos (by simpa using h1)] at hi
          exact absurd (e _ _ _ _ hi).2 hr
        | false =>
          rw [hb, if_neg (by simp), if_pos (by simpa using h2)] at hi'
          obtain ⟨rfl, rfl⟩ := e _ _ _ _ hi'
          refine ⟨rfl, by simp, ?_, by simp⟩
          intro hm
          rcases List.mem_cons.1 hm with hm | hm
          · simp at hm
          · exact (List.nodup_cons.1 hn).1 (zip_fst_mem hm)
  | cons u P ih =>
    intro f f' r r' hn hn' hu hi hi' hr hr' hp hp'
    simp only [List.cons_append] at *
    cases f with
    | nil => cases hi
    | cons b f =>
      cases f' with
      | nil => cases hi'
      | cons b' f' =>
        obtain rfl := hp u b (by simp)
        obtain rfl := hp' u b' (by simp)
        have hn1 := List.nodup_cons.1 hn
        have hn1' := List.nodup_cons.1 hn'
        have huv : u ≠ v := fun h => hn1.1 (by simp [h])
        have hut := hu u List.mem_cons_self
        unfold interpretLoop at hi hi'
        by_cases c1 : (pr u && decide (u > t)) = true
        · rw [if_pos c1] at hi
          exact absurd (e _ _ _ _ hi).2 hr
        · have c1' : ¬ (pr u && decide (u > t')) = true := by
            simp only [Bool.and_eq_true, decide_eq_true_eq, not_and] at c1 ⊢
            intro h; have := c1 h; omega
          rw [if_neg c1] at hi
          rw [if_neg c1'] at hi'
          by_cases c2 : (!pr u && decide (u ≤ t)) = true
          · have c2' : (!pr u && decide (u ≤ t')) = true := by
              simp only [Bool.and_eq_true, decide_eq_true_eq] at c2 ⊢
              exact ⟨c2.1, hut.1 c2.2⟩
            rw [if_pos c2] at hi
            rw [if_pos c2'] at hi'
            obtain ⟨rfl, rfl⟩ := e _ _ _ _ hi
            obtain ⟨rfl, rfl⟩ := e _ _ _ _ hi'
            refine ⟨rfl, by simp, ?_, ?_⟩
            · simp [huv.symm]
            · simp [huv.symm]
          · have c2' : ¬ (!pr u && decide (u ≤ t')) = true := by
              simp only [Bool.and_eq_true, decide_eq_true_eq, not_and] at c2 ⊢
              intro h h'
              exact c2 h (hut.2 h')
            rw [if_neg c2] at hi
            rw [if_neg c2'] at hi'
            obtain ⟨i1, i2, i3, i4⟩ := ih f f' r r' hn1.2 hn1'.2 (fun w hw => hu w (List.mem_cons_of_mem _ hw)) hi hi' hr hr'
              (fun w b hw => hp w b (by simp [hw])) (fun w b hw => hp' w b (by simp [hw]))
            refine ⟨i1, ?_, ?_, ?_⟩
            · intro w hw
              rw [List.zip_cons_cons, List.zip_cons_cons, List.mem_cons, List.mem_cons]
              rcases List.mem_cons.1 hw with rfl | hw
              · have k1 : (w, true) ∉ (P ++ v :: Q).zip f := fun h => hn1.1 (zip_fst_mem h)
                have k2 : (w, true) ∉ (P ++ v :: Q').zip f' := fun h => hn1'.1 (zip_fst_mem h)
                simp [k1, k2]
              · rw [i2 w hw]
            · simp only [List.zip_cons_cons, List.mem_cons, not_or]
              exact ⟨by simp [huv.symm], i3⟩
            · simp only [List.zip_cons_cons, List.mem_cons, not_or]
              exact ⟨by simp [huv.symm], i4⟩

end Katie.Ladder

namespace Katie.Alg
open Katie Katie.Wire Katie.Ladder Katie.SearchSpec Katie.SearchTree Prog

/-! ### the algorithms -/

/-- what is known about the table of timestamps and the shown versions, for any log: `P x v` tells if version `v` is in
entry `x` -/
structure Told (cs : Log.Suite) (Vs : Versions) (proofs : List Prefix.Proof) (E : List (List Prefix.Entry × Prefix.Proof))
    (M : List (Nat × Nat)) (roots : Nat → Option Bytes) (ts : Nat → Nat) (P : Nat → Nat → Bool) : Prop where
  times : ∀ x a, (x, a) ∈ M → a = ts x
  shown : ∀ x v b, x ∈ M.map Prod.fst → Shown cs Vs proofs E roots x v b → b = P x v

section
variable {cs : Log.Suite} {ts : Nat → Nat} {P : Nat → Nat → Bool}
  {Vs1 Vs2 : Versions} {proofs1 proofs2 : List Prefix.Proof} {E1 E2 : List (List Prefix.Entry × Prefix.Proof)}
  {M1 M2 : List (Nat × Nat)} {roots1 roots2 : Nat → Option Bytes}

/-- the request that asks whether to stop -/
def Req.isStop : Req → Bool
  | .stop _ _ => true
  | _ => false

/-- Two runs of an algorithm against the same log are the same, also if the proofs are different. -/
theorem runs_det (T1 : Told cs Vs1 proofs1 E1 M1 roots1 ts P) (T2 : Told cs Vs2 proofs2 E2 M2 roots2 ts P) {α : Type}
    (prog : Prog α) : ∀ {vt z1 z2 : Tracker} {tr1 tr2 : List Ev} {r1 r2 : G α}, Runs prog tr1 r1 → Runs prog tr2 r2 →
    TFacts cs Vs1 proofs1 E1 M1 roots1 vt tr1 z1 → TFacts cs Vs2 proofs2 E2 M2 roots2 vt tr2 z2 →
    (∀ e ∈ tr1, e.q.isStop = false) → tr1 = tr2 ∧ r1 = r2 := by
  induction prog with
  | ret r =>
    intro vt z1 z2 tr1 tr2 r1 r2 h1 h2 _ _ _
    cases h1
    cases h2
    exact ⟨rfl, rfl⟩
  | op q k ih =>
    intro vt z1 z2 tr1 tr2 r1 r2 h1 h2 F1 F2 hs
    cases h1 with
    | @op _ _ a1 t1 _ h1 =>
    cases h2 with
    | @op _ _ a2 t2 _ h2 =>
    have hs' : ∀ e ∈ t1, e.q.isStop = false := fun e he => hs e (List.mem_cons_of_mem _ he)
    have hq := hs _ List.mem_cons_self
    cases q with
    | ts x =>
      cases F1 with
      | ts m1 F1 =>
      cases F2 with
      | ts m2 F2 =>
      rw [T1.times _ _ m1] at h1 ⊢
      rw [T2.times _ _ m2] at h2 ⊢
      obtain ⟨rfl, rfl⟩ := ih _ h1 h2 F1 F2 hs'
      exact ⟨rfl, rfl⟩
    | search x ver om =>
      cases F1 with
      | search m1 l1 s1 F1 =>
      cases F2 with
      | search m2 l2 s2 F2 =>
      obtain ⟨rfl, rfl⟩ := receiveLadder_det (P := P x) l1 l2 (fun v b h => T1.shown _ _ _ m1 (s1 v b h))
        (fun v b h => T2.shown _ _ _ m2 (s2 v b h))
      obtain ⟨rfl, rfl⟩ := ih _ h1 h2 F1 F2 hs'
      exact ⟨rfl, rfl⟩
    | monitor x ver =>
      cases F1 with
      | monitor _ _ _ F1 =>
      cases F2 with
      | monitor _ _ _ F2 =>
      obtain ⟨rfl, rfl⟩ := ih _ h1 h2 F1 F2 hs'
      exact ⟨rfl, rfl⟩
    | incl x vers =>
      cases F1 with
      | incl _ _ F1 =>
      cases F2 with
      | incl _ _ F2 =>
      obtain ⟨rfl, rfl⟩ := ih _ h1 h2 F1 F2 hs'
      exact ⟨rfl, rfl⟩
    | stop x ver => cases hq
    | addLadder x om g l =>
      cases F1 with
      | add F1 =>
      cases F2 with
      | add F2 =>
      obtain ⟨rfl, rfl⟩ := ih _ h1 h2 F1 F2 hs'
      exact ⟨rfl, rfl⟩

/-! ### the target itself is shown -/

theorem mem_maps {vt : Tracker} {x v : Nat} :
    (v ∈ (vt.searchMaps x true).1 ↔ ∃ e ∈ vt.inclusion, e.1 < x ∧ v ∈ e.2) ∧
    (v ∈ (vt.searchMaps x true).2 ↔ ∃ e ∈ vt.nonInclusion, x < e.1 ∧ v ∈ e.2) := by
  unfold Tracker.searchMaps
  simp only [Bool.not_true, Bool.false_eq_true, if_false, List.mem_flatMap, List.mem_filter, decide_eq_true_eq, gt_iff_lt, and_assoc, and_self]

theorem fixedFinish_shown {ver : Nat} {terminal : Option Nat} {expired : Bool}
    {dist : List Nat} {vt z : Tracker} {tr : List Ev} {r : Nat}
    (h : Runs (fixedFinish ver terminal expired dist) tr (.ok r)) (hF : TFacts cs Vs1 proofs1 E1 M1 roots1 vt tr z) :
    r ∈ M1.map Prod.fst ∧ Shown cs Vs1 proofs1 E1 roots1 r ver true := by
  unfold fixedFinish at h
  cases terminal with
  | none => exact absurd h runs_fail_ok
  | some t =>
    simp only at h
    rcases runs_ite.1 h with ⟨_, h⟩ | ⟨_, h⟩
    · exact absurd h runs_fail_ok
    obtain ⟨t2, htr, hr_t2⟩ := runs_incl_bind h
    subst htr
    obtain ⟨rfl, h2⟩ := runs_pure.1 hr_t2
    cases h2
    cases hF with
    | incl f1 f2 f3 => exact ⟨f1 (by simp), f2 ver (by simp)⟩

theorem fixedLoop_shown {cfg : Config} {n ver rightmost : Nat} (hver : ver < 2 ^ 32) : ∀ (fuel lo hi : Nat) (anc : List Nat)
    (s : FixedState) (vt z : Tracker) (tr : List Ev) (r : Nat), At n lo hi anc → s.x = rt lo hi →
    (∀ e ∈ vt.inclusion, ver ∈ e.2 → hi ≤ e.1) → (∀ e ∈ vt.nonInclusion, ver ∈ e.2 → e.1 < lo) →
    Runs (fixedLoop cfg ver n rightmost fuel s) tr (.ok r) → TFacts cs Vs1 proofs1 E1 M1 roots1 vt tr z →
    r ∈ M1.map Prod.fst ∧ Shown cs Vs1 proofs1 E1 roots1 r ver true := by
  intro fuel
  induction fuel with
  | zero => intro lo hi anc s vt z tr r _ _ _ _ h; cases h
  | succ fuel ih =>
    intro lo hi anc s vt z tr r hat hsx hin hnon hrun hF
    have hb := hat.bounds
    unfold fixedLoop at hrun
    obtain ⟨t, tr2, htr, hnext⟩ := runs_ts_bind hrun
    subst htr
    clear hrun
    have hrun := hnext
    clear hnext
    cases hF with
    | ts f1 hF =>
    rcases runs_ite.1 hrun with ⟨hexp, hrun⟩ | ⟨hexp, hrun⟩
    · rcases runs_ite.1 hrun with ⟨hnr, hrun⟩ | ⟨hnr, hrun⟩
      · exact fixedFinish_shown hrun hF
      · have hr : rt lo hi + 1 < hi := by
          by_contra hc
          exact hnr (by rw [hsx]; exact (noRightChild_iff hat).2 hc)
        obtain ⟨y, h1, hrun⟩ := runs_lift_bind hrun
        rw [hsx, right_rt hat hr] at h1
        cases h1
        exact ih _ _ _ _ vt _ _ r (.right hat hr) rfl hin (fun e he h => by have := hnon e he h; omega) hrun hF
    · simp only at hrun
      obtain ⟨res, t2, htr, hnext⟩ := runs_search_bind hrun
      subst htr
      clear hrun
      have hrun := hnext
      clear hnext
      cases hF with
      | @search _ _ _ _ _ _ _ vt' w flags f2 f3 f4 f5 =>
      rw [hsx] at f2 f3 f4
      obtain ⟨k0, km, k1, kall⟩ := ladder_target hver f3
      obtain ⟨b, hb', l, hl, hr', hz, hadd⟩ := receiveLadder_parts f3
      obtain ⟨a1, a2⟩ := addResults_ok hadd
      rw [hz] at k0 km k1 f4
      rcases runs_ite.1 hrun with ⟨hm1, hrun⟩ | ⟨hm1, hrun⟩
      · rcases runs_ite.1 hrun with ⟨hnr, hrun⟩ | ⟨hnr, hrun⟩
        · exact fixedFinish_shown hrun f5
        · have hr : rt lo hi + 1 < hi := by
            by_contra hc
            exact hnr (by rw [hsx]; exact (noRightChild_iff hat).2 hc)
          obtain ⟨y, h1, hrun⟩ := runs_lift_bind hrun
          rw [hsx, right_rt hat hr] at h1
          cases h1
          refine ih _ _ _ _ vt' _ _ r (.right hat hr) rfl ?_ ?_ hrun f5
          · intro e he h
            rw [a1] at he
            rcases List.mem_append.1 he with he | he
            · exact hin e he h
            · obtain rfl := List.mem_singleton.1 he
              exact absurd (mem_shown.1 h) (km hm1)
          · intro e he h
            rw [a2] at he
            rcases List.mem_append.1 he with he | he
            · have := hnon e he h; omega
            · obtain rfl := List.mem_singleton.1 he
              simp
      · rcases runs_ite.1 hrun with ⟨h1', hrun⟩ | ⟨h1', hrun⟩
        · rcases runs_ite.1 hrun with ⟨hnl, hrun⟩ | ⟨hnl, hrun⟩
          · exact fixedFinish_shown hrun f5
          · have hl' : lo < rt lo hi := by
              have := mt (noLeftChild_iff hat).2 (by rw [← hsx]; exact hnl)
              omega
            obtain ⟨y, h1, hrun⟩ := runs_lift_bind hrun
            rw [hsx, left_rt hat, if_pos hl'] at h1
            cases h1
            refine ih _ _ _ _ vt' _ _ r (.left hat hl') rfl ?_ ?_ hrun f5
            · intro e he h
              rw [a1] at he
              rcases List.mem_append.1 he with he | he
              · have := hin e he h; omega
              · obtain rfl := List.mem_singleton.1 he
                simp
            · intro e he h
              rw [a2] at he
              rcases List.mem_append.1 he with he | he
              · exact hnon e he h
              · obtain rfl := List.mem_singleton.1 he
                exact absurd (mem_hidden.1 h) (k1 h1')
        · have h0 : res = 0 := by
            rcases kall with h | h | h
            · exact h
            · exact absurd h h1'
            · exact absurd h hm1
          have hend : Runs (pure s.x : Prog Nat) t2 (.ok r) := by
            rcases runs_ite.1 hrun with ⟨_, h⟩ | ⟨_, h⟩
            · exact h
            · rcases runs_ite.1 h with ⟨_, h⟩ | ⟨_, h⟩
              · exact h
              · exact absurd h runs_fail_ok
          obtain ⟨rfl, h⟩ := runs_pure.1 hend
          cases h
          rw [hsx]
          refine ⟨f2, f4 _ _ (k0 h0 ?_ ?_)⟩
          · rw [mem_maps.1]
            rintro ⟨e, he, h1, h2⟩
            have := hin e he h2
            omega
          · rw [mem_maps.2]
            rintro ⟨e, he, h1, h2⟩
            have := hnon e he h2
            omega

theorem fixedVersionSearch_shown {cfg : Config} {n ver r : Nat} {tr : List Ev} {z : Tracker} (h0 : 0 < n) (hver : ver < 2 ^ 32)
    (h : Runs (fixedVersionSearch cfg ver n) tr (.ok r)) (hF : TFacts cs Vs1 proofs1 E1 M1 roots1 {} tr z) :
    r ∈ M1.map Prod.fst ∧ Shown cs Vs1 proofs1 E1 roots1 r ver true := by
  unfold fixedVersionSearch at h
  rw [if_neg (by omega)] at h
  obtain ⟨t, t2, htr, hnext⟩ := runs_ts_bind h
  subst htr
  clear h
  have h := hnext
  clear hnext
  cases hF with
  | ts f1 hF =>
  exact fixedLoop_shown hver _ _ _ _ _ {} _ _ r (.root h0) (root_eq h0) (by intro e he; cases he) (by intro e he; cases he) h hF

theorem greatestLoop_shown {n ver : Nat} (hver : ver < 2 ^ 32) : ∀ (fuel lo : Nat) (anc : List Nat) (terminal : Option Nat)
    (vt z : Tracker) (tr : List Ev) (r : Nat), At n lo n anc →
    (terminal = none → ∀ e ∈ vt.inclusion, ver ∉ e.2) → (∀ e ∈ vt.nonInclusion, e.1 < lo) →
    (∀ t, terminal = some t → t ∈ M1.map Prod.fst ∧ Shown cs Vs1 proofs1 E1 roots1 t ver true) →
    Runs (greatestLoop ver n fuel (rt lo n) terminal) tr (.ok r) → TFacts cs Vs1 proofs1 E1 M1 roots1 vt tr z →
    r ∈ M1.map Prod.fst ∧ Shown cs Vs1 proofs1 E1 roots1 r ver true := by
  intro fuel
  induction fuel with
  | zero => intro lo anc terminal vt z tr r _ _ _ _ h; cases h
  | succ fuel ih =>
    intro lo anc terminal vt z tr r hat hin hnon hterm hrun hF
    have hb := hat.bounds
    unfold greatestLoop at hrun
    obtain ⟨res, tr2, htr, hnext⟩ := runs_search_bind hrun
    subst htr
    clear hrun
    have hrun := hnext
    clear hnext
    cases hF with
    | @search _ _ _ _ _ _ _ vt' w flags f2 f3 f4 f5 =>
    obtain ⟨k0, km, -, kall⟩ := ladder_target hver f3
    obtain ⟨b, hb', l, hl, hr', hz, hadd⟩ := receiveLadder_parts f3
    obtain ⟨a1, a2⟩ := addResults_ok hadd
    rw [hz] at k0 km f4
    rcases runs_ite.1 hrun with ⟨_, h⟩ | ⟨hne1, hrun⟩
    · exact absurd h runs_fail_ok
    simp only at hrun
    have hterm' : ∀ t, (if res = 0 ∧ terminal = none then some (rt lo n) else terminal) = some t →
        t ∈ M1.map Prod.fst ∧ Shown cs Vs1 proofs1 E1 roots1 t ver true := by
      intro t ht
      split at ht
      · next hc =>
        cases ht
        refine ⟨f2, f4 _ _ (k0 hc.1 ?_ ?_)⟩
        · rw [mem_maps.1]
          rintro ⟨e, he, -, h2⟩
          exact hin hc.2 e he h2
        · rw [mem_maps.2]
          rintro ⟨e, he, h1, h2⟩
          have := hnon e he
          omega
      · exact hterm t ht
    rcases runs_ite.1 hrun with ⟨hx, hrun⟩ | ⟨hx, hrun⟩
    · obtain ⟨y, h1, hrun⟩ := runs_lift_bind hrun
      have hr : rt lo n + 1 < n := by omega
      rw [right_rt hat hr] at h1
      cases h1
      refine ih _ _ _ vt' _ _ r (.right hat hr) ?_ ?_ hterm' hrun f5
      · intro ht e he h
        have hne0 : res ≠ 0 ∧ terminal = none := by
          cases terminal with
          | some t => simp at ht
          | none =>
            refine ⟨?_, rfl⟩
            rintro rfl
            simp at ht
        have hm1 : res = -1 := by
          rcases kall with h | h | h
          · exact absurd h hne0.1
          · exact absurd h hne1
          · exact h
        rw [a1] at he
        rcases List.mem_append.1 he with he | he
        · exact hin hne0.2 e he h
        · obtain rfl := List.mem_singleton.1 he
          exact km hm1 (mem_shown.1 h)
      · intro e he
        rw [a2] at he
        rcases List.mem_append.1 he with he | he
        · have := hnon e he; omega
        · obtain rfl := List.mem_singleton.1 he
          simp
    · rcases runs_ite.1 hrun with ⟨_, h⟩ | ⟨_, hrun⟩
      · exact absurd h runs_fail_ok
      rcases runs_ite.1 hrun with ⟨_, h⟩ | ⟨h0, hrun⟩
      · exact absurd h runs_fail_ok
      obtain ⟨rfl, h⟩ := runs_pure.1 hrun
      have h0 : res = 0 := by simpa using h0
      obtain ⟨t, ht⟩ : ∃ t, (if res = 0 ∧ terminal = none then some (rt lo n) else terminal) = some t := by
        cases terminal with
        | none => exact ⟨_, if_pos ⟨h0, rfl⟩⟩
        | some t => exact ⟨t, if_neg (by simp)⟩
      rw [ht] at h
      cases h
      exact hterm' _ ht

/-- the walk to the rightmost distinguished entry stays on the frontier, whatever the timestamps are -/
theorem rightmostDistinguished_frontier {cfg : Config} {n : Nat} (h0 : 0 < n) {tr : List Ev} {d : Option Nat}
    (h : Runs (rightmostDistinguished cfg n) tr (.ok d)) : ∃ lo anc, At n lo n anc ∧ rt lo n = d.getD (root n) := by
  have loop : ∀ (fuel rightmost lo : Nat) (anc : List Nat) (tr : List Ev) (d : Option Nat), At n lo n anc →
      Runs (rightmostLoop cfg n rightmost fuel (rt lo n)) tr (.ok d) → ∃ lo anc, At n lo n anc ∧ rt lo n = d.getD (root n) := by
    intro fuel
    induction fuel with
    | zero => intro _ _ _ _ _ _ h; cases h
    | succ fuel ih =>
      intro rightmost lo anc tr d hat h
      have hb := hat.bounds
      unfold rightmostLoop at h
      rcases runs_ite.1 h with ⟨_, h⟩ | ⟨hx, h⟩
      · obtain ⟨-, h⟩ := runs_pure.1 h
        cases h
        exact ⟨lo, anc, hat, rfl⟩
      obtain ⟨t, t2, -, h⟩ := runs_ts_bind h
      rcases runs_ite.1 h with ⟨_, h⟩ | ⟨_, h⟩
      · obtain ⟨-, h⟩ := runs_pure.1 h
        cases h
        exact ⟨lo, anc, hat, rfl⟩
      obtain ⟨y, h1, h⟩ := runs_lift_bind h
      have hr : rt lo n + 1 < n := by omega
      rw [right_rt hat hr] at h1
      cases h1
      exact ih _ _ _ _ _ (.right hat hr) h
  unfold rightmostDistinguished at h
  rw [if_neg (by omega)] at h
  obtain ⟨t, t2, -, h⟩ := runs_ts_bind h
  rcases runs_ite.1 h with ⟨_, h⟩ | ⟨_, h⟩
  · obtain ⟨-, h⟩ := runs_pure.1 h
    cases h
    exact ⟨0, [], .root h0, (root_eq h0).symm⟩
  · rw [root_eq h0] at h
    rw [root_eq h0]
    obtain ⟨lo, anc, h1, h2⟩ := loop _ _ _ _ _ _ (.root h0) h
    exact ⟨lo, anc, h1, by rw [h2, root_eq h0]⟩

/-! ### two claims about the greatest version -/

/-- what the trackers of two searches for different targets have in common -/
structure Alike (p : List Nat) (v lo : Nat) (vt vt' : Tracker) : Prop where
  left : ∀ e ∈ vt.inclusion, e.1 < lo
  left' : ∀ e ∈ vt'.inclusion, e.1 < lo
  non : ∀ e ∈ vt.nonInclusion, e.1 < lo
  non' : ∀ e ∈ vt'.nonInclusion, e.1 < lo
  same : ∀ u ∈ p, (∃ e ∈ vt.inclusion, u ∈ e.2) ↔ (∃ e ∈ vt'.inclusion, u ∈ e.2)
  fork : ∀ e ∈ vt.inclusion, v ∉ e.2
  fork' : ∀ e ∈ vt'.inclusion, v ∉ e.2

theorem maps_left {vt : Tracker} {lo x v : Nat} (h1 : ∀ e ∈ vt.inclusion, e.1 < lo) (h2 : ∀ e ∈ vt.nonInclusion, e.1 < lo)
    (hx : lo ≤ x) : (!((vt.searchMaps x true).1.contains v || (vt.searchMaps x true).2.contains v)) = true ↔
      ¬ ∃ e ∈ vt.inclusion, v ∈ e.2 := by
  have e1 : v ∉ (vt.searchMaps x true).2 := by
    rw [mem_maps.2]
    rintro ⟨e, he, h, -⟩
    have := h2 e he
    omega
  have e2 : v ∈ (vt.searchMaps x true).1 ↔ ∃ e ∈ vt.inclusion, v ∈ e.2 := by
    rw [mem_maps.1]
    constructor
    · rintro ⟨e, he, -, h⟩; exact ⟨e, he, h⟩
    · rintro ⟨e, he, h⟩; exact ⟨e, he, by have := h1 e he; omega, h⟩
  rw [← e2]
  simp [e1]

theorem greatest_conflict (T1 : Told cs Vs1 proofs1 E1 M1 roots1 ts P) (T2 : Told cs Vs2 proofs2 E2 M2 roots2 ts P)
    {n t t' : Nat} {b b' p q q' : List Nat} {v : Nat} (h32 : t < 2 ^ 32) (h32' : t' < 2 ^ 32) (hb : baseBinaryLadder t = .ok b)
    (hb' : baseBinaryLadder t' = .ok b') (e1 : b = p ++ v :: q) (e2 : b' = p ++ v :: q') (hp : ∀ u ∈ p, u ≤ t ↔ u ≤ t')
    (hv1 : t < v) (hv2 : v ≤ t') : ∀ (fuel lo : Nat) (anc : List Nat) (term term' : Option Nat) (vt vt' z z' : Tracker)
    (tr tr' : List Ev) (r r' : Nat), At n lo n anc → Alike p v lo vt vt' →
    Runs (greatestLoop t n fuel (rt lo n) term) tr (.ok r) → Runs (greatestLoop t' n fuel (rt lo n) term') tr' (.ok r') →
    TFacts cs Vs1 proofs1 E1 M1 roots1 vt tr z → TFacts cs Vs2 proofs2 E2 M2 roots2 vt' tr' z' → False := by
  intro fuel
  induction fuel with
  | zero => intro lo anc term term' vt vt' z z' tr tr' r r' _ _ h; cases h
  | succ fuel ih =>
    intro lo anc term term' vt vt' z z' tr tr' r r' hat hA hrun hrun' hF hF'
    have hbd := hat.bounds
    unfold greatestLoop at hrun hrun'
    obtain ⟨res, tr2, htr, hnext⟩ := runs_search_bind hrun
    subst htr
    clear hrun
    have hrun := hnext
    clear hnext
    obtain ⟨res', tr2', htr, hnext⟩ := runs_search_bind hrun'
    subst htr
    clear hrun'
    have hrun' := hnext
    clear hnext
    cases hF with
    | @search _ _ _ _ _ _ _ vt1 w flags f2 f3 f4 f5 =>
    cases hF' with
    | @search _ _ _ _ _ _ _ vt1' w' flags' f2' f3' f4' f5' =>
    rcases runs_ite.1 hrun with ⟨_, h⟩ | ⟨hne, hrun⟩
    · exact absurd h runs_fail_ok
    rcases runs_ite.1 hrun' with ⟨_, h⟩ | ⟨hne', hrun'⟩
    · exact absurd h runs_fail_ok
    simp only at hrun hrun'
    obtain ⟨c, hc, l, hl, hi, hz, hadd⟩ := receiveLadder_parts f3
    obtain ⟨c', hc', l', hl', hi', hz', hadd'⟩ := receiveLadder_parts f3'
    rw [hb] at hc
    cases hc
    rw [hb'] at hc'
    cases hc'
    obtain ⟨a1, a2⟩ := addResults_ok hadd
    obtain ⟨a1', a2'⟩ := addResults_ok hadd'
    rw [hz] at f4
    rw [hz'] at f4'
    obtain ⟨keep, hkeep⟩ : ∃ k : Nat → Bool, k = fun v => !((vt.searchMaps (rt lo n) true).1.contains v ||
      (vt.searchMaps (rt lo n) true).2.contains v) := ⟨_, rfl⟩
    obtain ⟨keep', hkeep'⟩ : ∃ k : Nat → Bool, k = fun v => !((vt'.searchMaps (rt lo n) true).1.contains v ||
      (vt'.searchMaps (rt lo n) true).2.contains v) := ⟨_, rfl⟩
    rw [← hkeep] at hl
    rw [← hkeep'] at hl'
    have hk : ∀ u, keep u = true ↔ ¬ ∃ e ∈ vt.inclusion, u ∈ e.2 := fun u => by
      rw [hkeep]; exact maps_left hA.left hA.non (by omega)
    have hk' : ∀ u, keep' u = true ↔ ¬ ∃ e ∈ vt'.inclusion, u ∈ e.2 := fun u => by
      rw [hkeep']; exact maps_left hA.left' hA.non' (by omega)
    have hlN : l.Nodup := by rw [hl]; exact (base_bisection h32 hb).nodup.filter _
    have hlN' : l'.Nodup := by rw [hl']; exact (base_bisection h32' hb').nodup.filter _
    have hv : keep v = true := (hk v).2 (by rintro ⟨e, he, h⟩; exact hA.fork e he h)
    have hv' : keep' v = true := (hk' v).2 (by rintro ⟨e, he, h⟩; exact hA.fork' e he h)
    have hpp : p.filter keep' = p.filter keep := by
      apply List.filter_congr
      intro u hu
      rw [Bool.eq_iff_iff, hk u, hk' u, hA.same u hu]
    rw [e1, List.filter_append, List.filter_cons_of_pos hv] at hl
    rw [e2, List.filter_append, List.filter_cons_of_pos hv', hpp] at hl'
    obtain ⟨i1, i2⟩ := interpret_loop hi
    obtain ⟨i1', i2'⟩ := interpret_loop hi'
    subst hl hl'
    obtain ⟨k1, k2, k3, k4⟩ := loop_fork (pr := P (rt lo n)) hv1 hv2 _ _ _ _ _ _ _ hlN hlN'
      (fun u hu => hp u (List.mem_filter.1 hu).1) i2 i2' hne hne' (fun u b h => T1.shown _ _ _ f2 (f4 u b h))
      (fun u b h => T2.shown _ _ _ f2' (f4' u b h))
    subst k1
    rcases runs_ite.1 hrun' with ⟨hx, hrun'⟩ | ⟨hx, hrun'⟩
    swap
    · rcases runs_ite.1 hrun' with ⟨_, h⟩ | ⟨_, hrun'⟩
      · exact runs_fail_ok h
      rcases runs_ite.1 hrun' with ⟨_, h⟩ | ⟨h0, _⟩
      · exact runs_fail_ok h
      · exact h0 (by decide)
    rcases runs_ite.1 hrun with ⟨_, hrun⟩ | ⟨hx', _⟩
    swap
    · exact hx' hx
    obtain ⟨y, h1, hrun⟩ := runs_lift_bind hrun
    obtain ⟨y', h1', hrun'⟩ := runs_lift_bind hrun'
    have hr : rt lo n + 1 < n := by omega
    rw [right_rt hat hr] at h1 h1'
    cases h1
    cases h1'
    refine ih _ _ _ _ vt1 vt1' _ _ _ _ r r' (.right hat hr) ?_ hrun hrun' f5 f5'
    have mem1 : ∀ u, (∃ e ∈ vt1.inclusion, u ∈ e.2) ↔ (∃ e ∈ vt.inclusion, u ∈ e.2) ∨
        (u, true) ∈ (p.filter keep ++ v :: q.filter keep).zip flags := by
      intro u
      rw [a1]
      constructor
      · rintro ⟨e, he, h⟩
        rcases List.mem_append.1 he with he | he
        · exact Or.inl ⟨e, he, h⟩
        · obtain rfl := List.mem_singleton.1 he
          exact Or.inr (mem_shown.1 h)
      · rintro (⟨e, he, h⟩ | h)
        · exact ⟨e, List.mem_append_left _ he, h⟩
        · exact ⟨_, List.mem_append_right _ List.mem_cons_self, mem_shown.2 h⟩
    have mem1' : ∀ u, (∃ e ∈ vt1'.inclusion, u ∈ e.2) ↔ (∃ e ∈ vt'.inclusion, u ∈ e.2) ∨
        (u, true) ∈ (p.filter keep ++ v :: q'.filter keep').zip flags' := by
      intro u
      rw [a1']
      constructor
      · rintro ⟨e, he, h⟩
        rcases List.mem_append.1 he with he | he
        · exact Or.inl ⟨e, he, h⟩
        · obtain rfl := List.mem_singleton.1 he
          exact Or.inr (mem_shown.1 h)
      · rintro (⟨e, he, h⟩ | h)
        · exact ⟨e, List.mem_append_left _ he, h⟩
        · exact ⟨_, List.mem_append_right _ List.mem_cons_self, mem_shown.2 h⟩
    have pos : ∀ (A B : List (Nat × List Nat)) (S : List Nat), A = B ++ [(rt lo n, S)] → (∀ e ∈ B, e.1 < lo) →
        ∀ e ∈ A, e.1 < rt lo n + 1 := by
      intro A B S hAB hB e he
      rw [hAB] at he
      rcases List.mem_append.1 he with he | he
      · have := hB e he; omega
      · obtain rfl := List.mem_singleton.1 he
        simp
    refine ⟨pos _ _ _ a1 hA.left, pos _ _ _ a1' hA.left', pos _ _ _ a2 hA.non, pos _ _ _ a2' hA.non', ?_, ?_, ?_⟩
    · intro u hu
      rw [mem1, mem1', hA.same u hu]
      by_cases hu' : ∃ e ∈ vt'.inclusion, u ∈ e.2
      · simp only [hu', true_or]
      · have : u ∈ p.filter keep := List.mem_filter.2 ⟨hu, (hk u).2 (by rw [hA.same u hu]; exact hu')⟩
        rw [k2 u this]
    · intro e he h
      rcases (mem1 v).1 ⟨e, he, h⟩ with ⟨e, he, h⟩ | h
      · exact hA.fork e he h
      · exact k3 h
    · intro e he h
      rcases (mem1' v).1 ⟨e, he, h⟩ with ⟨e, he, h⟩ | h
      · exact hA.fork' e he h
      · exact k4 h

theorem Alike.nil {p : List Nat} {v lo : Nat} : Alike p v lo {} {} := by
  refine ⟨?_, ?_, ?_, ?_, ?_, ?_, ?_⟩
  all_goals first
    | exact fun _ _ => Iff.rfl
    | exact fun e he => by cases he

end

/-! ### searches do not ask whether to stop -/

/-- the program does not ask whether to stop -/
def NoStop {α : Type} : Prog α → Prop
  | .ret _ => True
  | .op q k => q.isStop = false ∧ ∀ a, NoStop (k a)

theorem NoStop.bind {α β : Type} {p : Prog α} {f : α → Prog β} (h : NoStop p) (hf : ∀ a, NoStop (f a)) :
    NoStop (p >>= f) := by
  change NoStop (p.bind f)
  induction p with
  | ret r =>
    cases r with
    | ok a => exact hf a
    | error e => trivial
  | op q k ih => exact ⟨h.1, fun a => ih a (h.2 a)⟩

theorem NoStop.call {q : Req} (h : q.isStop = false) : NoStop (Prog.call q) := ⟨h, fun _ => trivial⟩

theorem NoStop.ite {α : Type} {c : Prop} [Decidable c] {p q : Prog α} (hp : NoStop p) (hq : NoStop q) :
    NoStop (if c then p else q) := by split <;> assumption

theorem NoStop.ret' {α : Type} (r : G α) : NoStop (Prog.ret r) := trivial

theorem NoStop.attempt {α : Type} {p : Prog α} (h : NoStop p) : NoStop (Prog.attempt p) := by
  induction p with
  | ret r => match r with
    | .ok a => exact .ret' _
    | .error (.err m) => exact .ret' _
    | .error (.panic m) => exact .ret' _
    | .error .diverge => exact .ret' _
  | op q k ih => exact ⟨h.1, fun a => ih a (h.2 a)⟩

theorem NoStop.runs {α : Type} {p : Prog α} (h : NoStop p) {tr : List Ev} {r : G α} (hr : Runs p tr r) :
    ∀ e ∈ tr, e.q.isStop = false := by
  induction hr with
  | ret => simp
  | op a _ ih =>
    intro e he
    rcases List.mem_cons.1 he with rfl | he
    · exact h.1
    · exact ih (h.2 _) e he

theorem rightmostDistinguished_noStop {cfg : Config} {n : Nat} : NoStop (rightmostDistinguished cfg n) := by
  have loop : ∀ (rm fuel x : Nat), NoStop (rightmostLoop cfg n rm fuel x) := by
    intro rm fuel
    induction fuel with
    | zero => intro x; exact .ret' _
    | succ fuel ih =>
      intro x
      unfold rightmostLoop
      exact .ite (.ret' _) (.bind (.call rfl) (fun t => .ite (.ret' _) (.bind (.ret' _) (fun r => ih r))))
  unfold rightmostDistinguished
  exact .ite (.ret' _) (.bind (.call rfl) (fun t => .ite (.ret' _) (loop _ _ _)))

theorem greatestVersionSearch_noStop {cfg : Config} {ver n : Nat} : NoStop (greatestVersionSearch cfg ver n) := by
  have loop : ∀ (fuel x : Nat) (t : Option Nat), NoStop (greatestLoop ver n fuel x t) := by
    intro fuel
    induction fuel with
    | zero => intro x t; exact .ret' _
    | succ fuel ih =>
      intro x t
      unfold greatestLoop
      exact .bind (.call rfl) (fun res => .ite (.ret' _) (.ite (.bind (.ret' _) (fun r => ih r _))
        (.ite (.ret' _) (.ite (.ret' _) (.ret' _)))))
  unfold greatestVersionSearch
  refine .ite (.ret' _) (.bind (.attempt rightmostDistinguished_noStop) (fun d => ?_))
  cases d with
  | error e => exact .ret' _
  | ok d => exact loop _ _ _

theorem fixedVersionSearch_noStop {cfg : Config} {ver n : Nat} : NoStop (fixedVersionSearch cfg ver n) := by
  have fin : ∀ (t : Option Nat) (e : Bool) (d : List Nat), NoStop (fixedFinish ver t e d) := by
    intro t e d
    unfold fixedFinish
    cases t with
    | none => exact .ret' _
    | some t => exact .ite (.ret' _) (.bind (.call rfl) (fun _ => .ret' _))
  have loop : ∀ (rm fuel : Nat) (s : FixedState), NoStop (fixedLoop cfg ver n rm fuel s) := by
    intro rm fuel
    induction fuel with
    | zero => intro s; exact .ret' _
    | succ fuel ih =>
      intro s
      unfold fixedLoop
      exact .bind (.call rfl) (fun t => .ite (.ite (fin _ _ _) (.bind (.ret' _) (fun r => ih _)))
        (.bind (.call rfl) (fun res => .ite (.ite (fin _ _ _) (.bind (.ret' _) (fun r => ih _)))
          (.ite (.ite (fin _ _ _) (.bind (.ret' _) (fun r => ih _)))
            (.ite (.ret' _) (.ite (.ret' _) (.ret' _)))))))
  unfold fixedVersionSearch
  exact .ite (.ret' _) (.bind (.call rfl) (fun t => loop _ _ _))

theorem TFacts.ts_only {cs : Log.Suite} {Vs : Versions} {proofs : List Prefix.Proof} {E : List (List Prefix.Entry × Prefix.Proof)}
    {M : List (Nat × Nat)} {roots : Nat → Option Bytes} {vt z : Tracker} {tr : List Ev} (h : TFacts cs Vs proofs E M roots vt tr z)
    (hts : ∀ e ∈ tr, ∃ x, e.q = .ts x) : z = vt := by
  induction h with
  | nil => rfl
  | ts _ _ ih => exact ih (fun e he => hts e (List.mem_cons_of_mem _ he))
  | search => obtain ⟨x, h⟩ := hts _ List.mem_cons_self; cases h
  | monitor => obtain ⟨x, h⟩ := hts _ List.mem_cons_self; cases h
  | incl => obtain ⟨x, h⟩ := hts _ List.mem_cons_self; cases h
  | stop => obtain ⟨x, h⟩ := hts _ List.mem_cons_self; cases h
  | add => obtain ⟨x, h⟩ := hts _ List.mem_cons_self; cases h

end Katie.Alg
