import Verif.Lemmas.Fresh
import Verif.Lemmas.MonitorSound
import Verif.Lemmas.InitSound

/-
What an owner has seen in the entry where their monitoring has arrived, whatever the log looks like.
-/

namespace Katie.Alg
open Katie Katie.Wire Katie.Ladder Katie.SearchSpec Katie.SearchTree Prog

/-- the trace contains a full ladder in entry `y`, which shows that the greatest version is `v` -/
def Checked (tr : List Ev) (y : Nat) (v : Int) : Prop :=
  (v < 0 ∧ (⟨.search y 0 false, Except.ok (-1 : Int)⟩ : Ev) ∈ tr) ∨
  (0 ≤ v ∧ (⟨.search y (v.toNat % 2 ^ 32) false, Except.ok (0 : Int)⟩ : Ev) ∈ tr)

theorem Checked.mono {tr tr' : List Ev} {y : Nat} {v : Int} (h : Checked tr y v) (hs : ∀ e ∈ tr, e ∈ tr') : Checked tr' y v := by
  rcases h with ⟨h1, h2⟩ | ⟨h1, h2⟩
  · exact .inl ⟨h1, hs _ h2⟩
  · exact .inr ⟨h1, hs _ h2⟩

theorem expectLadder_checked {x : Nat} {v : Int} {tr : List Ev} (h : Runs (expectLadder x v false) tr (.ok ())) : Checked tr x v := by
  unfold expectLadder at h
  rcases runs_ite.1 h with ⟨hv, h⟩ | ⟨hv, h⟩
  · obtain ⟨res, t, e, hn⟩ := runs_search_bind h
    subst e
    clear h
    have h := hn
    clear hn
    rcases runs_ite.1 h with ⟨_, h⟩ | ⟨hr, h⟩
    · exact absurd h runs_fail_ok
    obtain rfl : res = -1 := by simpa using hr
    exact .inl ⟨hv, List.mem_cons_self⟩
  · obtain ⟨res, t, e, hn⟩ := runs_search_bind h
    subst e
    clear h
    have h := hn
    clear hn
    rcases runs_ite.1 h with ⟨_, h⟩ | ⟨hr, h⟩
    · exact absurd h runs_fail_ok
    obtain rfl : res = 0 := by simpa using hr
    exact .inr ⟨by omega, List.mem_cons_self⟩

theorem ownerWalk_checked {cfg : Config} {n : Nat} : ∀ (fuel x l r : Nat) (o o' : Owner) (tr : List Ev),
    Runs (ownerWalk cfg n fuel x l r o) tr (.ok o') → o' = o ∨ Checked tr o'.starting o'.verAtStarting := by
  intro fuel
  induction fuel with
  | zero => intro x l r o o' tr h; cases h
  | succ fuel ih =>
    intro x l r o o' tr h
    unfold ownerWalk at h
    rcases runs_ite.1 h with ⟨_, h⟩ | ⟨_, h⟩
    · obtain ⟨-, h⟩ := runs_pure.1 h
      exact .inl (Except.ok.inj h)
    rcases runs_ite.1 h with ⟨_, h⟩ | ⟨_, h⟩
    · rcases runs_ite.1 h with ⟨_, h⟩ | ⟨_, h⟩
      · obtain ⟨-, h⟩ := runs_pure.1 h
        exact .inl (Except.ok.inj h)
      · obtain ⟨t, t1, e, hn⟩ := runs_ts_bind h
        subst e
        clear h
        have h := hn
        clear hn
        obtain ⟨c, -, h⟩ := runs_lift_bind h
        rcases ih _ _ _ _ _ _ h with h | h
        · exact .inl h
        · exact .inr (h.mono (fun e he => List.mem_cons_of_mem _ he))
    · obtain ⟨o1, t1, t2, rfl, h1, h⟩ := runs_bind_ok.1 h
      have hleft : o1 = o ∨ Checked t1 o1.starting o1.verAtStarting := by
        rcases runs_ite.1 h1 with ⟨_, h1⟩ | ⟨_, h1⟩
        · obtain ⟨-, h⟩ := runs_pure.1 h1
          exact .inl (Except.ok.inj h)
        · obtain ⟨t, t1, e, hn⟩ := runs_ts_bind h1
          subst e
          clear h1
          have h1 := hn
          clear hn
          obtain ⟨c, -, h1⟩ := runs_lift_bind h1
          rcases ih _ _ _ _ _ _ h1 with h | h
          · exact .inl h
          · exact .inr (h.mono (fun e he => List.mem_cons_of_mem _ he))
      obtain ⟨stop, t3, t4, rfl, h2, h⟩ := runs_bind_ok.1 h
      rcases runs_ite.1 h with ⟨_, h⟩ | ⟨_, h⟩
      · obtain ⟨-, h⟩ := runs_pure.1 h
        obtain rfl := Except.ok.inj h
        rcases hleft with h | h
        · exact .inl h
        · exact .inr (h.mono (fun e he => List.mem_append_left _ he))
      · obtain ⟨_, t5, t6, rfl, h3, h⟩ := runs_bind_ok.1 h
        have hx : Checked t5 (o1.setStarting x).starting (o1.setStarting x).verAtStarting := expectLadder_checked h3
        rcases runs_ite.1 h with ⟨_, h⟩ | ⟨_, h⟩
        · obtain ⟨-, h⟩ := runs_pure.1 h
          obtain rfl := Except.ok.inj h
          exact .inr (hx.mono (fun e he => by simp [he]))
        · obtain ⟨t, t7, e, hn⟩ := runs_ts_bind h
          subst e
          clear h
          have h := hn
          clear hn
          obtain ⟨c, -, h⟩ := runs_lift_bind h
          rcases ih _ _ _ _ _ _ h with rfl | h
          · exact .inr (hx.mono (fun e he => by simp [he]))
          · exact .inr (h.mono (fun e he => by simp [he]))

theorem monitorProg_checked {cfg : Config} {n : Nat} {c : PMap} {o : Owner} {tr : List Ev} {m : Monitor}
    (h : Runs (monitorProg cfg n c (some o)) tr (.ok m)) :
    ∃ o', m.owner = some o' ∧ (o' = o ∨ Checked tr o'.starting o'.verAtStarting) := by
  unfold monitorProg at h
  obtain ⟨m0, t1, t2, rfl, h1, h⟩ := runs_bind_ok.1 h
  obtain ⟨m1, t3, t4, rfl, h2, h⟩ := runs_bind_ok.1 h
  obtain ⟨z1, -⟩ := contactMonitor_keeps h2
  have ho : m1.owner = some o := z1
  unfold ownerMonitor at h
  rw [ho] at h
  obtain ⟨o', t5, t6, rfl, h3, h⟩ := runs_bind_ok.1 h
  obtain ⟨-, h⟩ := runs_pure.1 h
  obtain rfl := Except.ok.inj h
  refine ⟨o', rfl, ?_⟩
  rcases ownerWalk_checked _ _ _ _ _ _ _ h3 with h | h
  · exact .inl h
  · exact .inr (h.mono (fun e he => by simp [he]))

theorem initWalk_head {m : Monitor} {s : Nat} : ∀ (fuel x l r : Nat) (xs : List Nat) (tr : List Ev),
    Runs (initWalk m s fuel x l r) tr (.ok xs) → ∃ ys, xs = s :: ys := by
  intro fuel
  induction fuel with
  | zero => intro x l r xs tr h; cases h
  | succ fuel ih =>
    intro x l r xs tr h
    unfold initWalk at h
    rcases runs_ite.1 h with ⟨_, h⟩ | ⟨_, h⟩
    · exact absurd h runs_fail_ok
    obtain ⟨t, t1, -, h⟩ := runs_ts_bind h
    dsimp only at h
    rcases runs_ite.1 h with ⟨_, h⟩ | ⟨_, h⟩
    · rcases runs_ite.1 h with ⟨_, h⟩ | ⟨_, h⟩
      · exact absurd h runs_fail_ok
      obtain ⟨c, -, h⟩ := runs_lift_bind h
      obtain ⟨ch, t2, t3, -, h1, h⟩ := runs_bind_ok.1 h
      obtain ⟨ys, rfl⟩ := ih _ _ _ _ _ h1
      obtain ⟨-, h⟩ := runs_pure.1 h
      have h := Except.ok.inj h
      split at h
      · exact ⟨_, h⟩
      · exact ⟨ys ++ [x], h⟩
    · rcases runs_ite.1 h with ⟨he, h⟩ | ⟨_, h⟩
      · rcases runs_ite.1 h with ⟨_, h⟩ | ⟨_, h⟩
        · exact absurd h runs_fail_ok
        · obtain ⟨-, h⟩ := runs_pure.1 h
          exact ⟨[], by rw [Except.ok.inj h, he]⟩
      · rcases runs_ite.1 h with ⟨_, h⟩ | ⟨_, h⟩
        · exact absurd h runs_fail_ok
        obtain ⟨c, -, h⟩ := runs_lift_bind h
        exact ih _ _ _ _ _ h

theorem initProg_checked {cfg : Config} {n s : Nat} {vers : List Nat} {tr : List Ev} {m : Monitor} {xs : List Nat}
    (h32 : ∀ v ∈ vers, v < 2 ^ 32) (h : Runs (initProg cfg n s vers) tr (.ok (m, xs))) :
    ∃ o, m.owner = some o ∧ o.starting = s ∧ Checked tr s o.verAtStarting := by
  unfold initProg at h
  obtain ⟨m0, t1, t2, e, h1, hA⟩ := runs_bind_ok.1 h
  subst e
  clear h
  unfold ownerInit at hA
  rcases runs_ite.1 hA with ⟨_, h⟩ | ⟨_, h⟩
  · exact absurd h runs_fail_ok
  obtain ⟨ys, t3, t4, e, h2, hB⟩ := runs_bind_ok.1 h
  subst e
  clear h
  rcases runs_ite.1 hB with ⟨_, h⟩ | ⟨_, h⟩
  · exact absurd h runs_fail_ok
  rcases runs_ite.1 h with ⟨_, h⟩ | ⟨_, h⟩
  · exact absurd h runs_fail_ok
  obtain ⟨_, t5, t6, e, h3, hC⟩ := runs_bind_ok.1 h
  subst e
  clear h
  obtain ⟨zs, rfl⟩ := initWalk_head _ _ _ _ _ _ h2
  obtain ⟨-, h⟩ := runs_pure.1 hC
  have h := Except.ok.inj h
  simp only [Prod.mk.injEq] at h
  obtain ⟨rfl, -⟩ := h
  refine ⟨_, rfl, rfl, ?_⟩
  refine Checked.mono (tr := t5) ?_ (fun e he => by simp [he])
  cases vers with
  | nil =>
    unfold initLadders at h3
    obtain ⟨res, t, e, hD⟩ := runs_search_bind h3
    subst e
    rcases runs_ite.1 hD with ⟨_, h3⟩ | ⟨hr, h3⟩
    · exact absurd h3 runs_fail_ok
    obtain rfl : res = -1 := by simpa using hr
    exact .inl ⟨by show (-1 : Int) < 0; decide, List.mem_cons_self⟩
  | cons v vs =>
    unfold initLadders at h3
    obtain ⟨res, t, e, hD⟩ := runs_search_bind h3
    subst e
    rcases runs_ite.1 hD with ⟨_, h3⟩ | ⟨hr, h3⟩
    · exact absurd h3 runs_fail_ok
    obtain rfl : res = 0 := by simpa using hr
    have := h32 v List.mem_cons_self
    refine .inr ⟨Int.natCast_nonneg _, ?_⟩
    dsimp only
    rw [Int.toNat_natCast, Nat.mod_eq_of_lt this]
    exact List.mem_cons_self

section
variable {cs : Log.Suite} {Vs : Versions} {proofs : List Prefix.Proof} {E : List (List Prefix.Entry × Prefix.Proof)}
  {M : List (Nat × Nat)} {roots : Nat → Option Bytes}

/-- What a full ladder shows: the greater versions of the ladder are absent. -/
theorem Checked.shown {vs : List Visit} {tr : List Ev} {y : Nat} {v : Int} (h : Checked tr y v)
    (hF : Facts cs Vs proofs E M roots vs tr) :
    y ∈ M.map Prod.fst ∧ ((v < 0 ∧ Shown cs Vs proofs E roots y 0 false) ∨
      ∃ (k : Nat) (l : List Nat), (k : Int) ≤ v ∧ k < 2 ^ 32 ∧ baseBinaryLadder k = .ok l ∧
        ∀ u ∈ l, k < u → Shown cs Vs proofs E roots y u false) := by
  rcases h with ⟨h1, h2⟩ | ⟨h1, h2⟩
  · obtain ⟨hy, vt, vt', w, flags, k1, k2⟩ := hF.mem_search h2
    refine ⟨hy, .inl ⟨h1, k2 0 false ?_⟩⟩
    obtain ⟨b, hb, l, hl, hr, hz, -⟩ := receiveLadder_parts k1
    rw [hz]
    obtain ⟨pre, u, post, e1, e2, e3⟩ := (Props.C20_interpretation l 0 flags).2.2.1.1 hr
    obtain rfl : u = 0 := by omega
    rw [e1, e3, List.zip_append (by simp)]
    simp
  · obtain ⟨hy, vt, vt', w, flags, k1, k2⟩ := hF.mem_search h2
    obtain ⟨b, hb, -⟩ := receiveLadder_parts k1
    refine ⟨hy, .inr ⟨v.toNat % 2 ^ 32, b, ?_, Nat.mod_lt _ (by decide), hb, fun u hu hlt => k2 u false ?_⟩⟩
    · have := Nat.mod_le v.toNat (2 ^ 32)
      omega
    · exact visit_high k1 hb hu hlt (by simp [Tracker.searchMaps]) (by simp [Tracker.searchMaps])

theorem Checked.ladder {vs : List Visit} {tr : List Ev} {y k : Nat} (h : Checked tr y (k : Int)) (hk : k < 2 ^ 32)
    (hF : Facts cs Vs proofs E M roots vs tr) : ∃ l, baseBinaryLadder k = .ok l := by
  rcases h with ⟨h1, -⟩ | ⟨-, h2⟩
  · omega
  rw [Int.toNat_natCast, Nat.mod_eq_of_lt hk] at h2
  obtain ⟨-, vt, vt', w, flags, k1, -⟩ := hF.mem_search h2
  obtain ⟨b, hb, -⟩ := receiveLadder_parts k1
  exact ⟨b, hb⟩

/-- and the version itself is shown to be present, and so are the smaller versions of its ladder -/
theorem Checked.present {vs : List Visit} {tr : List Ev} {y k u : Nat} (h : Checked tr y (k : Int)) (hk : k < 2 ^ 32)
    (hu : u = k ∨ u < k ∧ ∃ l, baseBinaryLadder k = .ok l ∧ u ∈ l)
    (hF : Facts cs Vs proofs E M roots vs tr) : Shown cs Vs proofs E roots y u true := by
  rcases h with ⟨h1, -⟩ | ⟨-, h2⟩
  · omega
  rw [Int.toNat_natCast, Nat.mod_eq_of_lt hk] at h2
  obtain ⟨-, vt, vt', w, flags, k1, k2⟩ := hF.mem_search h2
  obtain ⟨b, hb, l, hl, hr, hz, -⟩ := receiveLadder_parts k1
  refine k2 u true ?_
  rw [hz, (Props.C20_interpretation l k flags).1.1 hr]
  have hsmall : k < 2 ^ 31 - 1 := by
    by_contra hc
    unfold baseBinaryLadder at hb
    rw [base_diverges (by omega) hk] at hb
    cases hb
  obtain ⟨b', hb', hbis, -⟩ := baseBinaryLadder_ok hsmall
  rw [hb] at hb'
  cases hb'
  have hub : u ∈ b := by
    rcases hu with rfl | ⟨-, l', h1, h2⟩
    · exact (List.mem_filter.1 (List.mem_of_getLast? hbis.lowEnd)).1
    · rw [hb] at h1
      cases h1
      exact h2
  have hm : u ∈ l := by
    rw [hl, List.mem_filter]
    exact ⟨hub, by simp [Tracker.searchMaps]⟩
  obtain ⟨i, hi, hiv⟩ := List.mem_iff_getElem.1 hm
  rw [List.mem_iff_getElem]
  exact ⟨i, by simpa using hi, by simp [hiv]; omega⟩
end
end Katie.Alg
