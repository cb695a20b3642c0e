import Verif.Lemmas.ClientTracker
import Verif.Lemmas.InitSound
import Verif.Lemmas.ServeLadder
import Verif.Props.C56_OwnerUpdate
import Verif.Props.C68_Signed

/-
Lemmas for C73 and C74: the owner of a label accepts the answer to an update request.
-/

namespace Katie.Alg
open Katie Katie.Wire Katie.Ladder Katie.SearchTree Katie.SearchSpec Prog

/-- the whole of an update -/
def updateProg (cfg : Config) (n : Nat) (contact : PMap) (owner : Option Owner) (pos : Nat) (k : Int) : Prog Monitor := do
  let m ← newMonitor cfg n
  monitorUpdate { m with contact := some contact, owner := owner } pos k

theorem nonDistLoop_noCatch {cfg : Config} {n target : Nat} : ∀ (fuel x l r : Nat), NoCatch (nonDistLoop cfg n target fuel x l r) := by
  intro fuel
  induction fuel with
  | zero => intro x l r; exact (.ret _)
  | succ fuel ih =>
    intro x l r
    unfold nonDistLoop
    refine .ite (.ret _) (.ite (.ret _) (.bind (.call _) (fun ts => ?_)))
    exact .ite (.bind (.ret _) (fun c => ih _ _ _)) (.bind (.ret _) (fun c => ih _ _ _))

theorem nonDistinguishedAncestor_noCatch {m : Monitor} {t : Nat} : NoCatch (nonDistinguishedAncestor m t) := by
  unfold nonDistinguishedAncestor
  exact .bind (.call _) (fun r => nonDistLoop_noCatch _ _ _ _)

theorem previousTreeLoop_noCatch {pos lastUpdate : Nat} {G : Int} : ∀ (fuel x : Nat), NoCatch (previousTreeLoop pos lastUpdate G fuel x) := by
  intro fuel
  induction fuel with
  | zero => intro x; exact (.ret _)
  | succ fuel ih =>
    intro x
    unfold previousTreeLoop
    exact .bind (.ite (.ret _) expectLadder_noCatch) (fun _ => .ite (.ret _) (.bind (.ret _) (fun r => ih _)))

theorem prepareTracker_noCatch {o : Owner} {pos x : Nat} : NoCatch (prepareTracker o pos x) := by
  unfold prepareTracker
  refine .ite (.ret _) (.bind (.ret _) (fun l => .ite (.bind (.ret _) (fun p => .bind (.call _) (fun _ => (.call _)))) (.call _)))

theorem verifyPreviousTree_noCatch {m : Monitor} {o : Owner} {pos : Nat} : NoCatch (verifyPreviousTree m o pos) := by
  unfold verifyPreviousTree
  refine .ite (.ret _) (.bind nonDistinguishedAncestor_noCatch (fun res => ?_))
  cases res with
  | none => exact (.ret _)
  | some x => exact .bind (.ret _) (fun x => .bind prepareTracker_noCatch (fun _ => previousTreeLoop_noCatch _ _))

theorem updateProg_noCatch {cfg : Config} {n : Nat} {contact : PMap} {owner : Option Owner} {pos : Nat} {k : Int} :
    NoCatch (updateProg cfg n contact owner pos k) := by
  unfold updateProg
  refine .bind newMonitor_noCatch (fun m => ?_)
  unfold monitorUpdate
  simp only
  cases owner with
  | none => exact (.ret _)
  | some o =>
    simp only
    refine .ite (.ret _) (.ite (.ret _) (.ite (.ret _) (.ite (.ret _) (.bind (.ret _) (fun l => .bind verifyPreviousTree_noCatch (fun _ =>
      .bind nonDistinguishedAncestor_noCatch (fun r => ?_)))))))
    exact .ite (.bind (.call _) (fun _ => (.ret _))) (.bind (.call _) (fun _ => .ite (.ret _) (.bind (.call _) (fun _ => (.ret _)))))

theorem updateProg_parts {cfg : Config} {n : Nat} {contact : PMap} {owner : Option Owner} {pos : Nat} {k : Int} {tr : List Ev} {m : Monitor}
    (h : Runs (updateProg cfg n contact owner pos k) tr (.ok m)) :
    0 < n ∧ ∃ t tr1, tr = ⟨.ts (n - 1), .ok t⟩ :: tr1 ∧ Runs (monitorUpdate ⟨cfg, t, n, some contact, owner⟩ pos k) tr1 (.ok m) := by
  unfold updateProg at h
  obtain ⟨m0, t1, t2, e1, h1, h'⟩ := runs_bind_ok.1 h
  subst e1
  unfold newMonitor at h1
  by_cases hn : n = 0
  · rw [if_pos hn] at h1; cases h1
  rw [if_neg hn] at h1
  obtain ⟨t, t11, t12, e1, h11, h12⟩ := runs_bind_ok.1 h1
  subst e1
  obtain ⟨e3, e4⟩ := runs_pure.1 h12
  have e4 := Except.ok.inj e4
  subst e3 e4
  have e5 := runs_call.1 h11
  subst e5
  exact ⟨by omega, t, t2, rfl, h'⟩

/-- the requests of a successful `Update`: some that go from left to right up to the entry before `pos` and take nothing above
the greatest version known before to be included, and then those for `pos` -/
theorem monitorUpdate_shape {m m' : Monitor} {o : Owner} {pos : Nat} {k : Int} {tr : List Ev} (ho : m.owner = some o)
    (hwf : ∀ y, o.greatestAt y ≤ o.greatest) (h : Runs (monitorUpdate m pos k) tr (.ok m')) :
    pos < m.treeSize ∧ o.lastUpdate < pos ∧ 1 ≤ k ∧ 0 ≤ o.greatest + k ∧ o.greatest + k < 2 ^ 32 - 1 ∧
    ∃ ladder, searchBinaryLadder (o.greatest + k).toNat (o.greatest + k).toNat [] [] = .ok ladder ∧
    ∃ ta tb, tr = ta ++ tb ∧ (∀ e ∈ ta, e.Calm o.greatest) ∧ (∀ x ∈ ta.filterMap (fun e => e.q.mark), x < pos) ∧
      (ta.filterMap (fun e => e.q.mark)).Pairwise (· ≤ ·) ∧
      m'.owner = some { o with upcoming := o.upcoming ++ List.replicate k.toNat pos } ∧
      ∃ add : List Nat, (∀ v : Nat, o.greatest < v → v ≤ o.greatest + k → v ∈ add ∨ v ∈ ladder) ∧ (∀ v ∈ add, o.greatest < (v : Int) ∧ (v : Int) ≤ o.greatest + k) ∧
      ((tb = [⟨.incl pos add, .ok ()⟩] ∧ m'.contact = m.contact) ∨
        (tb = [⟨.search pos (o.greatest + k).toNat true, .ok (0 : Int)⟩, ⟨.incl pos add, .ok ()⟩] ∧
          m'.contact = some (PMap.set (m.contact.getD []) pos (o.greatest + k).toNat))) := by
  unfold monitorUpdate at h
  rw [ho] at h
  simp only [] at h
  rw [runs_ite] at h
  rcases h with ⟨-, h⟩ | ⟨h1, h⟩
  · exact absurd h runs_fail_ok
  rw [runs_ite] at h
  rcases h with ⟨-, h⟩ | ⟨h2, h⟩
  · exact absurd h runs_fail_ok
  rw [runs_ite] at h
  rcases h with ⟨-, h⟩ | ⟨h3, h⟩
  · exact absurd h runs_fail_ok
  rw [runs_ite] at h
  rcases h with ⟨-, h⟩ | ⟨h4, h⟩
  · exact absurd h runs_fail_ok
  obtain ⟨ladder, t1, t2, e0, hl, h'⟩ := runs_bind_ok.1 h
  clear h
  obtain ⟨hl1, hl2⟩ := runs_lift.1 hl
  clear hl
  subst hl1 e0
  rename' h' => h
  obtain ⟨u, t3, t4, rfl, hv, h⟩ := runs_bind_ok.1 h
  obtain ⟨res, t5, t6, rfl, hr, h⟩ := runs_bind_ok.1 h
  obtain ⟨v1, v2, v3⟩ := verifyPreviousTree_marks (by omega : pos < m.treeSize) hwf (by omega) hv
  obtain ⟨n1, n2⟩ := nonDistinguishedAncestor_asks.unmarked hr
  have hadd1 : ∀ v : Nat, o.greatest < v → v ≤ o.greatest + k →
      v ∈ additionalVersions ladder (o.greatest + 1).toNat ((o.greatest + k).toNat + 1 - (o.greatest + 1).toNat) ∨ v ∈ ladder := by
    intro v hv1 hv2
    by_cases hm : v ∈ ladder
    · exact Or.inr hm
    · exact Or.inl (mem_additional.2 ⟨by omega, by omega, hm⟩)
  have hadd2 : ∀ v ∈ additionalVersions ladder (o.greatest + 1).toNat ((o.greatest + k).toNat + 1 - (o.greatest + 1).toNat),
      o.greatest < (v : Int) ∧ (v : Int) ≤ o.greatest + k := by
    intro v hv
    obtain ⟨a, b, -⟩ := mem_additional.1 hv
    omega
  have hta : (∀ e ∈ t3 ++ t5, e.Calm o.greatest) ∧ (∀ x ∈ (t3 ++ t5).filterMap (fun e => e.q.mark), x < pos) ∧
      ((t3 ++ t5).filterMap (fun e => e.q.mark)).Pairwise (· ≤ ·) := by
    rw [List.filterMap_append, n1, List.append_nil]
    refine ⟨?_, v2, v3⟩
    intro e he
    rcases List.mem_append.1 he with he | he
    · exact v1 e he
    · exact n2 e he _
  refine ⟨by omega, by omega, by omega, by omega, by omega, ladder, hl2.symm, t3 ++ t5, t6, by simp, hta.1, hta.2.1, hta.2.2, ?_⟩
  rw [runs_ite] at h
  rcases h with ⟨-, h⟩ | ⟨-, h⟩
  · obtain ⟨u', t7, t8, rfl, hi, h⟩ := runs_bind_ok.1 h
    obtain ⟨rfl, hk⟩ := runs_pure.1 h
    have hi := runs_call.1 hi
    have hk := Except.ok.inj hk
    subst hk hi
    exact ⟨rfl, _, hadd1, hadd2, Or.inl ⟨rfl, rfl⟩⟩
  · obtain ⟨r, t7, t8, rfl, hs, h⟩ := runs_bind_ok.1 h
    have hs := runs_call.1 hs
    rw [runs_ite] at h
    rcases h with ⟨-, h⟩ | ⟨h0, h⟩
    · exact absurd h runs_fail_ok
    have hr0 : r = 0 := by simpa using h0
    subst hr0
    obtain ⟨u', t9, t10, rfl, hi, h⟩ := runs_bind_ok.1 h
    obtain ⟨rfl, hk⟩ := runs_pure.1 h
    have hi := runs_call.1 hi
    have hk := Except.ok.inj hk
    subst hk hi hs
    exact ⟨rfl, _, hadd1, hadd2, Or.inr ⟨rfl, rfl⟩⟩

/-- what the prefix proofs show when an `Update` has succeeded -/
structure UpdateShown (cs : Log.Suite) (Vs : Versions) (proofs : List Prefix.Proof) (E : List (List Prefix.Entry × Prefix.Proof))
    (M : List (Nat × Nat)) (roots : Nat → Option Bytes) (contact : PMap) (o : Owner) (pos : Nat) (k : Int) (tr : List Ev) (m : Monitor) : Prop where
  owner : m.owner = some { o with upcoming := o.upcoming ++ List.replicate k.toNat pos }
  /-- an earlier entry: nothing above the greatest version known before is there -/
  before : ∀ y, y < pos → ShownGreatest tr y o.greatest true → -1 ≤ o.greatest → y ∈ M.map Prod.fst ∧
    ∃ v : Nat, o.greatest + 1 = v ∧ Shown cs Vs proofs E roots y v false
  /-- `pos`: the new versions are there -/
  ladder : ∃ ladder, searchBinaryLadder (o.greatest + k).toNat (o.greatest + k).toNat [] [] = .ok ladder ∧
    (∀ v : Nat, o.greatest < v → v ≤ o.greatest + k → v ∉ ladder → pos ∈ M.map Prod.fst ∧ Shown cs Vs proofs E roots pos v true) ∧
    ((m.contact = some contact ∧ ∀ v, (⟨.search pos v true, .ok (0 : Int)⟩ : Ev) ∈ tr → (v : Int) ≤ o.greatest) ∨
      (m.contact = some (PMap.set contact pos (o.greatest + k).toNat) ∧
        pos ∈ M.map Prod.fst ∧ (o.greatest + k).toNat ∈ ladder ∧ (o.greatest + k).toNat + 1 ∈ ladder ∧
        ∀ v ∈ ladder, o.greatest < v → Shown cs Vs proofs E roots pos v (decide (v ≤ (o.greatest + k).toNat))))

theorem update_shown {cs : Log.Suite} {Vs : Versions} {proofs : List Prefix.Proof} {E : List (List Prefix.Entry × Prefix.Proof)}
    {M : List (Nat × Nat)} {roots : Nat → Option Bytes} {cfg : Config} {n : Nat} {contact : PMap} {o : Owner} {pos : Nat} {k : Int} {tr : List Ev} {m : Monitor}
    (hwf : ∀ y, o.greatestAt y ≤ o.greatest) (h : Runs (updateProg cfg n contact (some o) pos k) tr (.ok m))
    {z : Tracker} (hf : TFacts cs Vs proofs E M roots {} tr z) :
    o.lastUpdate < pos ∧ pos < n ∧ 1 ≤ k ∧ 0 ≤ o.greatest + k ∧ o.greatest + k < 2 ^ 32 - 1 ∧
      UpdateShown cs Vs proofs E M roots contact o pos k tr m := by
  obtain ⟨hn, t, tr1, rfl, h1⟩ := updateProg_parts h
  obtain ⟨s1, s2, s3, s4, s5, ladder, hl, ta, tb, rfl, c1, c2, c3, ho, add, a1, a2, hb⟩ := monitorUpdate_shape rfl hwf h1
  refine ⟨s2, s1, s3, s4, s5, ?_⟩
  cases hf with
  | ts _ hf =>
  obtain ⟨z1, f1, f2⟩ := hf.split
  have hincl : (⟨.incl pos add, .ok ()⟩ : Ev) ∈ tb := by
    rcases hb with ⟨rfl, -⟩ | ⟨rfl, -⟩ <;> simp
  obtain ⟨i1, i2⟩ := f2.mem_incl hincl
  refine ⟨ho, ?_, ladder, hl, ?_, ?_⟩
  · intro y hy hsh hge
    have inTa : ∀ v r, (⟨.search y v true, .ok r⟩ : Ev) ∈ (⟨.ts (n - 1), .ok t⟩ : Ev) :: (ta ++ tb) → (⟨.search y v true, .ok r⟩ : Ev) ∈ ta := by
      intro v r hm
      rcases List.mem_cons.1 hm with hm | hm
      · cases hm
      rcases List.mem_append.1 hm with hm | hm
      · exact hm
      rcases hb with ⟨rfl, -⟩ | ⟨rfl, -⟩
      · simp at hm
      · simp only [List.mem_cons, List.not_mem_nil, or_false] at hm
        rcases hm with hm | hm
        · cases hm; omega
        · cases hm
    rcases hsh with ⟨hneg, hm⟩ | ⟨hpos, hm⟩
    · obtain ⟨hy1, vt1, vt2, w, flags, -, hr, hw⟩ := f1.mem_search (inTa _ _ hm) TOK.empty (fun t1 e t2 ht he => c1 e (by rw [ht]; simp [he])) c3
      exact ⟨hy1, 0, by push_cast; omega, hw _ _ (ladder_none hr)⟩
    · obtain ⟨hy1, vt1, vt2, w, flags, hk, hr, hw⟩ := f1.mem_search (inTa _ _ hm) TOK.empty (fun t1 e t2 ht he => c1 e (by rw [ht]; simp [he])) c3
      have hmod : o.greatest.toNat % 2 ^ 32 = o.greatest.toNat := Nat.mod_eq_of_lt (by omega)
      rw [hmod] at hr
      obtain ⟨b, -, hb2, -, hb3⟩ := ladder_edge (by omega) hk hr
      have := hw _ _ (hb2 _ hb3 (by push_cast; omega))
      rw [decide_eq_false (by omega)] at this
      exact ⟨hy1, o.greatest.toNat + 1, by push_cast; omega, this⟩
  · intro v h1 h2 h3
    have hv : v ∈ add := (a1 v h1 h2).resolve_right h3
    exact ⟨i1 (List.ne_nil_of_mem hv), i2 v hv⟩
  · rcases hb with ⟨rfl, hc⟩ | ⟨rfl, hc⟩
    · refine Or.inl ⟨hc, ?_⟩
      intro v hm
      rcases List.mem_cons.1 hm with hm | hm
      · cases hm
      rcases List.mem_append.1 hm with hm | hm
      · rcases (c1 _ hm).2 _ _ _ _ rfl with ⟨-, h⟩ | ⟨-, -, h⟩
        · exact h
        · cases h
      · simp at hm
    · right
      cases f2 with
      | @search _ _ _ _ _ _ _ vt' w flags p1 p2 p3 f3 =>
        have htok : TOK o.greatest pos z1 := f1.tok TOK.empty c1 (fun e he x hx => Nat.le_of_lt (c2 x (List.mem_filterMap.2 ⟨e, he, hx⟩)))
        obtain ⟨b, hb1, hb2, hb3, hb4⟩ := ladder_edge (by omega) htok p2
        rw [hl] at hb1
        cases hb1
        exact ⟨hc, p1, hb3, hb4, fun v hv hg => p3 _ _ (hb2 v hv hg)⟩

end Katie.Alg

namespace Katie.Client
open Katie Katie.Wire Katie.Alg Katie.Ladder Katie.Server Katie.CommittedSpec Katie.SearchTree Katie.SearchSpec Katie.Props

/-- the versions of the binary ladder of an update response; the first new version is not one of them -/
theorem updateLadderVersions_mem {s e : Nat} {l : List Nat} (h : updateLadderVersions s e = .ok l) :
    ∃ le drop, searchBinaryLadder e e [] [] = .ok le ∧ (if s = 0 then drop = [0] else searchBinaryLadder (s - 1) (s - 1) [] [] = .ok drop) ∧
      ∀ v, v ∈ l ↔ (v ∈ le ∨ (s ≤ v ∧ v < e)) ∧ v ∉ drop := by
  unfold updateLadderVersions at h
  obtain ⟨le, h1, h⟩ := G.bind_eq_ok.1 h
  have key : ∀ drop : List Nat, l = sortedSet ((le ++ (List.range (e - s)).map (s + ·)).filter (fun v => ¬ drop.contains v)) →
      ∀ v, v ∈ l ↔ (v ∈ le ∨ (s ≤ v ∧ v < e)) ∧ v ∉ drop := by
    rintro drop rfl v
    rw [sortedSet_mem, List.mem_filter, List.mem_append, List.mem_map]
    simp only [List.mem_range, List.contains_eq_mem, decide_eq_true_eq, Bool.not_eq_true, decide_eq_false_iff_not]
    refine and_congr (or_congr Iff.rfl ⟨?_, ?_⟩) (by simp)
    · rintro ⟨i, hi, rfl⟩; omega
    · rintro ⟨a, b⟩; exact ⟨v - s, by omega, by omega⟩
  by_cases hs : s = 0
  · simp only [hs, if_true, G.pure_eq, G.ok_bind] at h
    refine ⟨le, [0], h1, by simp [hs], key [0] ?_⟩
    rw [hs]
    exact (Except.ok.inj h).symm
  · simp only [hs, if_false] at h
    obtain ⟨d, h2, h⟩ := G.bind_eq_ok.1 h
    refine ⟨le, d, h1, by simp [hs, h2], key d ?_⟩
    exact (Except.ok.inj h).symm

theorem next_in_ladder {v : Nat} {l : List Nat} (hv : v < 2 ^ 32) (h : searchBinaryLadder v v [] [] = .ok l) : v + 1 ∈ l := by
  have hsmall : v < 2 ^ 31 - 1 := by
    by_contra hc
    unfold searchBinaryLadder baseBinaryLadder at h
    rw [base_diverges (by omega) hv] at h
    cases h
  obtain ⟨b, hb, hbis, -⟩ := baseBinaryLadder_ok hsmall
  have hb' : searchBinaryLadder v v [] [] = .ok b := by
    unfold searchBinaryLadder
    rw [hb, G.ok_bind, searchLoop_self]
    simp
  rw [h] at hb'
  cases hb'
  exact (List.mem_filter.1 (Alg.getLast?_mem hbis.highEnd)).1

/-- The first new version is not in the binary ladder of an update response. -/
theorem first_not_in_ladder {s e : Nat} {l : List Nat} (hs : s < 2 ^ 32) (h : updateLadderVersions s e = .ok l) : s ∉ l := by
  obtain ⟨le, drop, -, h2, h3⟩ := updateLadderVersions_mem h
  intro hm
  refine ((h3 s).1 hm).2 ?_
  by_cases h0 : s = 0
  · rw [if_pos h0] at h2; simp [h2, h0]
  · rw [if_neg h0] at h2
    have := next_in_ladder (by omega) h2
    rwa [show s - 1 + 1 = s by omega] at this

theorem updateLadderVersions_lt {s e : Nat} {l : List Nat} (he : e < 2 ^ 32) (h : updateLadderVersions s e = .ok l) : ∀ v ∈ l, v < 2 ^ 32 := by
  obtain ⟨le, drop, h1, -, h3⟩ := updateLadderVersions_mem h
  intro v hv
  rcases ((h3 v).1 hv).1 with hv | hv
  · exact searchBinaryLadder_lt h1 v hv
  · omega

/-- the commitments that the owner computes for the new versions -/
theorem updateCommitments_lookup {env : CEnv} {label : Bytes} {startVer : Nat} :
    ∀ (l : List (Bytes × UpdateInfo)) (i : Nat) (coms : List (Nat × Bytes)), startVer + i + l.length ≤ 2 ^ 32 →
    updateCommitments env label startVer i l = .ok coms →
    (∀ v, v < startVer + i → coms.lookup v = none) ∧
    ∀ (j : Nat) (val : Bytes) (info : UpdateInfo), l[j]? = some (val, info) →
      ∃ c, computeCommitment env info.opening label (startVer + (i + j)) ⟨val, info.signature⟩ = .ok c ∧ coms.lookup (startVer + (i + j)) = some c := by
  intro l
  induction l with
  | nil => intro i coms _ h; cases h; exact ⟨fun _ _ => rfl, fun j val info hj => by simp at hj⟩
  | cons e l ih =>
    obtain ⟨val, info⟩ := e
    intro i coms hlen h
    simp only [List.length_cons] at hlen
    unfold updateCommitments at h
    obtain ⟨_, -, h⟩ := G.bind_eq_ok.1 h
    obtain ⟨c, hc, h⟩ := G.bind_eq_ok.1 h
    obtain ⟨more, h2, h⟩ := G.bind_eq_ok.1 h
    have h := Except.ok.inj h
    have hmod : (startVer + i) % 2 ^ 32 = startVer + i := Nat.mod_eq_of_lt (by omega)
    rw [hmod] at h hc
    subst h
    obtain ⟨k1, k2⟩ := ih (i + 1) more (by omega) h2
    constructor
    · intro v hv
      rw [List.lookup_cons]
      have : (v == startVer + i) = false := by simp; omega
      rw [this]
      exact k1 v (by omega)
    · intro j val' info' hj
      cases j with
      | zero =>
        simp only [List.getElem?_cons_zero, Option.some.injEq, Prod.mk.injEq] at hj
        obtain ⟨rfl, rfl⟩ := hj
        exact ⟨c, hc, by simp⟩
      | succ j =>
        rw [List.getElem?_cons_succ] at hj
        obtain ⟨c', e1, e2⟩ := k2 j val' info' hj
        rw [show i + 1 + j = i + (j + 1) by omega] at e1 e2
        refine ⟨c', e1, ?_⟩
        rw [List.lookup_cons]
        have : (startVer + (i + (j + 1)) == startVer + i) = false := by simp
        rw [this]
        exact e2

/-- the versions of a ladder are not known before it is processed -/
theorem processSteps_fresh {env : CEnv} {label : Bytes} {manual : List (Nat × Bytes)} : ∀ (l : List (Nat × BinaryLadderStep)) (v w : Verifier),
    processSteps env label manual l v = .ok w → ∀ ver ∈ l.map Prod.fst, v.p.state.versions.lookup ver = none
  | [], _, _, _, ver, hm => by cases hm
  | (ver0, step) :: l, v, w, h, ver, hm => by
    unfold processSteps at h
    obtain ⟨i, -, h⟩ := G.bind_eq_ok.1 h
    obtain ⟨o, -, h⟩ := G.bind_eq_ok.1 h
    obtain ⟨c, -, h⟩ := G.bind_eq_ok.1 h
    obtain ⟨u, h1, h⟩ := G.bind_eq_ok.1 h
    obtain ⟨n1, n2⟩ := addVersion_known h1
    rcases List.mem_cons.1 hm with rfl | hm
    · exact n1
    · have := processSteps_fresh l u w h ver hm
      rw [n2, List.lookup_cons] at this
      split at this
      · cases this
      · exact this

theorem processLadder_fresh {env : CEnv} {label : Bytes} {ladder : List BinaryLadderStep} {vers : List Nat}
    {manual : List (Nat × Bytes)} {v w : Verifier} (h : processLadder env label ladder vers manual v = .ok w) :
    ∀ ver ∈ vers, v.p.state.versions.lookup ver = none := by
  unfold processLadder at h
  split at h
  · cases h
  next hlen =>
  intro ver hm
  refine processSteps_fresh _ _ _ h ver ?_
  rw [List.map_fst_zip (by omega)]
  exact hm

/-- the values that an update response is checked for: its own, or else those of the request -/
def Stream.valuesOf (sv : Stream) (res : UpdateResponse) : List Bytes := if res.values = [] then sv.req.values else res.values

/-- the steps of `StreamVerifier.Verify` when it accepts -/
theorem verify_parts {env : CEnv} {now : Nat} {sv sv' : Stream} {res : UpdateResponse} {st st' : CStore} {s : ClientState} {o : LabelOwnerState}
    (hstate : sv.state = some s) (ho : sv.ls.owner = some o) (h : sv.verify env now res st = .ok (sv', st')) :
    ∃ coms ladder v0 v1 v2 v3 v4 m m' contact updated ls',
      0 < res.info.length ∧ res.info.length = (sv.valuesOf res).length ∧
      updateCommitments env sv.req.label (nextVersion o) 0 ((sv.valuesOf res).zip res.info) = .ok coms ∧
      updateLadderVersions (nextVersion o) ((nextVersion o + (res.info.length - 1)) % 2 ^ 32) = .ok ladder ∧
      newVerifier (some s) (some s.treeHead.treeSize) res.fullTreeHead res.update = .ok v0 ∧ Frame v0 v1 ∧
      (∃ Vs, v1.p = { v0.p with state := { v0.p.state with versions := Vs } }) ∧
      (∀ ver k, v1.p.state.versions.lookup ver = some k → v0.p.state.versions.lookup ver = some k ∨
        (∃ r ∈ sv.ls.versions, r.version = ver ∧ k.vrf = r.vrfOutput ∧ k.com = r.commitment) ∨
        KnownBy env sv.req.label coms ladder ver k) ∧
      (∀ ver k, v1.p.state.versions.lookup ver = some k → ver ∈ ladder → KnownBy env sv.req.label coms ladder ver k) ∧
      verifyValues env sv (if res.values.length = 0 then sv.req.values else res.values) res = .ok (nextVersion o, coms) ∧
      (∃ va, addRetainedVersions env sv.ls.versions v0 = .ok va ∧ processLadder env sv.req.label res.binaryLadder ladder coms va = .ok v1) ∧
      v1.updateView env now = .ok v2 ∧
      v2.run env (updateProg env.cfg v2.n (contactMap sv.ls.contact) (some (ServedSpec.ownerOf o)) res.position res.info.length) = .ok (m, v3) ∧
      v3.finish env = .ok (updated, v4) ∧ contactStruct? m.contact = .ok contact ∧ m.owner = some m' ∧
      updateRetainedVersions { sv.ls with contact := contact, owner := some ⟨m'.starting, m'.verAtStarting, m'.upcoming⟩ } v4.p.state = .ok ls' ∧
      putLabelState st updated sv.req.label ls' m'.starting = .ok st' ∧ sv' = ⟨some updated, ls', sv.req⟩ ∧
      v4.p.state.versions = v1.p.state.versions := by
  have he : (if res.values.length = 0 then sv.req.values else res.values) = sv.valuesOf res := by
    unfold Stream.valuesOf
    cases res.values <;> simp
  unfold Stream.verify at h
  rw [he, hstate, ho] at h
  obtain ⟨⟨startVer, coms⟩, hv, h'⟩ := G.bind_eq_ok.1 h
  clear h
  have hvv := hv
  unfold verifyValues at hv
  split at hv
  · cases hv
  next hlen =>
  rw [ho] at hv
  simp only at hv
  obtain ⟨coms', hv1, hv⟩ := G.bind_eq_ok.1 hv
  have hv1 : updateCommitments env sv.req.label (nextVersion o) 0 ((sv.valuesOf res).zip res.info) = .ok coms' := by
    rw [← nextVersion_eq]; exact hv1
  have hv : (nextVersion o, coms') = (startVer, coms) := by
    rw [← nextVersion_eq]; exact Except.ok.inj hv
  obtain ⟨rfl, rfl⟩ := Prod.mk.inj hv
  rename' h' => h
  obtain ⟨ladder, hl, h⟩ := G.bind_eq_ok.1 h
  obtain ⟨_, -, h⟩ := G.bind_eq_ok.1 h
  obtain ⟨v0, h0, h⟩ := G.bind_eq_ok.1 h
  obtain ⟨va, h1, h⟩ := G.bind_eq_ok.1 h
  obtain ⟨v1, h1b, h⟩ := G.bind_eq_ok.1 h
  obtain ⟨v2, h2, h⟩ := G.bind_eq_ok.1 h
  obtain ⟨⟨m0, vb⟩, ha, h⟩ := G.bind_eq_ok.1 h
  obtain ⟨⟨m, v3⟩, hb, h⟩ := G.bind_eq_ok.1 h
  obtain ⟨⟨updated, v4⟩, h4, h⟩ := G.bind_eq_ok.1 h
  obtain ⟨contact, hc, h⟩ := G.bind_eq_ok.1 h
  have h3 : v2.run env (updateProg env.cfg v2.n (contactMap sv.ls.contact) (some (ServedSpec.ownerOf o)) res.position res.info.length) =
      .ok (m, v3) := run_seq ha hb
  obtain ⟨⟨Vs1, e1⟩, e2⟩ := addRetainedVersions_versions _ _ _ h1
  obtain ⟨⟨Vs2, e3⟩, e4⟩ := processLadder_versions h1b
  cases hm : m.owner with
  | none => rw [hm] at h; cases h
  | some m' =>
    rw [hm] at h
    simp only at h
    obtain ⟨ls', h6, h⟩ := G.bind_eq_ok.1 h
    obtain ⟨st2, h7, h⟩ := G.bind_eq_ok.1 h
    have h := Except.ok.inj h
    cases h
    refine ⟨coms', ladder, v0, v1, v2, v3, v4, m, m', contact, updated, ls', by omega, by omega, hv1, hl, h0,
      (addRetainedVersions_frame h1).trans (processLadder_frame h1b), ⟨Vs2, ?_⟩, ?_, ?_, by rw [he]; exact hvv, ⟨va, h1, h1b⟩, h2, h3, h4, hc, hm, h6, h7, rfl, ?_⟩
    · rw [e3, e1]
    · intro ver k hk
      rcases e4 ver k hk with hk | hk
      · rcases e2 ver k hk with hk | hk
        · exact Or.inl hk
        · exact Or.inr (Or.inl hk)
      · exact Or.inr (Or.inr hk)
    · intro ver k hk hm
      rcases e4 ver k hk with hk | hk
      · rw [processLadder_fresh h1b ver hm] at hk; cases hk
      · exact hk
    · rw [verifierFinish_known h4, run_known h3, updateView_known h2]

end Katie.Client
