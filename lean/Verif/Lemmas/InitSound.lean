import Verif.Lemmas.ClientVersions
import Verif.Props.C69_MonitorSound
import Verif.Props.C30_OwnerMonitor

/-
Lemmas for C72: the client accepts the answer to an initialization request.
-/

namespace Katie.Alg
open Katie Katie.Wire Katie.Ladder Katie.SearchTree Katie.SearchSpec Prog

theorem initWalk_noCatch {m : Monitor} {s : Nat} : ∀ (fuel x l r : Nat), NoCatch (initWalk m s fuel x l r) := by
  intro fuel
  induction fuel with
  | zero => intro x l r; exact (.ret _)
  | succ fuel ih =>
    intro x l r
    unfold initWalk
    refine .ite (.ret _) (.bind (.call _) (fun ts => ?_))
    refine .ite (.ite (.ret _) (.bind (.ret _) (fun c => .bind (ih _ _ _) (fun _ => (.ret _))))) ?_
    exact .ite (.ite (.ret _) (.ret _)) (.ite (.ret _) (.bind (.ret _) (fun c => ih _ _ _)))

theorem initLadders_noCatch : ∀ (xs vs : List Nat), NoCatch (initLadders xs vs) := by
  intro xs
  induction xs with
  | nil => intro vs; exact (.ret _)
  | cons x xs ih =>
    intro vs
    cases vs with
    | nil =>
      unfold initLadders
      exact .bind (.call _) (fun _ => .ite (.ret _) (ih _))
    | cons v vs =>
      unfold initLadders
      exact .bind (.call _) (fun _ => .ite (.ret _) (ih _))

theorem initWalk_reads {m : Monitor} {s : Nat} : ∀ (fuel x l r : Nat), OnlyReads (initWalk m s fuel x l r) := by
  intro fuel
  induction fuel with
  | zero => intro x l r; exact trivial
  | succ fuel ih =>
    intro x l r
    unfold initWalk
    refine .ite trivial (.bind (.call rfl) (fun ts => ?_))
    refine .ite (.ite trivial (.bind trivial (fun c => .bind (ih _ _ _) (fun _ => trivial)))) ?_
    exact .ite (.ite trivial trivial) (.ite trivial (.bind trivial (fun c => ih _ _ _)))

theorem initLadders_reads : ∀ (xs vs : List Nat), OnlyReads (initLadders xs vs) := by
  intro xs
  induction xs with
  | nil => intro vs; exact trivial
  | cons x xs ih =>
    intro vs
    cases vs with
    | nil =>
      unfold initLadders
      exact .bind (.call rfl) (fun _ => .ite trivial (ih _))
    | cons v vs =>
      unfold initLadders
      exact .bind (.call rfl) (fun _ => .ite trivial (ih _))

/-- the whole of an initialization -/
def initProg (cfg : Config) (n s : Nat) (vers : List Nat) : Prog (Monitor × List Nat) := do
  let m ← newMonitor cfg n
  ownerInit m s vers

theorem initProg_noCatch {cfg : Config} {n s : Nat} {vers : List Nat} : NoCatch (initProg cfg n s vers) := by
  unfold initProg ownerInit initEntries
  refine .bind newMonitor_noCatch (fun m => .ite (.ret _) (.bind (initWalk_noCatch _ _ _ _) (fun xs => ?_)))
  exact .ite (.ret _) (.ite (.ret _) (.bind (initLadders_noCatch _ _) (fun _ => (.ret _))))

theorem initProg_reads {cfg : Config} {n s : Nat} {vers : List Nat} : OnlyReads (initProg cfg n s vers) := by
  unfold initProg ownerInit initEntries
  refine .bind newMonitor_reads (fun m => .ite trivial (.bind (initWalk_reads _ _ _ _) (fun xs => ?_)))
  exact .ite trivial (.ite trivial (.bind (initLadders_reads _ _) (fun _ => trivial)))

theorem initProg_parts {cfg : Config} {n s : Nat} {vers xs : List Nat} {tr : List Ev} {m : Monitor} {ts : Nat → Nat}
    (hT : TsTrace tr ts) (h : Runs (initProg cfg n s vers) tr (.ok (m, xs))) :
    0 < n ∧ ∃ tr1, (∀ e ∈ tr1, e ∈ tr) ∧ TsTrace tr1 ts ∧
      Runs (ownerInit ⟨cfg, ts (n - 1), n, none, none⟩ s vers) tr1 (.ok (m, xs)) := by
  unfold initProg at h
  obtain ⟨m0, t1, t2, e1, h1, h'⟩ := runs_bind_ok.1 h
  subst e1
  unfold newMonitor at h1
  by_cases hn : n = 0
  · rw [if_pos hn] at h1; cases h1
  rw [if_neg hn] at h1
  obtain ⟨t, t11, t12, e1, h11, h12⟩ := runs_bind_ok.1 h1
  subst e1
  obtain ⟨e3, e4⟩ := runs_pure.1 h12
  have e4 := Except.ok.inj e4
  subst e3 e4
  have e5 := runs_call.1 h11
  subst e5
  have ht : t = ts (n - 1) := hT (n - 1) t List.mem_cons_self
  subst ht
  exact ⟨by omega, t2, fun e he => by simp [he], hT.right, h'⟩

end Katie.Alg

namespace Katie.Client
open Katie Katie.Wire Katie.Alg Katie.Ladder Katie.Server Katie.CommittedSpec Katie.SearchTree Katie.SearchSpec Katie.Props

/-- two runs, one after the other, are a run of the whole -/
theorem run_seq {α β : Type} {env : CEnv} {v w u : Verifier} {p : Prog α} {f : α → Prog β} {a : α} {b : β}
    (h1 : v.run env p = .ok (a, w)) (h2 : w.run env (f a) = .ok (b, u)) : v.run env (p >>= f) = .ok (b, u) := by
  obtain ⟨fa, ra⟩ := run_frame h1
  obtain ⟨fb, rb⟩ := run_frame h2
  have hp : v.p.run (Received.handle env.cs) (p >>= f) = (.ok b, u.p) := by
    rw [run_bind, ra]
    exact rb
  unfold Verifier.run
  rw [hp]
  simp only
  have : ({ v with p := u.p } : Verifier) = u := by
    obtain ⟨f1, f2, f3, f4, f5⟩ := fa.trans fb
    cases u
    simp only at f1 f2 f3 f4 f5
    simp only [f1, f2, f3, f4, f5]
  rw [this]

/-- A client whose state is right for the log accepts an answer: the answer has no new tree head (see C43), the root hash is that
of the log, and the new state has the same tree head. -/
theorem same_head {env : CEnv} {W : List Content} (hcs : env.cs.Good) (hlog : WellFormed env.cs W) {s updated : ClientState} {now : Nat}
    (hsize : s.treeHead.treeSize = W.length) (hret : Props.Retains env.cs W s.fullSubtrees s.logEntries) {fth : FullTreeHead}
    {proof : CombinedTreeProof} {v0 v1 v2 v3 v4 : Verifier} {Vs : Versions} {α : Type} {prog : Prog α} {a : α}
    (h0 : newVerifier (some s) (some s.treeHead.treeSize) fth proof = .ok v0) (hF01 : Frame v0 v1)
    (b1 : v1.p = { v0.p with state := { v0.p.state with versions := Vs } }) (h2 : v1.updateView env now = .ok v2)
    (h3 : v2.run env prog = .ok (a, v3)) (h4 : v3.finish env = .ok (updated, v4)) :
    fth.treeHead = none ∧ v3.n = W.length ∧ (∀ k ∈ v3.m, k ≤ v3.n) ∧
    ∃ result p, v3.p.finish env.cs (Received.handle env.cs) v3.n v3.nP v3.m = (.ok result, p) ∧
      Log.root env.cs v3.n result.fullSubtrees = .ok (logRoot env.cs W) ∧ updated.treeHead = s.treeHead ∧
      updated.fullSubtrees = result.fullSubtrees ∧ updated.logEntries = result.logEntries := by
  obtain ⟨result, p, root, rootP, hf, hroot, -, hth, hns, hF34⟩ := finish_ok h4
  obtain ⟨e1, e2, e3, -, e5, -⟩ := newVerifier_ok h0
  have hst : EntriesOk env.cs W (some s) := by
    intro s' hs' e he
    cases hs'
    exact hret.entries e he
  obtain ⟨-, hR, -, hfull⟩ := setup_begun hlog hst h0 b1 h2
  have hF23 := (run_frame h3).1
  have hF03 := (hF01.trans (updateView_frame h2).1).trans hF23
  have hmsz := updateView_size h2
  have hnone : fth.treeHead = none := by
    cases hh : fth.treeHead with
    | none => rfl
    | some th =>
      exfalso
      unfold verifyTreeHead at hth
      dsimp only at hth
      rw [hF03.fth, e2, hh, hF03.state, e1] at hth
      dsimp only at hth
      rw [if_pos] at hth
      · cases hth
      · simp only [Option.any_some, decide_eq_true_eq]
        have := hmsz s.treeHead.treeSize (by rw [hF01.m, e3]; rfl)
        rw [hF01.n] at this
        rw [hF03.n]
        exact this
  have hn : v3.n = W.length := by
    rw [hF03.n]
    unfold treeSizeOf at e5
    rw [hnone] at e5
    rw [← Except.ok.inj e5]
    exact hsize
  have hm : v3.m = some v3.n := by rw [hF03.m, e3, hsize, hn]
  obtain ⟨g3, m3, -⟩ := run_spec (Received.handle env.cs) prog v2.p hR.ts
  rw [(run_frame h3).2] at g3 m3
  have hsub : result.fullSubtrees = LogSpec.heads env.cs.H (leaves env.cs W) := by
    have hf' := hf
    rw [hm] at hf'
    rw [finish_same m3 hf', g3.full, hfull]
    exact hret.heads
  obtain ⟨hpos, hmax⟩ := logRoot_size hroot
  have hroot' : Log.root env.cs v3.n result.fullSubtrees = .ok (logRoot env.cs W) := by
    have hlen : (leaves env.cs W).length = W.length := leaves_length
    have := Log.root_heads hcs (L := leaves env.cs W) (by
      intro v hv
      obtain ⟨c, -, rfl⟩ := List.mem_map.1 hv
      exact hcs.len _) (by rw [hlen, ← hn]; exact hpos) (by rw [hlen, ← hn]; exact hmax)
    rw [hn, hsub, ← hlen]
    exact this
  refine ⟨hnone, hn, ?_, result, p, hf, hroot', ?_⟩
  · rw [hm]
    rintro k ⟨⟩
    exact le_refl _
  · unfold newState at hns
    rw [hF34.state, hF03.state, e1, hF34.fth, hF03.fth, e2, hnone] at hns
    have := Except.ok.inj hns
    subst this
    exact ⟨rfl, rfl, rfl⟩

/-- what was known before the retained versions were added is still known -/
theorem addRetainedVersions_keeps {env : CEnv} : ∀ (rs : List RetainedVersion) (v w : Verifier), addRetainedVersions env rs v = .ok w →
    ∀ ver k, v.p.state.versions.lookup ver = some k → w.p.state.versions.lookup ver = some k
  | [], v, w, h, ver, k, hk => by cases h; exact hk
  | r :: rs, v, w, h, ver, k, hk => by
    unfold addRetainedVersions at h
    obtain ⟨u, h1, h⟩ := G.bind_eq_ok.1 h
    obtain ⟨n1, n2⟩ := addVersion_known h1
    refine addRetainedVersions_keeps rs u w h ver k ?_
    rw [n2, List.lookup_cons]
    split
    · next he =>
      rw [beq_iff_eq] at he
      subst he
      rw [n1] at hk; cases hk
    · exact hk

theorem ladders_mem : ∀ {vs l : List Nat}, ladders vs = .ok l → ∀ u, u ∈ l ↔ ∃ v ∈ vs, ∃ m, searchBinaryLadder v v [] [] = .ok m ∧ u ∈ m
  | [], l, h, u => by cases h; simp
  | v :: vs, l, h, u => by
    unfold ladders at h
    obtain ⟨m, h1, h⟩ := G.bind_eq_ok.1 h
    obtain ⟨rest, h2, h⟩ := G.bind_eq_ok.1 h
    cases h
    rw [List.mem_append, ladders_mem h2 u]
    constructor
    · rintro (h | ⟨w, h3, h4⟩)
      · exact ⟨v, List.mem_cons_self, m, h1, h⟩
      · exact ⟨w, List.mem_cons_of_mem _ h3, h4⟩
    · rintro ⟨w, h3, m', h4, h5⟩
      rcases List.mem_cons.1 h3 with rfl | h3
      · rw [h1] at h4; cases h4; exact Or.inl h5
      · exact Or.inr ⟨w, h3, m', h4, h5⟩

theorem allLadderVersions_mem {vs l : List Nat} (h : allLadderVersions vs = .ok l) (u : Nat) :
    u ∈ l ↔ u = 0 ∨ ∃ v ∈ vs, ∃ m, searchBinaryLadder v v [] [] = .ok m ∧ u ∈ m := by
  unfold allLadderVersions at h
  obtain ⟨a, h1, h⟩ := G.bind_eq_ok.1 h
  cases h
  rw [sortedSet_mem, List.mem_cons, ladders_mem h1]

theorem allLadderVersions_lt {vs l : List Nat} (h : allLadderVersions vs = .ok l) : ∀ v ∈ l, v < 2 ^ 32 := by
  intro u hu
  rcases (allLadderVersions_mem h u).1 hu with rfl | ⟨v, -, m, h1, h2⟩
  · norm_num
  · exact searchBinaryLadder_lt h1 u h2

/-- what is retained for the owner of a label has the versions of the ladder of the starting version -/
theorem updateRetainedVersions_start {ls ls' : ClientLabelState} {s : Received} (h : updateRetainedVersions ls s = .ok ls')
    {o : LabelOwnerState} (ho : ls.owner = some o) {v : Nat} (hv : o.verAtStarting = v) (h32 : v < 2 ^ 32) {m : List Nat}
    (hm : searchBinaryLadder v v [] [] = .ok m) {u : Nat} (hu : u ∈ m) :
    ∃ r ∈ ls'.versions, r.version = u := by
  unfold updateRetainedVersions at h
  obtain ⟨a, ha, h⟩ := G.bind_eq_ok.1 h
  obtain ⟨b, hb, h⟩ := G.bind_eq_ok.1 h
  obtain ⟨vs, h1, h⟩ := G.bind_eq_ok.1 h
  have h := Except.ok.inj h
  subst h
  have h2 := (retainAll_mem h1).2
  have h3 : u ∈ sortedSet (a ++ b) := by
    refine sortedSet_mem.2 (List.mem_append.2 (Or.inr ?_))
    rw [ho] at hb
    unfold ownerRequired at hb
    refine (allLadderVersions_mem hb u).2 (Or.inr ⟨v, ?_, m, hm, hu⟩)
    rw [hv]
    simp only [ge_iff_le, Int.natCast_nonneg, if_true, Int.toNat_natCast, Nat.mod_eq_of_lt h32]
    simp
  rw [← h2] at h3
  obtain ⟨r, hr, hr0⟩ := List.mem_map.1 h3
  exact ⟨r, hr, hr0⟩

end Katie.Client
