import Verif.Lemmas.ServeMonitor
import Verif.Lemmas.InitSound
import Verif.Spec.Initialized

/-
The initialization of a label owner against an honest server.
-/

namespace Katie.Alg
open Katie Katie.Wire Katie.Ladder Katie.Props Katie.SearchSpec Katie.SearchTree Katie.ServedSpec Prog

/-! ### the algorithm -/

section
variable {ts : Nat → Nat} {g : Nat → Int} {n : Nat} {W : Req → Prop}

/-- the entries that are inspected: the starting position and entries left of it, from right to left -/
structure InitList (lo s : Nat) (xs : List Nat) : Prop where
  head : xs.head? = some s
  decr : xs.Pairwise (· > ·)
  range : ∀ x ∈ xs, lo ≤ x ∧ x ≤ s

theorem initWalk_sv {m : Monitor} {s : Nat} (ht : GoodTimes ts n) (hn : m.treeSize = n) (hs : s < n)
    (hex : m.cfg.isExpired (ts s) m.rightmost = false) (hmono : ∀ y, s < y → y < n → m.cfg.isExpired (ts y) m.rightmost = false)
    (hW : ∀ x v, ¬ W (.search x v true)) (hts : ∀ x, x < n → W (.ts x)) :
    ∀ (fuel lo hi : Nat) (anc : List Nat), At n lo hi anc → hi - lo < fuel →
      DistIn (Wide m.cfg.rmw) ts lo hi (lb ts lo) (rb ts n hi) s →
      ∃ xs, InitList lo s xs ∧ ∀ b, Sv ts g n W false b (initWalk m s fuel (rt lo hi) (lb ts lo) (rb ts n hi))
        (fun st' _ a => st' = false ∧ a = xs) := by
  intro fuel
  induction fuel with
  | zero => intro lo hi anc h hf; omega
  | succ fuel ih =>
    intro lo hi anc h hf hd
    have hb := h.bounds
    have hdc : m.cfg.isDistinguished (lb ts lo) (rb ts n hi) = true :=
      (isDistinguished_iff (lb_le_rb ht (by omega) hb.2.2) (rb_lt ht hb.2.2 h.pos)).2 hd.d
    unfold initWalk
    rcases Nat.lt_trichotomy (rt lo hi) s with hlt | heq | hgt
    · obtain ⟨h1, h2⟩ := hd.right_inv hlt
      have elb : lb ts (rt lo hi + 1) = ts (rt lo hi) := by unfold lb; rw [if_neg (by omega)]; rfl
      rw [← elb] at h2
      obtain ⟨xs, hx, hsv⟩ := ih _ _ _ (.right h (by omega)) (by omega) h2
      refine ⟨if m.cfg.isExpired (ts (rt lo hi)) m.rightmost then xs else xs ++ [rt lo hi], ?_, fun b => ?_⟩
      · split
        · exact ⟨hx.head, hx.decr, fun x h => by have := hx.range x h; omega⟩
        · refine ⟨?_, ?_, ?_⟩
          · have := hx.head
            cases xs with
            | nil => cases this
            | cons a l => exact this
          · rw [List.pairwise_append]
            refine ⟨hx.decr, by simp, ?_⟩
            intro a ha b hb
            rw [List.mem_singleton] at hb
            have := hx.range a ha
            omega
          · intro x hx'
            rcases List.mem_append.1 hx' with h | h
            · have := hx.range x h; omega
            · rw [List.mem_singleton] at h; omega
      · refine .ite (fun h => absurd hdc h) (fun _ => ?_)
        refine .bind hW (.getTs (by omega) (hts _ (by omega))) ?_
        rintro st1 b1 t - - ⟨rfl, rfl⟩
        simp only []
        rw [if_pos hlt]
        refine .ite (fun hnr => ?_) (fun _ => ?_)
        · rw [hn] at hnr
          have := (noRightChild_iff h).1 hnr
          omega
        refine .bind hW (.lift (Q := fun st' _ c => st' = false ∧ c = rt (rt lo hi + 1) hi) (by rw [hn]; exact right_rt h (by omega)) ⟨rfl, rfl⟩) ?_
        rintro st2 b3 c - - ⟨rfl, rfl⟩
        have := hsv b3
        rw [elb] at this
        refine .bind hW this ?_
        rintro st3 b4 ch - - ⟨rfl, rfl⟩
        exact .pure ⟨rfl, rfl⟩
    · refine ⟨[rt lo hi], ⟨by rw [heq]; rfl, by simp, ?_⟩, fun b => ?_⟩
      · intro x hx
        rw [List.mem_singleton] at hx
        omega
      · refine .ite (fun h => absurd hdc h) (fun _ => ?_)
        refine .bind hW (.getTs (by omega) (hts _ (by omega))) ?_
        rintro st1 b1 t - - ⟨rfl, rfl⟩
        simp only []
        rw [if_neg (by omega), if_pos heq, if_neg (by rw [heq, hex]; simp)]
        exact .pure ⟨rfl, rfl⟩
    · obtain ⟨h1, h2⟩ := hd.left_inv hgt
      have erb : rb ts n (rt lo hi) = ts (rt lo hi) := by unfold rb; rw [if_neg (by omega)]
      rw [← erb] at h2
      obtain ⟨xs, hx, hsv⟩ := ih _ _ _ (.left h (by omega)) (by omega) h2
      refine ⟨xs, hx, fun b => ?_⟩
      refine .ite (fun h => absurd hdc h) (fun _ => ?_)
      refine .bind hW (.getTs (by omega) (hts _ (by omega))) ?_
      rintro st1 b1 t - - ⟨rfl, rfl⟩
      simp only []
      rw [if_neg (by omega), if_neg (by omega), if_neg]
      rotate_left
      · rintro (hc | hc)
        · have := (noLeftChild_iff h).1 hc
          omega
        · rw [hmono _ hgt (by omega)] at hc
          cases hc
      refine .bind hW (.lift (Q := fun st' _ c => st' = false ∧ c = rt lo (rt lo hi)) (a := rt lo (rt lo hi))
        (by rw [left_rt h, if_pos (by omega)]) ⟨rfl, rfl⟩) ?_
      rintro st2 b3 c - - ⟨rfl, rfl⟩
      have := hsv b3
      rw [erb] at this
      exact this

/-- the versions at the entries, up to the first entry without one -/
def versionsAt (g : Nat → Int) : List Nat → List Nat
  | [] => []
  | x :: xs => if g x < 0 then [] else (g x).toNat :: versionsAt g xs

theorem versionsAt_length : ∀ xs : List Nat, (versionsAt g xs).length ≤ xs.length
  | [] => le_refl _
  | x :: xs => by
    unfold versionsAt
    split
    · simp
    · have := versionsAt_length xs
      simp only [List.length_cons]
      omega

theorem versionsAt_mem : ∀ {xs : List Nat} {v : Nat}, v ∈ versionsAt g xs → ∃ x ∈ xs, g x = v
  | [], v, h => by cases h
  | x :: xs, v, h => by
    unfold versionsAt at h
    split at h
    · cases h
    · rcases List.mem_cons.1 h with rfl | h
      · exact ⟨x, List.mem_cons_self, by omega⟩
      · obtain ⟨y, h1, h2⟩ := versionsAt_mem h
        exact ⟨y, List.mem_cons_of_mem _ h1, h2⟩

theorem mem_versionsAt (hmono : ∀ x y, x ≤ y → g x ≤ g y) : ∀ {xs : List Nat}, xs.Pairwise (· > ·) → ∀ {x : Nat}, x ∈ xs → 0 ≤ g x →
    (g x).toNat ∈ versionsAt g xs
  | [], _, x, h, _ => by cases h
  | y :: xs, hp, x, h, hx => by
    rw [List.pairwise_cons] at hp
    have hy : 0 ≤ g y := by
      rcases List.mem_cons.1 h with rfl | h
      · exact hx
      · exact hx.trans (hmono _ _ (Nat.le_of_lt (hp.1 x h)))
    unfold versionsAt
    rw [if_neg (by omega)]
    rcases List.mem_cons.1 h with rfl | h
    · exact List.mem_cons_self
    · exact List.mem_cons_of_mem _ (mem_versionsAt hmono hp.2 h hx)

theorem versionsAt_nonIncreasing (hmono : ∀ x y, x ≤ y → g x ≤ g y) : ∀ {xs : List Nat}, xs.Pairwise (· > ·) →
    nonIncreasing (versionsAt g xs) = true
  | [], _ => rfl
  | [x], _ => by unfold versionsAt; split <;> rfl
  | x :: y :: xs, hp => by
    have hxy := (List.pairwise_cons.1 hp).1 y List.mem_cons_self
    have ih := versionsAt_nonIncreasing hmono (List.pairwise_cons.1 hp).2
    have := hmono y x (Nat.le_of_lt hxy)
    unfold versionsAt
    split
    · rfl
    · next hx =>
      unfold versionsAt at ih ⊢
      split
      · rfl
      · next hy =>
        rw [if_neg hy] at ih
        simp only [nonIncreasing, Bool.and_eq_true, decide_eq_true_eq]
        exact ⟨by omega, ih⟩

theorem initLadders_sv (hmono : ∀ x y, x ≤ y → g x ≤ g y) (hgv : ∀ x, g x < 2 ^ 31 - 1) (hW : ∀ x v, ¬ W (.search x v true)) :
    ∀ (xs : List Nat) (b : Bool), xs.Pairwise (· > ·) → (∀ x ∈ xs, x < n ∧ W (.search x (g x).toNat false)) →
      Sv ts g n W false b (initLadders xs (versionsAt g xs)) (fun st' _ _ => st' = false)
  | [], b, _, _ => .pure rfl
  | x :: xs, b, hp, hx => by
    have hp' := List.pairwise_cons.1 hp
    obtain ⟨h1, h2⟩ := hx x List.mem_cons_self
    have ih := fun b => initLadders_sv hmono hgv hW xs b hp'.2 (fun y hy => hx y (List.mem_cons_of_mem _ hy))
    by_cases h0 : g x < 0
    · have e : versionsAt g (x :: xs) = [] := by unfold versionsAt; rw [if_pos h0]
      have e' : versionsAt g xs = [] := by
        cases xs with
        | nil => rfl
        | cons y ys =>
          unfold versionsAt
          rw [if_pos]
          have := hmono y x (Nat.le_of_lt (hp'.1 y List.mem_cons_self))
          omega
      rw [e]
      rw [e'] at ih
      have e0 : (g x).toNat = 0 := by omega
      rw [e0] at h2
      unfold initLadders
      refine .bind hW (.search h1 (by omega) h2) ?_
      rintro st1 b1 a - - ⟨rfl, rfl⟩
      refine .ite (fun h => absurd ?_ h) (fun _ => ih b1)
      rw [if_pos (by omega)]
    · have e : versionsAt g (x :: xs) = (g x).toNat :: versionsAt g xs := by
        conv_lhs => unfold versionsAt
        rw [if_neg h0]
      have := hgv x
      rw [e]
      unfold initLadders
      refine .bind hW (.search h1 (by omega) h2) ?_
      rintro st1 b1 a - - ⟨rfl, rfl⟩
      refine .ite (fun h => absurd ?_ h) (fun _ => ih b1)
      rw [if_neg (by omega), if_neg (by omega)]

/-- the requests -/
def InitAsks (g : Nat → Int) (n s : Nat) (xs : List Nat) : Req → Prop
  | .ts x => x < n
  | .search x v om => om = false ∧ v = (g x).toNat ∧ x ∈ xs
  | _ => False

theorem initProg_sv {cfg : Config} {s : Nat} (hn : 0 < n) (ht : GoodTimes ts n) (hmono : ∀ x y, x ≤ y → g x ≤ g y)
    (hgv : ∀ x, g x < 2 ^ 31 - 1) (hlo : ∀ x, -1 ≤ g x) (hlive : Live cfg ts n s) :
    ∃ xs, InitList 0 s xs ∧ ∀ b, Sv ts g n (InitAsks g n s xs) false b (initProg cfg n s (versionsAt g xs))
      (fun _ _ a => a = (⟨cfg, ts (n - 1), n, none, some ⟨s, g s, []⟩⟩, xs)) := by
  obtain ⟨⟨-, hd⟩, hne⟩ := hlive
  have hs := (hd.range hn).2
  have hexp : ∀ y, s ≤ y → y < n → cfg.isExpired (ts y) (ts (n - 1)) = false := by
    intro y h1 h2
    rw [Bool.eq_false_iff]
    intro h
    refine hne ?_
    have := (isExpired_iff ht h2).1 h
    have := ht.1 s y h1 h2
    unfold Expired at *
    omega
  have erb : rb ts n n = ts (n - 1) := by simp [rb]
  have elb : lb ts 0 = 0 := rfl
  have hd' : DistIn (Wide cfg.rmw) ts 0 n (lb ts 0) (rb ts n n) s := by rw [erb, elb]; exact hd
  have hget : ∀ W : Req → Prop, (∀ x v, ¬ W (.search x v true)) → (∀ x, x < n → W (.ts x)) → ∃ xs, InitList 0 s xs ∧
      ∀ b, Sv ts g n W false b (initEntries ⟨cfg, ts (n - 1), n, none, none⟩ s) (fun st' _ a => st' = false ∧ a = xs) := by
    intro W hW hts
    obtain ⟨xs, h1, h2⟩ := initWalk_sv (m := ⟨cfg, ts (n - 1), n, none, none⟩) (g := g) ht rfl hs (hexp s (le_refl _) hs)
      (fun y h1 h2 => hexp y h1.le h2) hW hts (n + 1) 0 n [] (.root hn) (by omega) hd'
    refine ⟨xs, h1, fun b => ?_⟩
    have := h2 b
    rw [erb, elb] at this
    unfold initEntries
    simp only []
    rw [root_eq hn]
    exact this
  obtain ⟨xs, hx, hsv⟩ := hget (fun q => ∃ x, q = .ts x ∧ x < n) (by rintro x v ⟨y, h, -⟩; cases h) (fun x h => ⟨x, rfl, h⟩)
  refine ⟨xs, hx, fun b => ?_⟩
  have hW : ∀ x v, ¬ InitAsks g n s xs (.search x v true) := by rintro x v ⟨h, -⟩; cases h
  unfold initProg
  refine .bind hW (newMonitor_sv hn (fun x h => h) hW) ?_
  rintro st1 b1 m - - ⟨rfl, rfl⟩
  unfold ownerInit
  refine .ite (fun h => absurd rfl h) (fun _ => ?_)
  refine .bind hW ((hsv b1).weaken (by rintro q ⟨x, rfl, h⟩; exact h)) ?_
  rintro st2 b2 ys - - ⟨rfl, rfl⟩
  refine .ite (fun h => ?_) (fun _ => .ite (fun h => ?_) (fun _ => ?_))
  · have := versionsAt_length (g := g) ys
    omega
  · exact absurd (versionsAt_nonIncreasing hmono hx.decr) h
  refine .bind hW (initLadders_sv hmono hgv hW ys b2 hx.decr (fun x h => ⟨?_, rfl, rfl, h⟩)) ?_
  · have := hx.range x h
    omega
  rintro st3 b3 u - - rfl
  refine .pure ?_
  have hv := hlo s
  have := hx.head
  cases ys with
  | nil => cases this
  | cons a l =>
    cases this
    unfold versionsAt
    by_cases h : g s < 0
    · have e : g s = -1 := by omega
      rw [if_pos h, e]
    · have e : (((g s).toNat : Nat) : Int) = g s := by omega
      simp only [h, if_false, e]

end

end Katie.Alg

namespace Katie.Server
open Katie Katie.Wire Katie.Alg Katie.Ladder Katie.ServerSpec Katie.PrefixSpec Katie.AuditSpec Katie.SearchSpec Katie.Props
  Katie.Client Katie.SearchTree Katie.ServedSpec

/-! ### running a program again -/

theorem rerun {σ α : Type} {H : Handle σ} {q : Provider σ} {prog : Prog α} (hr : Asks (fun _ => True) prog) (hc : NoCatch prog) :
    ∀ {tr : List Ev} {a : α}, Alg.Runs prog tr (.ok a) → (∀ x t, (⟨.ts x, .ok t⟩ : Ev) ∈ tr → q.timestamps.lookup x = some t) →
    q.run H prog = (.ok a, q) := by
  induction hc with
  | ret r =>
    intro tr a h _
    cases h
    rfl
  | @op rq k he hk ih =>
    intro tr a h ht
    obtain ⟨⟨x, rfl, -⟩, h2⟩ := hr
    cases h with
    | @op _ _ r tr' _ h =>
      cases r with
      | error e =>
        rw [he e] at h
        cases h
      | ok t =>
        have h1 := ht x t List.mem_cons_self
        have h3 : q.answer H (.ts x) = (.ok t, q) := by
          change q.getTimestamp H x = _
          unfold Provider.getTimestamp
          rw [h1]
          rfl
        unfold Provider.run
        rw [h3]
        exact ih t (h2 _) h (fun y u hy => ht y u (List.mem_cons_of_mem _ hy))

theorem initWalk_asks {m : Monitor} {s : Nat} : ∀ (fuel x l r : Nat), Asks (fun _ => True) (initWalk m s fuel x l r) := by
  intro fuel
  induction fuel with
  | zero => intro x l r; exact trivial
  | succ fuel ih =>
    intro x l r
    unfold initWalk
    refine .ite (fun _ => trivial) (fun _ => .bind (.getTs trivial) (fun ts => ?_))
    refine .ite (fun _ => .ite (fun _ => trivial) (fun _ => .lift_bind (fun c _ => .bind (ih _ _ _) (fun _ => trivial)))) (fun _ => ?_)
    exact .ite (fun _ => .ite (fun _ => trivial) (fun _ => trivial)) (fun _ => .ite (fun _ => trivial) (fun _ => .lift_bind (fun c _ => ih _ _ _)))

/-- `OwnerInit` on the server looks for the entries twice; the second time changes nothing -/
theorem initEntries_again {σ : Type} {H : Handle σ} {m : Monitor} {s : Nat} {vers : List Nat} {p q : Provider σ} {a : Monitor × List Nat}
    (hp : TsMap p.timestamps) (h : p.run H (Alg.ownerInit m s vers) = (.ok a, q)) :
    ∃ pb, p.run H (initEntries m s) = (.ok a.2, pb) ∧ pb.run H (Alg.ownerInit m s vers) = (.ok a, q) := by
  unfold Alg.ownerInit at h
  split at h
  · cases h
  next ho =>
  obtain ⟨xs, pb, h1, h2⟩ := run_bind_ok h
  obtain ⟨-, k1, k2, k3, -⟩ := run_spec H (initEntries m s) p hp
  rw [h1] at k1 k2 k3
  have h3 : pb.run H (initEntries m s) = (.ok xs, pb) :=
    rerun (initWalk_asks _ _ _ _) (initWalk_noCatch _ _ _ _) k2 (fun x t hx => lookup_of_mem k1.keys (k3 x t hx))
  have hxs : xs = a.2 := by
    split at h2
    · cases h2
    split at h2
    · cases h2
    obtain ⟨u, pc, -, h5⟩ := run_bind_ok h2
    have := Except.ok.inj (Prod.mk.inj h5).1
    rw [← this]
  refine ⟨pb, by rw [← hxs]; exact h1, ?_⟩
  unfold Alg.ownerInit
  rw [if_neg ho, run_bind, h3]
  exact h2

/-! ### the ladder -/

theorem ladderVrfs_ok {env : Env} {l : Bytes} {gv : Int} : ∀ {vs : List Nat},
    (∀ v ∈ vs, ∃ o pr, computeVrf env l v = .ok (o, pr) ∧ o.length = env.cs.hashSize) →
    ladderVrfs env l gv vs = .ok (vs.map (fun v => (vrfOf env l v).2),
      (vs.filter (fun (v : Nat) => decide ((v : Int) ≤ gv))).map (fun v => (vrfOf env l v).1))
  | [], _ => rfl
  | v :: vs, h => by
    obtain ⟨o, pr, h1, -⟩ := h v List.mem_cons_self
    unfold ladderVrfs
    rw [h1, G.ok_bind, ladderVrfs_ok (fun w hw => h w (List.mem_cons_of_mem _ hw)), G.ok_bind]
    have e : vrfOf env l v = (o, pr) := by unfold vrfOf; rw [h1]
    simp only [List.map_cons, List.filter_cons, e]
    by_cases hle : (v : Int) ≤ gv
    · simp [hle, e]
    · simp [hle]

theorem assignCommitments_ok {f : Nat → Bytes} {com : Nat → Bytes} {gv : Int} : ∀ {vs : List Nat}, vs.Pairwise (· < ·) →
    assignCommitments (vs.map f) ((vs.filter (fun (v : Nat) => decide ((v : Int) ≤ gv))).map (fun v => some (com v))) =
      .ok (vs.map (fun v => ⟨f v, if (v : Int) ≤ gv then some (com v) else none⟩))
  | [], _ => rfl
  | v :: vs, h => by
    rw [List.pairwise_cons] at h
    by_cases hle : (v : Int) ≤ gv
    · rw [List.filter_cons_of_pos (by simpa using hle), List.map_cons, List.map_cons]
      unfold assignCommitments
      rw [assignCommitments_ok h.2, G.ok_bind]
      simp [hle]
    · have e : (v :: vs).filter (fun (v : Nat) => decide ((v : Int) ≤ gv)) = [] := by
        rw [List.filter_eq_nil_iff]
        intro w hw
        rcases List.mem_cons.1 hw with rfl | hw
        · simpa using hle
        · have := h.1 w hw
          simp only [decide_eq_true_eq]
          omega
      rw [e, List.map_nil]
      unfold assignCommitments
      simp only [List.map_map, G.pure_eq]
      congr 1
      refine List.map_congr_left (fun w hw => ?_)
      have : ¬ (w : Int) ≤ gv := by
        rw [List.filter_eq_nil_iff] at e
        simpa using e w hw
      simp [this]

theorem insertNat_sorted {a : Nat} : ∀ {l : List Nat}, l.Pairwise (· < ·) → (insertNat a l).Pairwise (· < ·) ∧ ∀ x ∈ insertNat a l, x = a ∨ x ∈ l
  | [], _ => by simp [insertNat]
  | b :: l, h => by
    have h' := List.pairwise_cons.1 h
    obtain ⟨ih1, ih2⟩ := insertNat_sorted (a := a) h'.2
    unfold insertNat
    split
    · next hab =>
      refine ⟨List.pairwise_cons.2 ⟨?_, h⟩, by simp⟩
      intro x hx
      rcases List.mem_cons.1 hx with rfl | hx
      · exact hab
      · have := h'.1 x hx; omega
    split
    · exact ⟨h, fun x hx => .inr hx⟩
    · refine ⟨List.pairwise_cons.2 ⟨?_, ih1⟩, ?_⟩
      · intro x hx
        rcases ih2 x hx with rfl | hx
        · omega
        · exact h'.1 x hx
      · intro x hx
        rcases List.mem_cons.1 hx with rfl | hx
        · exact .inr List.mem_cons_self
        · rcases ih2 x hx with h | h
          · exact .inl h
          · exact .inr (List.mem_cons_of_mem _ h)

theorem sortedSet_sorted : ∀ l : List Nat, (sortedSet l).Pairwise (· < ·)
  | [] => .nil
  | a :: l => (insertNat_sorted (sortedSet_sorted l)).1

theorem allLadderVersions_ok {vs : List Nat} (h : ∀ v ∈ vs, v < 2 ^ 31 - 1) : ∃ all, allLadderVersions vs = .ok all ∧ all.Pairwise (· < ·) := by
  have key : ∀ vs : List Nat, (∀ v ∈ vs, v < 2 ^ 31 - 1) → ∃ l, ladders vs = .ok l := by
    intro vs
    induction vs with
    | nil => exact fun _ => ⟨[], rfl⟩
    | cons v vs ih =>
      intro h
      obtain ⟨b, hb, -⟩ := ladder_self (h v List.mem_cons_self)
      obtain ⟨l, hl⟩ := ih (fun w hw => h w (List.mem_cons_of_mem _ hw))
      exact ⟨b ++ l, by unfold ladders; rw [hb, G.ok_bind, hl]; rfl⟩
  obtain ⟨l, hl⟩ := key vs h
  exact ⟨_, by unfold allLadderVersions; rw [hl, G.ok_bind]; rfl, sortedSet_sorted _⟩

theorem ownerGreatest {index : List Nat} (hs : index.Pairwise (· ≤ ·)) (x : Nat) :
    (⟨0, -1, index⟩ : Owner).greatestAt x = greatestAt index x := by
  rw [greatestAt_countP hs]
  unfold Owner.greatestAt
  simp only [bsearch_count hs]
  omega

theorem initVersions_eq {index : List Nat} (hs : index.Pairwise (· ≤ ·)) (hc : index.length < 2 ^ 31) : ∀ xs : List Nat,
    initVersions index xs = versionsAt (greatestAt index) xs
  | [] => rfl
  | x :: xs => by
    have e := ownerGreatest hs x
    have hlo : -1 ≤ greatestAt index x ∧ greatestAt index x < index.length := by
      rw [greatestAt_countP hs]
      have := List.countP_le_length (p := fun u => decide (u ≤ x)) (l := index)
      omega
    unfold initVersions versionsAt
    rw [e, initVersions_eq hs hc xs]
    by_cases h : greatestAt index x < 0
    · rw [if_pos h]
      simp only []
      rw [if_pos (by omega)]
    · rw [if_neg h]
      simp only []
      rw [if_neg (by omega), Nat.mod_eq_of_lt (by omega)]


theorem getBinaryLadder_ok {env : Env} {t : Tree} {l : Bytes} {bs : List Batch} {n : Nat} {E : Nat → LogEntry} {all : List Nat}
    {com : Nat → Bytes} {g : Nat → Int} (hh : Honest env.cs (serverDB env t.tx) bs n E)
    (hlab : LabelTree env.cs bs n all (fun v => (vrfOf env l v).1) com g) (hmono : ∀ x y, x ≤ y → g x ≤ g y)
    (hvrf : ∀ v ∈ all, ∃ o pr, computeVrf env l v = .ok (o, pr) ∧ o.length = env.cs.hashSize) (hall : all.Pairwise (· < ·))
    {s : Nat} (hs : s < n) :
    getBinaryLadder env t l all (g s) n =
      .ok (all.map (fun v => ⟨(vrfOf env l v).2, if (v : Int) ≤ g s then some (com v) else none⟩)) := by
  unfold getBinaryLadder
  rw [ladderVrfs_ok hvrf, G.ok_bind]
  simp only []
  have hn := hh.pos
  have hsub : ∀ v ∈ all.filter (fun (v : Nat) => decide ((v : Int) ≤ g s)), v ∈ all ∧ (v : Int) ≤ g s := by
    intro v hv
    rw [List.mem_filter, decide_eq_true_eq] at hv
    exact hv
  have hlen : ∀ o ∈ (all.filter (fun (v : Nat) => decide ((v : Int) ≤ g s))).map (fun v => (vrfOf env l v).1),
      o.length = env.cs.hashSize := by
    intro o ho
    obtain ⟨v, hv, rfl⟩ := List.mem_map.1 ho
    exact hlab.len v (hsub v hv).1
  have key : ∃ pf, Prefix.search env.cs t.tx.tiles
      [⟨n, (all.filter (fun (v : Nat) => decide ((v : Int) ≤ g s))).map (fun v => (vrfOf env l v).1)⟩] =
      .ok [(pf, (all.filter (fun (v : Nat) => decide ((v : Int) ≤ g s))).map (fun v => some (com v)))] := by
    by_cases he : all.filter (fun (v : Nat) => decide ((v : Int) ≤ g s)) = []
    · rw [he]
      obtain ⟨out, h1, h2⟩ := search_total hh.good hh.small hh.hist (searches := [⟨n, []⟩]) (by
        intro x hx
        rw [List.mem_singleton] at hx
        subst hx
        exact ⟨hn, by rw [hh.len], by simp⟩)
      cases h2 with
      | cons h2 h3 =>
        cases h3
        next r =>
        have : r.2 = [] := List.length_eq_zero_iff.1 h2
        obtain ⟨pf, cs⟩ := r
        cases this
        exact ⟨pf, h1⟩
    · obtain ⟨out, h1, h2⟩ := C09_search_partial hh.good hh.small hh.hist
        [⟨n, (all.filter (fun (v : Nat) => decide ((v : Int) ≤ g s))).map (fun v => (vrfOf env l v).1)⟩] (by
        intro x hx
        rw [List.mem_singleton] at hx
        subst hx
        exact ⟨hn, by rw [hh.len], by simpa using he, hlen⟩)
      cases h2 with
      | cons h2 h3 =>
        cases h3
        next r =>
        obtain ⟨pf, coms⟩ := r
        refine ⟨pf, ?_⟩
        have hco : List.Forall₂ (fun (v : Nat) c => c = some (com v)) (all.filter (fun (v : Nat) => decide ((v : Int) ≤ g s))) coms := by
          refine forall₂_mem_imp ?_ (forall₂_map_iff h2.1)
          intro v hv c hc
          obtain ⟨k1, k2⟩ := hsub v hv
          refine (hc (com v)).2 ?_
          have := (hlab.mem (n - 1) (by omega) v k1 (com v)).2 ⟨k2.trans (hmono _ _ (by omega)), rfl⟩
          rw [show n - 1 + 1 = n by omega] at this
          exact this
        have : coms = (all.filter (fun (v : Nat) => decide ((v : Int) ≤ g s))).map (fun v => some (com v)) := by
          clear h1 h2 hlen hsub he
          revert hco
          generalize all.filter (fun (v : Nat) => decide ((v : Int) ≤ g s)) = vs
          intro hco
          induction hco with
          | nil => rfl
          | cons h _ ih => rw [List.map_cons, h, ih]
        rw [← this]
        exact h1
  obtain ⟨pf, hpf⟩ := key
  rw [hpf, G.ok_bind]
  exact assignCommitments_ok hall

section
variable {env : Env} {cenv : CEnv} {cs : List Change} {us : List AuditorUpdate} {t : Tree} {l : Bytes}

theorem init_core (hcs : env.cs.Good) (hsm : Prefix.Small env.cs) (hruns : ServerSpec.Runs env cs us t) (hne : cs ≠ [])
    (hc : ClientOf env cenv) (hl : l.length ≤ 255) (hkeep : ∀ c ∈ cs, l ∉ c.remove) (hcount : (versionsOf l cs).length < 2 ^ 31 - 1)
    (hd : ∀ vers all, (∀ v ∈ vers, v < (versionsOf l cs).length) → allLadderVersions vers = .ok all → VrfDistinct env cs l all)
    {s : Nat} (hlive : SearchSpec.Live env.cfg (fun x => (entryAt env.cs us x).timestamp) us.length s)
    {state : Option ClientState} (hst : Behind env us state) {aud : Option AuditorTreeHead}
    (haud : ∀ a, aud = some a → 0 < a.treeSize ∧ a.treeSize ≤ us.length)
    {nowS nowC : Nat} (hwS : InWindow env.cfg nowS (entryAt env.cs us (us.length - 1)).timestamp)
    (hwC : InWindow env.cfg nowC (entryAt env.cs us (us.length - 1)).timestamp)
    (hview : ∀ k, getLast state = some k → ∀ f, frontier us.length = .ok f → k - 1 ∉ f) :
    ∃ th res, t.head = some th ∧ th.treeSize = us.length ∧
      Server.ownerInit env nowS { t with auditor := aud } ⟨getLast state, l, s⟩ = .ok res ∧ res.fullTreeHead = ⟨some th, aud⟩ ∧
      ∃ m v result rootP,
        checkedInit cenv nowC state ⟨getLast state, l, s⟩ res =
          .ok (m, v, result, LogSpec.rootHash env.cs.H (logLeaves env.cs us), rootP) ∧
        v.state = state ∧ v.fth = ⟨some th, aud⟩ ∧ v.n = us.length ∧
        Keeps env us us.length result.fullSubtrees result.logEntries ∧
        (∀ a, aud = some a → rootP = LogSpec.rootHash env.cs.H ((logLeaves env.cs us).take a.treeSize)) ∧
        m.owner = some ⟨s, (((versionsOf l cs).map Version.pos).countP (· ≤ s) : Int) - 1, []⟩ := by
  obtain ⟨htx, hinv⟩ := runs_inv hcs hsm hruns
  have hlen := hinv.len
  have hsize := hinv.size
  have hpos : 0 < us.length := by rw [hlen]; exact List.length_pos_iff.2 hne
  obtain ⟨th, tbs, hhead, hths, -, -⟩ := head_of_inv hinv hne
  rw [← hlen] at hths
  have hh := honest_of_inv hcs hsm hinv hne
  rw [← hlen] at hh
  have hindex : getIndex t.tx l = .ok ((versionsOf l cs).map Version.pos) := by rw [htx]; exact hinv.getIndex l
  obtain ⟨hsorted, hin⟩ := versionsOf_pos l cs
  rw [← hlen] at hin
  have hvrfAll : ∀ v, ∃ o pr, computeVrf env l v = .ok (o, pr) ∧ o.length = env.cs.hashSize := by
    intro v
    obtain ⟨input, -, h2, -⟩ := computeVrf_ok (env := env) hl v
    exact ⟨_, _, h2, hc.vrfLen input⟩
  have hcount' : ((versionsOf l cs).map Version.pos).length < 2 ^ 31 - 1 := by rw [List.length_map]; exact hcount
  generalize hI : (versionsOf l cs).map Version.pos = index at *
  have hrange : ∀ x, -1 ≤ greatestAt index x ∧ greatestAt index x < index.length := by
    intro x
    rw [greatestAt_countP hsorted]
    have := List.countP_le_length (p := fun u => decide (u ≤ x)) (l := index)
    omega
  have hmono := greatestAt_mono index
  have hilen : index.length = (versionsOf l cs).length := by rw [← hI, List.length_map]
  -- the algorithm
  obtain ⟨xs, hxs, hsv⟩ := initProg_sv (ts := fun x => (entryAt env.cs us x).timestamp) (cfg := env.cfg) (s := s) hpos hh.times hmono
    (fun x => by have := hrange x; omega) (fun x => (hrange x).1) hlive
  have hsn : s < us.length := (hlive.1.2.range hpos).2
  have hvers : ∀ v ∈ versionsAt (greatestAt index) xs, v < index.length := by
    intro v hv
    obtain ⟨x, -, hx⟩ := versionsAt_mem hv
    have := hrange x
    omega
  obtain ⟨all, hall, hasort⟩ := allLadderVersions_ok (vs := versionsAt (greatestAt index) xs) (fun v hv => by have := hvers v hv; omega)
  have hlab := labelTree_of_runs hcs hsm hruns hkeep (V := all) (fun v _ => hvrfAll v)
    (hd _ all (fun v hv => by have := hvers v hv; omega) hall)
  rw [← hlen, hI] at hlab
  -- the retained entries
  have hlast : ∀ k, getLast state = some k → 0 < k ∧ k < us.length := by
    intro k hk
    cases state with
    | none => cases hk
    | some s =>
      simp only [getLast, Option.map_some, Option.some.injEq] at hk
      subst hk
      exact ⟨hst.1, hst.2.1⟩
  have hlast' : ∀ k, getLast state = some k → 0 < k ∧ k ≤ us.length := fun k hk => ⟨(hlast k hk).1, (hlast k hk).2.le⟩
  obtain ⟨fk, hfk⟩ := retained_exists (n := us.length) (by omega) hlast'
  have hload := loadRetained_ok (env := env) (st := t.db) (E := entryAt env.cs us) hh.entry hh.times hfk
  obtain ⟨f, hf, -⟩ := frontier_spine hpos (by omega : us.length < 2 ^ 64)
  have hnP : ∀ k, aud.map (·.treeSize) = some k → 0 < k ∧ k ≤ us.length := by
    intro k hk
    cases aud with
    | none => cases hk
    | some a =>
      simp only [Option.map_some, Option.some.injEq] at hk
      subst hk
      exact haud a rfl
  -- the exchange
  have hneed : ∀ q, InitAsks (greatestAt index) us.length s xs q → ∀ need, q.asks (greatestAt index) need → ∀ u ∈ need.2,
      u ∈ all ∧ ((u : Int) ≤ greatestAt index need.1 → (u ∈ all ∧ (u : Int) ≤ greatestAt index s)) := by
    intro q hq need hask u hu
    cases q with
    | ts x => exact absurd hask (by simp [Req.asks])
    | stop x v => exact absurd hask (by simp [Req.asks])
    | incl x vers => exact absurd hq (by simp [InitAsks])
    | addLadder x om g l => exact absurd hq (by simp [InitAsks])
    | monitor y v => exact absurd hq (by simp [InitAsks])
    | search x v om =>
      obtain ⟨-, rfl, hx⟩ := hq
      obtain ⟨rfl, hneg, hlad⟩ := hask
      have hle := hmono _ _ (hxs.range _ hx).2
      have key : u ∈ all := by
        rw [allLadderVersions_mem hall]
        by_cases hg0 : greatestAt index need.1 < 0
        · rw [hneg hg0, List.mem_singleton] at hu
          exact .inl hu
        · obtain ⟨b, hb1, hb2, -, hb0, -⟩ := ladder_self (t := (greatestAt index need.1).toNat) (by have := hrange need.1; omega)
          exact .inr ⟨_, mem_versionsAt hmono hxs.decr hx (by omega), b, hb1, hlad b hb2 hb0 u hu⟩
      exact ⟨key, fun h => ⟨key, h.trans hle⟩⟩
  obtain ⟨mx, st', b', p1, p2, e1, e2, e3, e4, e5, e6⟩ := exchange_stops (nP := aud.map (·.treeSize)) hh
    (by omega) hlab (by rintro x v ⟨h, -⟩; cases h) (fun x h => h) hneed hsv
    (retainedTables_fresh hh.times hfk.nodup hfk.lt (s := ({} : Produced)) [] rfl rfl rfl) hwS hwC hf hnP hlast' (by
      intro k hk
      refine ⟨hview k hk f hf, fk, ?_, fun x hx => (retainedTables_keys _ _ _ _ x).2 hx⟩
      have := hfk.frontier
      rw [hk] at this
      exact this)
  subst e3
  have hreq : ∀ v ∈ p2.state.required.eraseDups, v ∈ all := by
    intro v hv
    rw [List.mem_eraseDups] at hv
    obtain ⟨need, h1, h2⟩ := List.mem_flatMap.1 hv
    exact e5 need h1 v h2
  obtain ⟨proof, p3, o1, o2⟩ := e6 p2.state.required.eraseDups
    (ladderTable (fun v => (vrfOf env l v).1) (fun _ => none) p2.state.required.eraseDups) hreq (by
      intro need hn u hu
      rw [List.mem_eraseDups]
      exact List.mem_flatMap.2 ⟨need, hn, hu⟩) (ladderTable_table (fun v _ => .inl rfl))
  unfold initProg at e2 o2
  obtain ⟨m0, pa, s1, s2⟩ := run_bind_ok e2
  have hpa : TsMap pa.timestamps := by
    have hp0 := (retainedTables_fresh hh.times hfk.nodup hfk.lt (s := ({} : Produced)) [] rfl rfl rfl).ts
    have k1 := (run_spec (Produced.handle (serverDB env t.db) index) (Alg.updateView env.cfg nowS us.length (getLast state)) _ hp0).2.1
    rw [e1] at k1
    have k2 := (run_spec (Produced.handle (serverDB env t.db) index) (newMonitor env.cfg us.length) _ k1).2.1
    rw [s1] at k2
    exact k2
  obtain ⟨pb, s3, s4⟩ := initEntries_again hpa s2
  refine ⟨th, ⟨⟨some th, aud⟩, versionsAt (greatestAt index) xs,
    all.map (fun v => ⟨(vrfOf env l v).2, if (v : Int) ≤ greatestAt index s then some (comOf env l (versionsOf l cs) v) else none⟩), proof⟩,
    hhead, hths, ?_, rfl, ?_⟩
  · -- the server
    have hth : Server.fullTreeHead { t with auditor := aud } (getLast state) =
        .ok ⟨⟨some th, aud⟩, us.length, aud.map (·.treeSize), getLast state⟩ := by
      unfold Server.fullTreeHead
      simp only [hhead]
      cases hgl : getLast state with
      | none => simp only [hths]; rfl
      | some k =>
        have := (hlast k hgl).2
        simp only
        rw [if_neg (by omega), if_neg (by omega), hths]
        rfl
    have huv : Server.updateView env nowS { t with auditor := aud } index (getLast state) (newProvider {}) = .ok p1 := by
      unfold Server.updateView handleFor
      simp only [hhead, htx, hload, G.ok_bind, hths]
      unfold runOn
      rw [e1]
      rfl
    have hstart : startMonitor env nowS { t with auditor := aud } (getLast state) l =
        .ok ⟨⟨⟨some th, aud⟩, us.length, aud.map (·.treeSize), getLast state⟩, index, m0, pa⟩ := by
      unfold startMonitor
      simp only []
      rw [hth, G.ok_bind, hindex, G.ok_bind, huv, G.ok_bind]
      unfold runOn handleFor
      simp only [htx, s1]
      rfl
    have hro1 : runOn (handleFor env { t with auditor := aud } index) (initEntries m0 s) pa = .ok (xs, pb) := by
      unfold runOn handleFor
      simp only [htx, s3]
    have hro2 : runOn (handleFor env { t with auditor := aud } index) (Alg.ownerInit m0 s (versionsAt (greatestAt index) xs)) pb =
        .ok ((⟨env.cfg, (entryAt env.cs us (us.length - 1)).timestamp, us.length, none, some ⟨s, greatestAt index s, []⟩⟩, xs), p2) := by
      unfold runOn handleFor
      simp only [htx, s4]
    have hfin : ∀ mm, finishMonitor env { t with auditor := aud } l
        ⟨⟨⟨some th, aud⟩, us.length, aud.map (·.treeSize), getLast state⟩, index, mm, p2⟩ = .ok (⟨some th, aud⟩, proof) := by
      intro mm
      unfold finishMonitor
      simp only []
      rw [addRequired_ok (nodup_eraseDups _ _ (le_refl _)) (fun v _ => hvrfAll v) (by
        intro v _
        rw [e4]
        rfl), G.ok_bind]
      have : p2.state.versions = [] := e4
      rw [this, List.append_nil]
      unfold outputOf
      simp only [htx]
      rw [o1]
      rfl
    have hgl := getBinaryLadder_ok (t := { t with auditor := aud }) (by simp only [htx]; exact hh) hlab hmono (fun v _ => hvrfAll v) hasort hsn
    unfold Server.ownerInit
    simp only []
    rw [hstart, G.ok_bind]
    simp only []
    rw [hro1, G.ok_bind]
    simp only []
    rw [initVersions_eq hsorted (by omega), hall, G.ok_bind, ownerGreatest hsorted, hgl, G.ok_bind, hro2, G.ok_bind]
    simp only []
    rw [hfin, G.ok_bind]
    rfl
  · -- the client
    obtain ⟨full, hrp, hfull⟩ := retainedProvider_ok hh.times hst hfk proof
    have hC : ∀ v ∈ all, (if (v : Int) ≤ greatestAt index s then some (comOf env l (versionsOf l cs) v) else none) = none ∨
        (if (v : Int) ≤ greatestAt index s then some (comOf env l (versionsOf l cs) v) else none) = some (comOf env l (versionsOf l cs) v) := by
      intro v _
      split
      · exact .inr rfl
      · exact .inl rfl
    obtain ⟨q1, q2, c1, c2, result, q3, c3, c4, c5, c6⟩ := o2 full
      (ladderTable (fun v => (vrfOf env l v).1)
        (fun v => if (v : Int) ≤ greatestAt index s then some (comOf env l (versionsOf l cs) v) else none) all)
      (ladderTable_table hC) (by
        rintro u ⟨h1, h2⟩
        exact ⟨_, by rw [ladderTable_lookup, if_pos h1], by simp only [h2, if_true]⟩) (by
        intro k hk
        rw [hfull k hk, leavesOf_entryAt]
        rfl)
    rw [leavesOf_entryAt] at c4 c5
    have hnv := newVerifier_eq (last := getLast state) (th := th) (aud := aud) hrp
    rw [hths] at hnv
    have hps := processSteps_ok (env := cenv) (l := l) (manual := [])
      (out := fun v => (vrfOf env l v).1)
      (C := fun v => if (v : Int) ≤ greatestAt index s then some (comOf env l (versionsOf l cs) v) else none)
      (f := fun v => (⟨(vrfOf env l v).2, if (v : Int) ≤ greatestAt index s then some (comOf env l (versionsOf l cs) v) else none⟩ :
        BinaryLadderStep))
      (w := ⟨state, ⟨some th, aud⟩, retainedTables ⟨proof, [], {}⟩ (entryAt env.cs us) full fk, us.length, aud.map (·.treeSize),
        getLast state⟩) (hasort.imp (fun h => Nat.ne_of_lt h)) (by
        intro v _
        obtain ⟨input, h1, -, h3⟩ := computeVrf_ok (env := env) hl v
        refine ⟨input, h1, ?_⟩
        rw [h3]
        exact hc.vrf input) (by
        intro v _
        obtain ⟨input, h1, -, h3⟩ := computeVrf_ok (env := env) hl v
        rw [h3, hc.cs]
        exact hc.vrfLen input) (fun v _ => rfl) (by
        intro v hv c hcv
        rw [hc.cs]
        rcases hC v hv with h | h
        · rw [h] at hcv; cases hcv
        · rw [h] at hcv
          cases hcv
          exact comOf_len hcs l _ v) (by intro v _; rfl)
    rw [show (retainedTables (⟨proof, [], {}⟩ : Received) (entryAt env.cs us) full fk).state.versions = [] from rfl, List.append_nil] at hps
    obtain ⟨m0', qa, d1, d2⟩ := run_bind_ok c2
    have hroot : Log.root env.cs us.length result.fullSubtrees = .ok (LogSpec.rootHash env.cs.H (logLeaves env.cs us)) := by
      have := root_take hcs (us := us) hpos (le_refl _) (by omega)
      rw [List.take_of_length_le (by rw [logLeaves_len])] at this
      rw [c4]
      exact this
    have hkeeps : Keeps env us us.length result.fullSubtrees result.logEntries :=
      ⟨by rw [c4, List.take_of_length_le (by rw [logLeaves_len])]; rfl, f, hf, c6⟩
    have hrootP : ∃ rootP, auditorRoot cenv (aud.map (·.treeSize)) result.additional = .ok rootP ∧
        ∀ a, aud = some a → rootP = LogSpec.rootHash env.cs.H ((logLeaves env.cs us).take a.treeSize) := by
      cases aud with
      | none => exact ⟨[], rfl, by simp⟩
      | some a =>
        obtain ⟨h1, h2⟩ := haud a rfl
        refine ⟨LogSpec.rootHash env.cs.H ((logLeaves env.cs us).take a.treeSize), ?_, ?_⟩
        · simp only [auditorRoot, Option.map_some, hc.cs]
          rw [c5 a.treeSize rfl]
          exact root_take hcs h1 h2 (by omega)
        · intro a' ha'
          cases ha'
          rfl
    obtain ⟨rootP, g1, g2⟩ := hrootP
    have hcp : ∀ vs : List Nat, commitmentsPresent (versionsAt (greatestAt index) xs) (vs.map (fun v => (v, (⟨(vrfOf env l v).2,
        if (v : Int) ≤ greatestAt index s then some (comOf env l (versionsOf l cs) v) else none⟩ : BinaryLadderStep)))) = .ok () := by
      intro vs
      induction vs with
      | nil => rfl
      | cons v vs ih =>
        rw [List.map_cons]
        unfold commitmentsPresent
        rw [if_neg, ih]
        rintro ⟨h1, h2⟩
        obtain ⟨x, hx1, hx2⟩ := versionsAt_mem (by simpa using h1)
        have := hmono _ _ (hxs.range x hx1).2
        rw [if_pos (by omega)] at h2
        cases h2
    have hpl : ∀ w, processLadder cenv l (all.map (fun v => (⟨(vrfOf env l v).2, if (v : Int) ≤ greatestAt index s then
        some (comOf env l (versionsOf l cs) v) else none⟩ : BinaryLadderStep))) all [] w = processSteps cenv l
          [] (all.map (fun v => (v, (⟨(vrfOf env l v).2, if (v : Int) ≤ greatestAt index s then
            some (comOf env l (versionsOf l cs) v) else none⟩ : BinaryLadderStep)))) w := by
      intro w
      unfold processLadder
      rw [if_neg (by simp), zip_map_self]
    refine ⟨⟨env.cfg, (entryAt env.cs us (us.length - 1)).timestamp, us.length, none, some ⟨s, greatestAt index s, []⟩⟩,
      ⟨state, ⟨some th, aud⟩, q3, us.length, aud.map (·.treeSize), getLast state⟩, result, rootP, ?_, rfl, rfl, rfl, hkeeps, g2,
      by rw [greatestAt_countP hsorted]⟩
    unfold checkedInit
    simp only []
    rw [hnv, G.ok_bind, hall, G.ok_bind, hpl, hps, G.ok_bind, zip_map_self, hcp, G.ok_bind]
    unfold Verifier.updateView Verifier.run
    rw [hc.cs, hc.cfg]
    simp only
    have c1' : Provider.run (Received.handle env.cs) (Alg.updateView env.cfg nowC us.length (getLast state))
        { (retainedTables (⟨proof, [], {}⟩ : Received) (entryAt env.cs us) full fk) with
          state := { (retainedTables (⟨proof, [], {}⟩ : Received) (entryAt env.cs us) full fk).state with
            versions := ladderTable (fun v => (vrfOf env l v).1)
              (fun v => if (v : Int) ≤ greatestAt index s then some (comOf env l (versionsOf l cs) v) else none) all } } =
        (.ok (), q1) := c1
    rw [c1']
    simp only [G.ok_bind, G.pure_eq]
    rw [d1]
    simp only [G.ok_bind]
    rw [d2]
    simp only [G.ok_bind]
    rw [c3]
    simp only []
    rw [hroot, G.ok_bind, g1, G.ok_bind]

end

end Katie.Server
