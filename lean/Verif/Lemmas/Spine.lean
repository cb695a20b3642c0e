import Verif.Lemmas.Distinguished
import Verif.Lemmas.Provider

/-
The right spine of the search tree, and which timestamps `RightmostDistinguished` and `PreviousRightmost` can ask
for: only those of the frontier of the log without its last entry, and that of the last entry.
-/

namespace Katie.SearchTree
open Katie SearchSpec

/-- `y` is on the right spine of the subtree over `[lo, hi)` -/
inductive Spine : Nat → Nat → Nat → Prop
  | here {lo hi : Nat} : Spine lo hi (rt lo hi)
  | right {lo hi y : Nat} : rt lo hi + 1 < hi → Spine (rt lo hi + 1) hi y → Spine lo hi y

theorem walkRight_spine {n : Nat} (hn : n < 2 ^ 64) : ∀ (fuel lo : Nat) (anc rest : List Nat), At n lo n anc →
    walkRight fuel (rt lo n) n = .ok rest →
    (∀ y, Spine lo n y ↔ y = rt lo n ∨ y ∈ rest) ∧ (rt lo n :: rest).Pairwise (· < ·) ∧ ∀ y ∈ rest, y < n := by
  intro fuel
  induction fuel with
  | zero => intro lo anc rest _ h; cases h
  | succ fuel ih =>
    intro lo anc rest hat h
    have hb := hat.bounds
    have hp : pred64 n = n - 1 := by unfold pred64; omega
    unfold walkRight at h
    rw [hp] at h
    split at h
    · next hne =>
      rw [right_rt hat (by omega), G.ok_bind] at h
      obtain ⟨rest', h1, h2⟩ := G.bind_eq_ok.1 h
      cases h2
      obtain ⟨i1, i2, i3⟩ := ih _ _ _ (.right hat (by omega)) h1
      have hb' := (At.right hat (by omega)).bounds
      refine ⟨fun y => ⟨fun hs => ?_, fun hs => ?_⟩, ?_, ?_⟩
      · cases hs with
        | here => exact Or.inl rfl
        | right _ hs => exact Or.inr (List.mem_cons.2 ((i1 y).1 hs))
      · rcases hs with rfl | hs
        · exact .here
        · exact .right (by omega) ((i1 y).2 (List.mem_cons.1 hs))
      · rw [List.pairwise_cons]
        refine ⟨?_, i2⟩
        intro y hy
        rcases List.mem_cons.1 hy with rfl | hy
        · omega
        · have := (List.pairwise_cons.1 i2).1 y hy; omega
      · intro y hy
        rcases List.mem_cons.1 hy with rfl | hy
        · omega
        · exact i3 y hy
    · next hne =>
      cases h
      refine ⟨fun y => ⟨fun hs => ?_, fun hs => ?_⟩, by simp, by simp⟩
      · cases hs with
        | here => exact Or.inl rfl
        | right hr _ => omega
      · rcases hs with rfl | hs
        · exact .here
        · simp at hs

/-- the frontier is the right spine, in increasing order -/
theorem frontier_spine {n : Nat} (h0 : 0 < n) (hn : n < 2 ^ 64) : ∃ fr, frontier n = .ok fr ∧
    (∀ y, y ∈ fr ↔ Spine 0 n y) ∧ fr.Pairwise (· < ·) ∧ (∀ y ∈ fr, y < n) ∧ n - 1 ∈ fr := by
  obtain ⟨lo, anc, hat, he, hf⟩ := frontier_eq h0 hn
  refine ⟨_, hf, ?_⟩
  have hw : n - 1 ∈ anc.reverse ++ [n - 1] := by simp
  unfold frontier at hf
  obtain ⟨rest, h1, h2⟩ := G.bind_eq_ok.1 hf
  have h2 := Except.ok.inj h2
  rw [← h2] at hw ⊢
  rw [root_eq h0] at h1 hw ⊢
  obtain ⟨i1, i2, i3⟩ := walkRight_spine hn _ _ _ _ (.root h0) h1
  have hb := (At.root h0).bounds
  refine ⟨fun y => by rw [i1 y, List.mem_cons], i2, ?_, hw⟩
  intro y hy
  rcases List.mem_cons.1 hy with rfl | hy
  · omega
  · exact i3 y hy

theorem rt_succ {lo hi : Nat} (h : lo < hi) : rt lo (hi + 1) = hi ∨ (rt lo (hi + 1) = rt lo hi ∧ rt lo hi < hi) := by
  have hb := rt_bounds h
  obtain ⟨h1, h2⟩ := log2_spec (m := hi - lo) (by omega)
  by_cases hp : hi - lo + 1 = 2 ^ (Nat.log2 (hi - lo) + 1)
  · left
    have : Nat.log2 (hi + 1 - lo) = Nat.log2 (hi - lo) + 1 :=
      log2_uniq (by omega) (by rw [pow_succ]; omega)
    unfold rt; rw [this, ← hp]; omega
  · right
    have : Nat.log2 (hi + 1 - lo) = Nat.log2 (hi - lo) := log2_uniq (by omega) (by omega)
    refine ⟨?_, hb.2⟩
    unfold rt; rw [this]

theorem rt_one (lo : Nat) : rt lo (lo + 1) = lo := by
  unfold rt
  have : Nat.log2 (lo + 1 - lo) = 0 := log2_uniq (by omega) (by omega)
  rw [this]; omega

/-- the right spine after an entry is added -/
theorem Spine.succ {hi y : Nat} : ∀ (m lo : Nat), hi - lo ≤ m → lo ≤ hi → Spine lo (hi + 1) y →
    y = hi ∨ (lo < hi ∧ Spine lo hi y) := by
  intro m
  induction m with
  | zero =>
    intro lo hm hle h
    have : lo = hi := by omega
    subst this
    cases h with
    | here => exact Or.inl (rt_one lo)
    | right hr _ => rw [rt_one] at hr; omega
  | succ m ih =>
    intro lo hm hle h
    by_cases hlt : lo < hi
    · rcases rt_succ hlt with e | ⟨e, hb⟩
      · cases h with
        | here => exact Or.inl e
        | right hr _ => omega
      · have hb := rt_bounds hlt
        cases h with
        | here => rw [e]; exact Or.inr ⟨hlt, .here⟩
        | right hr hs =>
          rw [e] at hr hs
          rcases ih _ (by omega) (by omega) hs with h | ⟨h1, h2⟩
          · exact Or.inl h
          · exact Or.inr ⟨hlt, .right h1 h2⟩
    · have : lo = hi := by omega
      subst this
      cases h with
      | here => exact Or.inl (rt_one lo)
      | right hr _ => rw [rt_one] at hr; omega

/-- the right spine of what is to the left of the new last entry is part of the old right spine -/
theorem Spine.of_last {n lo hi y : Nat} {anc : List Nat} (h : At (n + 1) lo hi anc) (hhi : hi = n + 1) (hlo : lo < n)
    (hs : Spine lo n y) : Spine 0 n y := by
  induction h with
  | root => exact hs
  | left h hl ih => have := h.bounds; omega
  | @right lo hi anc h hr ih =>
    subst hhi
    have hb := h.bounds
    rcases rt_succ (lo := lo) (hi := n) (by omega) with e | ⟨e, -⟩
    · omega
    · rw [e] at hlo hs
      exact ih rfl (by omega) (.right hlo hs)

end Katie.SearchTree

namespace Katie.Alg
open Katie SearchTree SearchSpec Prog

variable {α β : Type}

/-- whatever the answers, `p` only asks for timestamps of positions with property `P` -/
def Asks (P : Nat → Prop) : Prog α → Prop
  | .ret _ => True
  | .op q k => (∃ x, q = .ts x ∧ P x) ∧ ∀ a, Asks P (k a)

theorem Asks.bind {P : Nat → Prop} {p : Prog α} {f : α → Prog β} (h : Asks P p) (hf : ∀ a, Asks P (f a)) :
    Asks P (p >>= f) := by
  change Asks P (p.bind f)
  induction p with
  | ret r =>
    cases r with
    | ok a => exact hf a
    | error e => trivial
  | op q k ih => exact ⟨h.1, fun a => ih a (h.2 a)⟩

theorem Asks.lift_bind {P : Nat → Prop} {r : G α} {f : α → Prog β} (hf : ∀ a, r = .ok a → Asks P (f a)) :
    Asks P (lift r >>= f) := by
  cases r with
  | ok a => exact hf a rfl
  | error e => trivial

theorem Asks.pure {P : Nat → Prop} (a : α) : Asks P (Pure.pure a : Prog α) := trivial

theorem Asks.getTs {P : Nat → Prop} {x : Nat} (h : P x) : Asks P (getTs x) := ⟨⟨x, rfl, h⟩, fun _ => trivial⟩

theorem Asks.ite {P : Nat → Prop} {c : Prop} [Decidable c] {p q : Prog α} (h1 : c → Asks P p) (h2 : ¬ c → Asks P q) :
    Asks P (if c then p else q) := by
  split
  · exact h1 ‹_›
  · exact h2 ‹_›

theorem Asks.eval_congr {P : Nat → Prop} {A A' : (q : Req) → G q.Resp} {p : Prog α} (h : Asks P p)
    (hA : ∀ x, P x → A (.ts x) = A' (.ts x)) : eval A p = eval A' p := by
  induction p with
  | ret r => rfl
  | op q k ih =>
    obtain ⟨⟨x, rfl, hx⟩, h2⟩ := h
    change eval A (k (A (.ts x))) = eval A' (k (A' (.ts x)))
    rw [hA x hx]
    exact ih _ (h2 _)

theorem rightmostLoop_asks {cfg : Config} {n rm : Nat} {P : Nat → Prop} (hP : ∀ y, Spine 0 n y → P y) :
    ∀ (fuel lo : Nat) (anc : List Nat), At n lo n anc → (∀ y, Spine lo n y → Spine 0 n y) →
    Asks P (rightmostLoop cfg n rm fuel (rt lo n)) := by
  intro fuel
  induction fuel with
  | zero => intro lo anc _ _; trivial
  | succ fuel ih =>
    intro lo anc hat hsp
    have hb := hat.bounds
    unfold rightmostLoop
    refine .ite (fun _ => .pure _) (fun hne => ?_)
    refine .bind (.getTs (hP _ (hsp _ .here))) (fun t => ?_)
    refine .ite (fun _ => .pure _) (fun _ => ?_)
    refine .lift_bind (fun r hr => ?_)
    rw [right_rt hat (by omega)] at hr
    cases hr
    exact ih _ _ (.right hat (by omega)) (fun y hy => hsp y (.right (by omega) hy))

theorem rightmostDistinguished_asks {cfg : Config} {n : Nat} (h0 : 0 < n) {P : Nat → Prop}
    (hP : ∀ y, Spine 0 n y → P y) (hl : P (n - 1)) : Asks P (rightmostDistinguished cfg n) := by
  unfold rightmostDistinguished
  refine .ite (fun _ => .pure _) (fun _ => ?_)
  refine .bind (.getTs hl) (fun t => ?_)
  refine .ite (fun _ => .pure _) (fun _ => ?_)
  rw [root_eq h0]
  exact rightmostLoop_asks hP _ _ _ (.root h0) (fun _ h => h)

theorem previousLoop_asks {cfg : Config} {n hi r0 : Nat} {P : Nat → Prop} :
    ∀ (fuel lo : Nat) (anc : List Nat), At n lo hi anc → (∀ y, Spine lo hi y → P y) →
    Asks P (previousLoop cfg n r0 fuel (rt lo hi)) := by
  intro fuel
  induction fuel with
  | zero => intro lo anc _ _; trivial
  | succ fuel ih =>
    intro lo anc hat hsp
    unfold previousLoop
    have hnr := noRightChild_iff hat
    refine .ite (fun _ => .pure _) (fun hne => ?_)
    have hr' : rt lo hi + 1 < hi := by by_contra hc; exact hne (hnr.2 hc)
    refine .bind (.getTs (hsp _ .here)) (fun t => ?_)
    refine .ite (fun _ => .pure _) (fun _ => ?_)
    refine .lift_bind (fun r hr => ?_)
    rw [right_rt hat hr'] at hr
    cases hr
    exact ih _ _ (.right hat hr') (fun y hy => hsp y (.right hr' hy))

/-- the ancestors of the last entry are on the spine -/
theorem anc_spine {n : Nat} : ∀ {anc : List Nat} {lo : Nat}, At n lo n anc → ∀ y ∈ anc, Spine 0 n y := by
  have gen : ∀ {lo hi : Nat} {anc : List Nat}, At n lo hi anc → hi = n →
      (∀ y ∈ anc, Spine 0 n y) ∧ ∀ y, Spine lo n y → Spine 0 n y := by
    intro lo hi anc h
    induction h with
    | root => intro _; simp
    | left h hl ih => have := h.bounds; intro hh; omega
    | right h hr ih =>
      intro hh
      obtain ⟨i1, i2⟩ := ih hh
      subst hh
      refine ⟨?_, fun y hy => i2 y (.right hr hy)⟩
      intro y hy
      rcases List.mem_cons.1 hy with rfl | hy
      · exact i2 _ .here
      · exact i1 y hy
  intro anc lo h
  exact (gen h rfl).1

/-- For a log of `n + 1` entries only the frontier of the first `n` and the last entry are asked for. -/
theorem previousRightmost_asks {cfg : Config} {n : Nat} {P : Nat → Prop} (hP : ∀ y, 0 < n → Spine 0 n y → P y) (hl : P n) :
    Asks P (previousRightmost cfg (n + 1)) := by
  have hP' : ∀ y, Spine 0 (n + 1) y → P y := by
    intro y hy
    rcases Spine.succ n 0 (by omega) (by omega) hy with rfl | ⟨h1, h2⟩
    · exact hl
    · exact hP y h1 h2
  unfold previousRightmost
  refine .bind (rightmostDistinguished_asks (by omega) hP' hl) (fun r => ?_)
  cases r with
  | none => exact .pure _
  | some x =>
    simp only []
    refine .ite (fun _ => .pure _) (fun hx => ?_)
    have hx : x = n := by omega
    subst hx
    obtain ⟨lo, hi, anc, hat, e⟩ := exists_at (x + 1) 0 (x + 1) [] (by omega) (.root (by omega)) x (by omega) (by omega)
    have hb := hat.bounds
    have hhi : hi = x + 1 := by omega
    subst hhi
    have cont : ∀ p : Option Nat, (∀ y, p = some y → P y) → Asks P (do
        let left0 ← parentTs p
        let right0 ← getTs x
        if ¬ noLeftChild x ∧ cfg.isDistinguished left0 right0 then do
          let out ← lift (LogMath.left x)
          previousLoop cfg (x + 1) right0 (x + 1) out
        else pure p) := by
      intro p hp
      refine .bind ?_ (fun l0 => ?_)
      · cases p with
        | none => exact .pure _
        | some y => exact .getTs (hp y rfl)
      · refine .bind (.getTs hl) (fun r0 => ?_)
        refine .ite (fun hc => ?_) (fun _ => .pure _)
        refine .lift_bind (fun out ho => ?_)
        have hlt : lo < rt lo (x + 1) := by
          have := mt (noLeftChild_iff hat).2 (by rw [e]; exact hc.1)
          omega
        have hl' := left_rt hat
        rw [if_pos hlt, e] at hl'
        rw [hl'] at ho
        cases ho
        have hat' := At.left hat hlt
        rw [e] at hat'
        refine previousLoop_asks _ _ _ hat' (fun y hy => hP y (by omega) (Spine.of_last hat rfl (by omega) hy))
    by_cases hroot : x ≠ root (x + 1)
    · rw [if_pos hroot]
      have : Asks P ((lift (parent x (x + 1)) >>= fun p => (do
        let left0 ← parentTs (some p)
        let right0 ← getTs x
        if ¬ noLeftChild x ∧ cfg.isDistinguished left0 right0 then do
          let out ← lift (LogMath.left x)
          previousLoop cfg (x + 1) right0 (x + 1) out
        else pure (some p)))) := by
        refine .lift_bind (fun p hp => ?_)
        refine cont (some p) ?_
        rintro y ⟨⟩
        cases anc with
        | nil =>
          exfalso
          have := C16_aux hat
          rw [e] at this
          exact hroot this
        | cons a anc =>
          have := hat.parent
          rw [e, hp] at this
          cases this
          exact hP' _ (anc_spine hat _ (by simp))
      cases hpar : parent x (x + 1) with
      | error f => trivial
      | ok p => rw [hpar] at this; exact this
    · rw [if_neg hroot]
      exact cont none (by simp)
where
  C16_aux {n lo hi : Nat} (h : At n lo hi []) : rt lo hi = root n := by
    cases h with
    | root h0 => exact (root_eq h0).symm

end Katie.Alg
