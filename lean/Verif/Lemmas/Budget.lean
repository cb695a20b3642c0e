import Verif.Lemmas.Sizes
import Verif.Lemmas.NoFault

/-
How many log entries the algorithms ask about, and how many prefix proofs they ask for, whatever the answers.
-/

namespace Katie.Alg
open Katie Prog SearchTree SearchSpec

variable {α β : Type}

/-- the number of requests of a trace for which a prefix proof is made -/
def proofCount (tr : List Ev) : Nat := (tr.filter (fun e => e.q.proves)).length

theorem proofCount_append (t1 t2 : List Ev) : proofCount (t1 ++ t2) = proofCount t1 + proofCount t2 := by
  simp [proofCount]

/-- Whatever the answers, the program asks about the entries `S` and at most `j` others, asks for at most `k` prefix proofs,
and its results satisfy `Q`. -/
def Costs (S : List Nat) (j k : Nat) (p : Prog α) (Q : α → Prop) : Prop :=
  ∀ tr r, Runs p tr r → (∃ T : List Nat, T.length ≤ j ∧ ∀ e ∈ tr, ∀ x, e.q.pos? = some x → x ∈ S ∨ x ∈ T) ∧
    proofCount tr ≤ k ∧ ∀ a, r = .ok a → Q a

namespace Costs
variable {S : List Nat} {j k j' k' : Nat} {p : Prog α} {f : α → Prog β} {Q : α → Prop} {R : β → Prop}

theorem mono (h : Costs S j k p Q) (hj : j ≤ j') (hk : k ≤ k') {Q' : α → Prop} (hQ : ∀ a, Q a → Q' a) : Costs S j' k' p Q' := by
  intro tr r hr
  obtain ⟨⟨T, h1, h2⟩, h3, h4⟩ := h tr r hr
  exact ⟨⟨T, by omega, h2⟩, by omega, fun a ha => hQ a (h4 a ha)⟩

theorem ret (r : G α) (h : ∀ a, r = .ok a → Q a) : Costs S j k (.ret r) Q := by
  intro tr r' hr
  obtain ⟨rfl, rfl⟩ := runs_ret.1 hr
  exact ⟨⟨[], by simp, by simp⟩, by simp [proofCount], h⟩

theorem pure {a : α} (h : Q a) : Costs S j k (Pure.pure a : Prog α) Q := .ret _ (by rintro _ ⟨⟩; exact h)

theorem fail {m : String} : Costs S j k (Prog.fail m : Prog α) Q := .ret _ (by rintro _ ⟨⟩)

theorem bind (h : Costs S j k p Q) (hf : ∀ a, Q a → Costs S j' k' (f a) R) : Costs S (j + j') (k + k') (p >>= f) R := by
  intro tr r hr
  rcases runs_bind.1 hr with ⟨a, t1, t2, rfl, h1, h2⟩ | ⟨e, h1, rfl⟩
  · obtain ⟨⟨T1, a1, a2⟩, a3, a4⟩ := h t1 _ h1
    obtain ⟨⟨T2, b1, b2⟩, b3, b4⟩ := hf a (a4 a rfl) t2 _ h2
    refine ⟨⟨T1 ++ T2, by simp; omega, ?_⟩, by rw [proofCount_append]; omega, b4⟩
    intro e he x hx
    rcases List.mem_append.1 he with he | he
    · exact (a2 e he x hx).imp id (fun h => List.mem_append_left _ h)
    · exact (b2 e he x hx).imp id (fun h => List.mem_append_right _ h)
  · obtain ⟨⟨T1, a1, a2⟩, a3, -⟩ := h tr _ h1
    exact ⟨⟨T1, by omega, a2⟩, by omega, by rintro _ ⟨⟩⟩

theorem lift_bind {r : G α} (hf : ∀ a, r = .ok a → Costs S j k (f a) R) : Costs S j k (lift r >>= f) R := by
  cases r with
  | ok a => exact hf a rfl
  | error e => exact .ret _ (by rintro _ ⟨⟩)

theorem ite {c : Prop} [Decidable c] {p q : Prog α} (h1 : c → Costs S j k p Q) (h2 : ¬ c → Costs S j k q Q) :
    Costs S j k (if c then p else q) Q := by
  split
  · exact h1 ‹_›
  · exact h2 ‹_›

/-- a request about an entry of `S`, or one that is not about an entry -/
theorem call {q : Req} (hx : ∀ x, q.pos? = some x → x ∈ S) : Costs S 0 (if q.proves then 1 else 0) (Prog.call q) (fun _ => True) := by
  intro tr r hr
  have := runs_call.1 hr
  subst this
  refine ⟨⟨[], by simp, ?_⟩, ?_, fun _ _ => trivial⟩
  · intro e he x hp
    rw [List.mem_singleton.1 he] at hp
    exact .inl (hx x hp)
  · unfold proofCount
    simp only [List.filter_cons, List.filter_nil]
    split <;> simp

/-- a request about any entry -/
theorem call_any {q : Req} : Costs S 1 (if q.proves then 1 else 0) (Prog.call q) (fun _ => True) := by
  intro tr r hr
  have := runs_call.1 hr
  subst this
  refine ⟨⟨q.pos?.toList, ?_, ?_⟩, ?_, fun _ _ => trivial⟩
  · cases q.pos? <;> simp
  · intro e he x hp
    rw [List.mem_singleton.1 he] at hp
    exact .inr (by rw [hp]; simp)
  · unfold proofCount
    simp only [List.filter_cons, List.filter_nil]
    split <;> simp

theorem getSearch {x v : Nat} {b : Bool} (hx : x ∈ S) : Costs S 0 1 (Prog.getSearch x v b) (fun _ => True) :=
  (Costs.call (q := .search x v b) (by rintro x ⟨⟩; exact hx)).mono (le_refl _) (by simp [Req.proves]) (fun _ h => h)

theorem getTs {x : Nat} (hx : x ∈ S) : Costs S 0 0 (Prog.getTs x) (fun _ => True) :=
  (Costs.call (q := .ts x) (by rintro x ⟨⟩; exact hx)).mono (le_refl _) (by simp [Req.proves]) (fun _ h => h)

theorem of_more {x : Nat} (h : Costs (x :: S) j k p Q) : Costs S (j + 1) k p Q := by
  intro tr r hr
  obtain ⟨⟨T, h1, h2⟩, h3, h4⟩ := h tr r hr
  refine ⟨⟨x :: T, by simp; omega, ?_⟩, h3, h4⟩
  intro e he y hy
  rcases h2 e he y hy with h | h
  · rcases List.mem_cons.1 h with rfl | h
    · exact .inr List.mem_cons_self
    · exact .inl h
  · exact .inr (List.mem_cons_of_mem _ h)

theorem sub {S' : List Nat} (h : Costs S j k p Q) (hs : ∀ x ∈ S, x ∈ S') : Costs S' j k p Q := by
  intro tr r hr
  obtain ⟨⟨T, h1, h2⟩, h3, h4⟩ := h tr r hr
  exact ⟨⟨T, h1, fun e he x hx => (h2 e he x hx).imp (hs x) id⟩, h3, h4⟩

theorem attempt (h : Costs S j k p Q) : Costs S j k p.attempt (fun r => ∀ a, r = .ok a → Q a) := by
  induction p generalizing j k S with
  | ret r =>
    have hq := (h [] r (.ret r)).2.2
    match r with
    | .ok a => exact .ret _ (by rintro _ ⟨⟩; exact hq)
    | .error (.err m) => exact .ret _ (by rintro _ ⟨⟩; rintro _ ⟨⟩)
    | .error (.panic m) => exact .ret _ (by rintro _ ⟨⟩)
    | .error .diverge => exact .ret _ (by rintro _ ⟨⟩)
  | op q f ih =>
    have key : ∀ a tr r, Runs (f a).attempt tr r → ∃ r', Runs (f a) tr r' ∧ ∀ b, r = .ok b → b = r' := by
      intro a
      generalize f a = g
      induction g with
      | ret r0 =>
        intro tr r hr
        match r0 with
        | .ok a =>
          obtain ⟨rfl, rfl⟩ := runs_ret.1 hr
          exact ⟨_, .ret _, by rintro _ ⟨⟩; rfl⟩
        | .error (.err m) =>
          obtain ⟨rfl, rfl⟩ := runs_ret.1 hr
          exact ⟨_, .ret _, by rintro _ ⟨⟩; rfl⟩
        | .error (.panic m) =>
          obtain ⟨rfl, rfl⟩ := runs_ret.1 hr
          exact ⟨_, .ret _, by rintro _ ⟨⟩⟩
        | .error .diverge =>
          obtain ⟨rfl, rfl⟩ := runs_ret.1 hr
          exact ⟨_, .ret _, by rintro _ ⟨⟩⟩
      | op q' f' ih' =>
        intro tr r hr
        cases hr with
        | op a hr =>
          obtain ⟨r', h1, h2⟩ := ih' a _ _ hr
          exact ⟨r', .op a h1, h2⟩
    intro tr r hr
    cases hr with
    | op a hr =>
      obtain ⟨r', h1, h2⟩ := key a _ _ hr
      obtain ⟨h3, h4, h5⟩ := h _ r' (.op a h1)
      refine ⟨h3, h4, ?_⟩
      rintro b hb a rfl
      exact h5 a (h2 _ hb).symm

theorem of_asks {P : Nat → Prop} (h : Asks P p) (hP : ∀ x, P x → x ∈ S) : Costs S j k p (fun _ => True) := by
  induction p with
  | ret r => exact .ret _ (fun _ _ => trivial)
  | op q f ih =>
    obtain ⟨⟨x, rfl, hx⟩, h2⟩ := h
    intro tr r hr
    cases hr with
    | op a hr =>
      obtain ⟨⟨T, a1, a2⟩, a3, a4⟩ := ih a (h2 a) _ _ hr
      refine ⟨⟨T, a1, ?_⟩, ?_, a4⟩
      · intro e he y hy
        rcases List.mem_cons.1 he with rfl | he
        · cases hy; exact .inl (hP x hx)
        · exact a2 e he y hy
      · simpa [proofCount, Req.proves] using a3

theorem and_spec {P : Req → Prop} {E : Fault → Prop} (h : Costs S j k p (fun _ => True)) (hs : Spec p P Q E) : Costs S j k p Q := by
  intro tr r hr
  obtain ⟨h1, h2, -⟩ := h tr r hr
  refine ⟨h1, h2, ?_⟩
  rintro a rfl
  exact hs.ok _ _ hr

end Costs

/-! ### the algorithms -/

theorem updateView_costs {cfg : Config} {now n : Nat} {m : Option Nat} {xs : List Nat} (hx : SearchTree.updateView n m = .ok xs)
    {S : List Nat} (hS : ∀ x ∈ xs, x ∈ S) (hl : n - 1 ∈ S) : Costs S 0 0 (Alg.updateView cfg now n m) (fun _ => True) := by
  refine .of_asks (P := fun x => x ∈ S) ?_ (fun _ h => h)
  unfold Alg.updateView
  refine .ite (fun _ => trivial) (fun _ => .ite (fun _ => .pure _) (fun _ => ?_))
  refine .lift_bind (fun ys hys => ?_)
  rw [hx] at hys
  cases hys
  refine .bind (getAllTs_asksP hS) (fun _ => .bind (.getTs hl) (fun t => ?_))
  exact .ite (fun _ => trivial) (fun _ => .ite (fun _ => trivial) (fun _ => .pure _))

theorem greatestLoop_costs {v n : Nat} {S : List Nat} : ∀ (fuel lo : Nat) (anc : List Nat) (term : Option Nat), At n lo n anc →
    (∀ y, Spine lo n y → y ∈ S) → Costs S 0 (Nat.log2 (n - lo) + 1) (greatestLoop v n fuel (rt lo n) term) (fun _ => True) := by
  intro fuel
  induction fuel with
  | zero => intro lo anc term _ _; exact .ret _ (by rintro _ ⟨⟩)
  | succ fuel ih =>
    intro lo anc term h hS
    have hb := h.bounds
    unfold greatestLoop
    refine (Costs.bind (j' := 0) (k' := Nat.log2 (n - lo)) (.getSearch (hS _ .here)) (fun r _ => ?_)).mono
      (le_refl _) (by omega) (fun _ h => h)
    refine .ite (fun _ => .fail) (fun _ => .ite (fun hx => ?_) (fun _ => .ite (fun _ => .fail) (fun _ => .ite (fun _ => .fail) (fun _ => .pure trivial))))
    refine .lift_bind (fun c hc => ?_)
    have hr : rt lo n + 1 < n := by omega
    rw [right_rt h hr] at hc
    cases hc
    have hat := At.right h hr
    have hlog : Nat.log2 (n - (rt lo n + 1)) + 1 ≤ Nat.log2 (n - lo) := by
      obtain ⟨k1, k2⟩ := log2_spec (m := n - lo) (by omega)
      have e : rt lo n = lo + 2 ^ Nat.log2 (n - lo) - 1 := rfl
      have e2 : 2 ^ (Nat.log2 (n - lo) + 1) = 2 * 2 ^ Nat.log2 (n - lo) := by ring
      have : Nat.log2 (n - (rt lo n + 1)) < Nat.log2 (n - lo) := log2_lt_of_lt_pow (by omega) (by omega)
      omega
    exact (ih _ _ _ hat (fun y hy => hS y (.right hr hy))).mono (le_refl _) hlog (fun _ h => h)

theorem greatestVersionSearch_costs {cfg : Config} {v n : Nat} {S : List Nat} (hS : ∀ y, Spine 0 n y → y ∈ S) (hl : 0 < n → n - 1 ∈ S) :
    Costs S 0 (Nat.log2 n + 1) (greatestVersionSearch cfg v n) (fun _ => True) := by
  unfold greatestVersionSearch
  refine .ite (fun _ => .fail) (fun h0 => ?_)
  have h0 : 0 < n := by omega
  have hdle := ((Costs.of_asks (j := 0) (k := 0) (S := S) (rightmostDistinguished_asks (cfg := cfg) h0 (P := fun x => x ∈ S) hS (hl h0))
    (fun _ h => h)).and_spec (rightmostDistinguished_mild (cfg := cfg) (n := n))).attempt
  refine (Costs.bind (j' := 0) (k' := Nat.log2 n + 1) hdle (fun d hd => ?_)).mono (by omega) (by omega) (fun _ h => h)
  cases d with
  | error e => exact .pure trivial
  | ok d =>
    have h := hd d rfl
    have low : ∀ lo anc, At n lo n anc → Costs S 0 (Nat.log2 n + 1) (greatestLoop v n n (rt lo n) none) (fun _ => True) := by
      intro lo anc hat
      have := hat.depth
      refine (greatestLoop_costs _ _ _ _ hat (fun y hy => hS y ?_)).mono (le_refl _) (by omega) (fun _ h => h)
      exact spine_of hat hy
    cases d with
    | none =>
      simp only [Option.getD_none]
      rw [root_eq h0]
      exact low _ _ (.root h0)
    | some x =>
      obtain ⟨lo, anc, rfl, hat⟩ := h x rfl
      exact low _ _ hat
where
  spine_of {n lo y : Nat} {anc : List Nat} (h : At n lo n anc) (hs : Spine lo n y) : Spine 0 n y := by
    have gen : ∀ {lo hi : Nat} {anc : List Nat}, At n lo hi anc → hi = n → ∀ y, Spine lo n y → Spine 0 n y := by
      intro lo hi anc h
      induction h with
      | root => intro _ y hy; exact hy
      | left h hl ih => have := h.bounds; intro hh; omega
      | right h hr ih =>
        intro hh y hy
        subst hh
        exact ih rfl y (.right hr hy)
    exact gen h rfl y hs

theorem fixedFinish_costs {v : Nat} {S : List Nat} {term : Option Nat} {exp : Bool} {dist : List Nat} :
    Costs S 1 1 (fixedFinish v term exp dist) (fun _ => True) := by
  unfold fixedFinish
  cases term with
  | none => exact .fail
  | some t =>
    refine .ite (fun _ => .fail) (fun _ => ?_)
    exact (Costs.bind (j' := 0) (k' := 0) .call_any (fun _ _ => .pure trivial)).mono (by omega) (by simp [Req.proves]) (fun _ h => h)

theorem fixedLoop_costs {cfg : Config} {v n rm : Nat} : ∀ (fuel lo hi : Nat) (anc : List Nat) (s : FixedState) (S : List Nat),
    At n lo hi anc → s.x = rt lo hi →
    Costs S (Nat.log2 (hi - lo) + 2) (Nat.log2 (hi - lo) + 2) (fixedLoop cfg v n rm fuel s) (fun _ => True) := by
  intro fuel
  induction fuel with
  | zero => intro lo hi anc s S _ _; exact .ret _ (by rintro _ ⟨⟩)
  | succ fuel ih =>
    intro lo hi anc s S h hsx
    have hb := h.bounds
    obtain ⟨k1, k2⟩ := log2_spec (m := hi - lo) (by omega)
    have e : rt lo hi = lo + 2 ^ Nat.log2 (hi - lo) - 1 := rfl
    have e2 : 2 ^ (Nat.log2 (hi - lo) + 1) = 2 * 2 ^ Nat.log2 (hi - lo) := by ring
    have hright : ∀ S, ∀ s' : Nat → FixedState, (∀ r, (s' r).x = r) → ¬ noRightChild s.x n = true →
        Costs S (Nat.log2 (hi - lo) + 1) (Nat.log2 (hi - lo) + 1) (do
        let r ← lift (SearchTree.right s.x n)
        fixedLoop cfg v n rm fuel (s' r)) (fun _ => True) := by
      intro S s' hs' hnr
      have hr : rt lo hi + 1 < hi := by
        by_contra hc
        exact hnr (by rw [hsx]; exact (noRightChild_iff h).2 hc)
      refine .lift_bind (fun c hc => ?_)
      rw [hsx, right_rt h hr] at hc
      cases hc
      have : Nat.log2 (hi - (rt lo hi + 1)) < Nat.log2 (hi - lo) := log2_lt_of_lt_pow (by omega) (by omega)
      exact (ih _ _ _ _ S (.right h hr) (hs' _)).mono (by omega) (by omega) (fun _ h => h)
    have hleft : ∀ S, ∀ s' : Nat → FixedState, (∀ r, (s' r).x = r) → ¬ noLeftChild s.x = true →
        Costs S (Nat.log2 (hi - lo) + 1) (Nat.log2 (hi - lo) + 1) (do
        let r ← lift (LogMath.left s.x)
        fixedLoop cfg v n rm fuel (s' r)) (fun _ => True) := by
      intro S s' hs' hnl
      have hl : lo < rt lo hi := by
        have := mt (noLeftChild_iff h).2 (by rw [← hsx]; exact hnl)
        omega
      refine .lift_bind (fun c hc => ?_)
      rw [hsx, left_rt h, if_pos hl] at hc
      cases hc
      have : Nat.log2 (rt lo hi - lo) < Nat.log2 (hi - lo) := log2_lt_of_lt_pow (by omega) (by omega)
      exact (ih _ _ _ _ S (.left h hl) (hs' _)).mono (by omega) (by omega) (fun _ h => h)
    have hfin : ∀ (S : List Nat) term exp dist, Costs S (Nat.log2 (hi - lo) + 1) (Nat.log2 (hi - lo) + 1) (fixedFinish v term exp dist) (fun _ => True) :=
      fun S term exp dist => fixedFinish_costs.mono (by omega) (by omega) (fun _ h => h)
    refine Costs.of_more (x := s.x) (j := Nat.log2 (hi - lo) + 1) ?_
    unfold fixedLoop
    refine (Costs.bind (j := 0) (k := 0) (j' := Nat.log2 (hi - lo) + 1) (k' := Nat.log2 (hi - lo) + 2)
      (.getTs List.mem_cons_self)
      (fun t _ => ?_)).mono (by omega) (by omega) (fun _ h => h)
    refine .ite (fun _ => .ite (fun _ => (hfin _ _ _ _).mono (le_refl _) (by omega) (fun _ h => h))
      (fun hn => (hright _ _ (fun _ => rfl) hn).mono (le_refl _) (by omega) (fun _ h => h))) (fun _ => ?_)
    refine (Costs.bind (j := 0) (k := 1) (j' := Nat.log2 (hi - lo) + 1) (k' := Nat.log2 (hi - lo) + 1)
      (.getSearch List.mem_cons_self)
      (fun t _ => ?_)).mono (by omega) (by omega) (fun _ h => h)
    refine .ite (fun _ => .ite (fun _ => hfin _ _ _ _) (fun hn => hright _ _ (fun _ => rfl) hn)) (fun _ => ?_)
    refine .ite (fun _ => .ite (fun _ => hfin _ _ _ _) (fun hn => hleft _ _ (fun _ => rfl) hn)) (fun _ => ?_)
    exact .ite (fun _ => .pure trivial) (fun _ => .ite (fun _ => .pure trivial) (fun _ => .fail))

theorem fixedVersionSearch_costs {cfg : Config} {v n : Nat} {S : List Nat} (hl : 0 < n → n - 1 ∈ S) :
    Costs S (Nat.log2 n + 2) (Nat.log2 n + 2) (fixedVersionSearch cfg v n) (fun _ => True) := by
  unfold fixedVersionSearch
  refine .ite (fun _ => .fail) (fun h0 => ?_)
  have h0 : 0 < n := by omega
  refine (Costs.bind (j := 0) (k := 0) (j' := Nat.log2 n + 2) (k' := Nat.log2 n + 2)
    (.getTs (hl h0))
    (fun t _ => ?_)).mono (by omega) (by omega) (fun _ h => h)
  rw [root_eq h0]
  exact fixedLoop_costs _ _ _ _ _ _ (.root h0) rfl

end Katie.Alg
