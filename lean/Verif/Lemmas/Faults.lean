import Verif.Lemmas.Monitor

/-
How programs fail: `Spec p Q F` says that a run of `p` ends with a value satisfying `Q`, or with a fault that
satisfies `F`, or with a fault that the provider answered to one of the requests satisfying `R`.
-/

namespace Katie.Alg
open Katie Prog SearchTree SearchSpec

variable {α β : Type}

/-- the fault is the answer to a request with property `R` -/
def FromProvider (R : Req → Prop) (tr : List Ev) (f : Fault) : Prop := ∃ q, R q ∧ (⟨q, .error f⟩ : Ev) ∈ tr

/-- how a program can end -/
structure Spec (p : Prog α) (R : Req → Prop) (Q : α → Prop) (F : Fault → Prop) : Prop where
  ok : ∀ tr a, Runs p tr (.ok a) → Q a
  error : ∀ tr f, Runs p tr (.error f) → FromProvider R tr f ∨ F f

theorem FromProvider.mono {R R' : Req → Prop} {tr tr' : List Ev} {f : Fault} (h : FromProvider R tr f) (hR : ∀ q, R q → R' q)
    (ht : ∀ e ∈ tr, e ∈ tr') : FromProvider R' tr' f := by
  obtain ⟨q, h1, h2⟩ := h
  exact ⟨q, hR q h1, ht _ h2⟩

theorem Spec.imp {p : Prog α} {R R' : Req → Prop} {Q Q' : α → Prop} {F F' : Fault → Prop} (h : Spec p R Q F)
    (hR : ∀ q, R q → R' q) (hQ : ∀ a, Q a → Q' a) (hF : ∀ f, F f → F' f) : Spec p R' Q' F' :=
  ⟨fun tr a hr => hQ a (h.ok tr a hr), fun tr f hr => (h.error tr f hr).imp (fun h => h.mono hR (fun _ h => h)) (hF f)⟩

theorem Spec.pure {a : α} {R : Req → Prop} {Q : α → Prop} {F : Fault → Prop} (h : Q a) : Spec (pure a) R Q F := by
  refine ⟨fun tr b hr => ?_, fun tr f hr => ?_⟩
  · cases (runs_pure.1 hr).2; exact h
  · cases (runs_pure.1 hr).2

theorem Spec.fail {s : String} {R : Req → Prop} {Q : α → Prop} {F : Fault → Prop} (h : F (.err s)) :
    Spec (fail s : Prog α) R Q F := by
  refine ⟨fun tr b hr => absurd hr runs_fail_ok, fun tr f hr => ?_⟩
  cases (runs_fail.1 hr).2; exact Or.inr h

theorem Spec.lift_ok {r : G α} {R : Req → Prop} {Q : α → Prop} {F : Fault → Prop} {a : α} (he : r = .ok a) (h : Q a) :
    Spec (lift r) R Q F := by
  subst he; exact Spec.pure h

theorem Spec.call {q : Req} {R : Req → Prop} {F : Fault → Prop} (h : R q) : Spec (call q) R (fun _ => True) F := by
  refine ⟨fun _ _ _ => trivial, fun tr f hr => Or.inl ⟨q, h, ?_⟩⟩
  rw [runs_call.1 hr]; simp

theorem Spec.bind {p : Prog α} {f : α → Prog β} {R : Req → Prop} {Q : α → Prop} {Q' : β → Prop} {F : Fault → Prop}
    (h : Spec p R Q F) (hf : ∀ a, Q a → Spec (f a) R Q' F) : Spec (p >>= f) R Q' F := by
  refine ⟨fun tr b hr => ?_, fun tr e hr => ?_⟩
  · obtain ⟨a, t1, t2, rfl, h1, h2⟩ := runs_bind_ok.1 hr
    exact (hf a (h.ok _ _ h1)).ok _ _ h2
  · rcases runs_bind.1 hr with ⟨a, t1, t2, rfl, h1, h2⟩ | ⟨e', h1, h2⟩
    · exact ((hf a (h.ok _ _ h1)).error _ _ h2).imp (fun h => h.mono (fun _ h => h) (fun _ h => List.mem_append_right _ h)) id
    · cases h2
      exact h.error _ _ h1

theorem Spec.bindT {p : Prog α} {f : α → Prog β} {R : Req → Prop} {Q' : β → Prop} {F : Fault → Prop}
    (h : Spec p R (fun _ => True) F) (hf : ∀ a, Spec (f a) R Q' F) : Spec (p >>= f) R Q' F :=
  h.bind (fun a _ => hf a)

theorem Spec.ite {c : Prop} [Decidable c] {p q : Prog α} {R : Req → Prop} {Q : α → Prop} {F : Fault → Prop}
    (h1 : c → Spec p R Q F) (h2 : ¬ c → Spec q R Q F) : Spec (if c then p else q) R Q F := by
  split
  · exact h1 ‹_›
  · exact h2 ‹_›

theorem Spec.trueQ {p : Prog α} {R : Req → Prop} {Q : α → Prop} {F : Fault → Prop} (h : Spec p R Q F) :
    Spec p R (fun _ => True) F := h.imp (fun _ h => h) (fun _ _ => trivial) (fun _ h => h)

/-- `attempt` turns errors, but not panics, into values -/
theorem runs_attempt {p : Prog α} {tr : List Ev} {r : G (G α)} (h : Runs (attempt p) tr r) :
    ∃ r', Runs p tr r' ∧ ((∃ m, r' = .error (.err m) ∧ r = .ok r') ∨ (∃ a, r' = .ok a ∧ r = .ok r') ∨
      (∃ f, r' = .error f ∧ (∀ m, f ≠ .err m) ∧ r = .error f)) := by
  induction p generalizing tr with
  | ret x =>
    match x, h with
    | .ok a, h => obtain ⟨rfl, rfl⟩ := runs_ret.1 h; exact ⟨_, .ret _, Or.inr (Or.inl ⟨a, rfl, rfl⟩)⟩
    | .error (.err m), h => obtain ⟨rfl, rfl⟩ := runs_ret.1 h; exact ⟨_, .ret _, Or.inl ⟨m, rfl, rfl⟩⟩
    | .error (.panic m), h => obtain ⟨rfl, rfl⟩ := runs_ret.1 h; exact ⟨_, .ret _, Or.inr (Or.inr ⟨_, rfl, by simp, rfl⟩)⟩
    | .error .diverge, h => obtain ⟨rfl, rfl⟩ := runs_ret.1 h; exact ⟨_, .ret _, Or.inr (Or.inr ⟨_, rfl, by simp, rfl⟩)⟩
  | op q k ih =>
    unfold attempt at h
    cases h with
    | op a h =>
      obtain ⟨r', h1, h2⟩ := ih a h
      exact ⟨r', .op a h1, h2⟩

theorem Spec.attempt {p : Prog α} {R : Req → Prop} {Q : α → Prop} {F : Fault → Prop} (h : Spec p R Q F) :
    Spec (attempt p) R (fun r => ∀ a, r = .ok a → Q a) F := by
  refine ⟨fun tr r hr a ha => ?_, fun tr f hr => ?_⟩
  · obtain ⟨r', h1, ⟨m, rfl, h3⟩ | ⟨b, rfl, h3⟩ | ⟨f, rfl, -, h3⟩⟩ := runs_attempt hr
    · cases h3; cases ha
    · cases h3; cases ha; exact h.ok _ _ h1
    · cases h3
  · obtain ⟨r', h1, ⟨m, rfl, h3⟩ | ⟨b, rfl, h3⟩ | ⟨f', rfl, -, h3⟩⟩ := runs_attempt hr
    · cases h3
    · cases h3
    · cases h3; exact h.error _ _ h1

/-! ### the programs -/

/-- a timestamp in the tree -/
def TsReq (n : Nat) : Req → Prop
  | .ts x => x < n
  | _ => False

theorem distAncLoop_spec {m : Monitor} {target : Nat} {F : Fault → Prop} {R : Req → Prop} (hR : ∀ q, TsReq m.treeSize q → R q) :
    ∀ (fuel lo hi : Nat) (anc : List Nat) (l r : Nat) (acc : Option Nat), At m.treeSize lo hi anc → lo ≤ target → target < hi →
    hi - lo < fuel → Spec (distAncLoop m target fuel (rt lo hi) l r acc) R (fun _ => True) F := by
  intro fuel
  induction fuel with
  | zero => intro lo hi anc l r acc h h1 h2 hf; omega
  | succ fuel ih =>
    intro lo hi anc l r acc h h1 h2 hf
    have hb := h.bounds
    unfold distAncLoop
    refine .ite (fun _ => .pure trivial) (fun _ => ?_)
    simp only []
    refine .ite (fun _ => .pure trivial) (fun hne => ?_)
    refine .bindT (.call (hR _ (show rt lo hi < m.treeSize by omega))) (fun t => ?_)
    refine .ite (fun hgt => ?_) (fun hgt => ?_)
    · refine .bind (Q := fun c => c = rt lo (rt lo hi)) (.lift_ok ?_ rfl) ?_
      · rw [left_rt h, if_pos (by omega)]
      · rintro c rfl
        exact ih _ _ _ _ _ _ (.left h (by omega)) h1 (by omega) (by omega)
    · refine .bind (Q := fun c => c = rt (rt lo hi + 1) hi) (.lift_ok ?_ rfl) ?_
      · rw [right_rt h (by omega)]
      · rintro c rfl
        exact ih _ _ _ _ _ _ (.right h (by omega)) (by omega) h2 (by omega)

theorem distinguishedAncestor_spec {m : Monitor} {x : Nat} {F : Fault → Prop} {R : Req → Prop} (hR : ∀ q, TsReq m.treeSize q → R q)
    (hx : x < m.treeSize) : Spec (distinguishedAncestor m x) R (fun _ => True) F := by
  unfold distinguishedAncestor
  rw [root_eq (by omega)]
  exact distAncLoop_spec hR _ _ _ _ _ _ _ (.root (by omega)) (by omega) hx (by omega)

theorem rightDirectPath_ok {n x : Nat} (hx : x < n) : ∃ path, rightDirectPath x n = .ok path ∧ ∀ y ∈ path, RightAnc n x y := by
  obtain ⟨lo, hi, anc, hAt, e⟩ := exists_at n 0 n [] (by omega) (.root (by omega)) x (by omega) hx
  rw [← e]
  refine ⟨_, rightDirectPath_eq hAt, ?_⟩
  intro y hy
  rw [rightAnc_iff hAt]
  rw [List.mem_filter] at hy
  simpa using hy

theorem inspectList_sub {stop : Option Nat} {skip : Bool} : ∀ {l : List Nat} {y : Nat}, y ∈ inspectList stop skip l → y ∈ l := by
  intro l
  induction l with
  | nil => intro y hy; exact hy
  | cons p l ih =>
    intro y hy
    unfold inspectList at hy
    split at hy
    · split at hy
      · simp at hy
      · simp at hy; simp [hy]
    · rcases List.mem_cons.1 hy with rfl | hy
      · simp
      · simp [ih hy]

/-- a request made while monitoring the positions of `c`: a timestamp, or a ladder from an entry above -/
def ContactReq (n : Nat) (c : PMap) : Req → Prop
  | .ts x => x < n
  | .monitor y v => ∃ x, (x, v) ∈ c ∧ RightAnc n x y
  | _ => False

/-- the non-monotonic error, or none if all versions seen before are greater -/
def MonoErr (b : Prop) (f : Fault) : Prop := b ∧ f = .err "monitoring detected versions that are not monotonic"

theorem inspectAll_spec {ver : Nat} {R : Req → Prop} {b : Prop} : ∀ (L : List Nat) (prev : PMap), L.Pairwise (· < ·) → (∀ y ∈ L, R (.monitor y ver)) →
    (¬ b → ∀ y ∈ L, ∀ pv, prev.lookup y = some pv → ver < pv) →
    Spec (inspectAll ver L prev) R
      (fun r => ∀ y pv, r.2.lookup y = some pv → prev.lookup y = some pv ∨ pv = ver) (MonoErr b) := by
  intro L
  induction L with
  | nil => intro prev _ _ _; unfold inspectAll; exact .pure (fun y pv h => Or.inl h)
  | cons y L ih =>
    intro prev hs hR hp
    rw [List.pairwise_cons] at hs
    unfold inspectAll
    split
    · rename_i pv hpv
      refine .ite (fun hle => .fail ⟨?_, rfl⟩) (fun _ => .pure (fun y pv h => Or.inl h))
      by_contra hb
      have := hp hb y (by simp) pv hpv; omega
    · refine .bindT (.call (hR y (by simp))) (fun _ => ?_)
      refine (ih _ hs.2 (fun z hz => hR z (by simp [hz])) ?_).imp (fun _ h => h) ?_ (fun _ h => h)
      · intro hb z hz pv hpv
        rw [lookup_set] at hpv
        have := hs.1 z hz
        rw [if_neg (by omega)] at hpv
        exact hp hb z (by simp [hz]) pv hpv
      · intro r hr z pv hz
        rcases hr z pv hz with h | h
        · rw [lookup_set] at h
          split at h
          · cases h; exact Or.inr rfl
          · exact Or.inl h
        · exact Or.inr h

theorem inspectList_sorted {stop : Option Nat} {skip : Bool} {l : List Nat} (h : l.Pairwise (· < ·)) :
    (inspectList stop skip l).Pairwise (· < ·) := by
  induction l with
  | nil => exact h
  | cons p l ih =>
    rw [List.pairwise_cons] at h
    unfold inspectList
    split
    · split <;> simp
    · rw [List.pairwise_cons]
      exact ⟨fun y hy => h.1 y (inspectList_sub hy), ih h.2⟩

theorem contactMonitor1_spec {m : Monitor} {x ver : Nat} {prev : PMap} {R : Req → Prop} {b : Prop} (hx : x < m.treeSize)
    (hR1 : ∀ q, TsReq m.treeSize q → R q) (hR2 : ∀ y, RightAnc m.treeSize x y → R (.monitor y ver))
    (hp : ¬ b → ∀ y pv, prev.lookup y = some pv → ver < pv) :
    Spec (contactMonitor1 m x ver prev) R (fun r => ∀ y pv, r.2.lookup y = some pv → prev.lookup y = some pv ∨ pv = ver) (MonoErr b) := by
  obtain ⟨lo, hi, anc, hAt, e⟩ := exists_at m.treeSize 0 m.treeSize [] (by omega) (.root (by omega)) x (by omega) hx
  have hbd := hAt.bounds
  have hpe := rightDirectPath_eq hAt
  rw [e] at hpe
  have hps := (rpath_sorted hAt hbd.1 hbd.2.1).1
  rw [e] at hps
  unfold contactMonitor1
  refine .bindT (distinguishedAncestor_spec hR1 hx) (fun stop => ?_)
  refine .ite (fun _ => .pure (fun y pv h => Or.inl h)) (fun _ => ?_)
  refine .bind (.lift_ok hpe rfl) ?_
  rintro path rfl
  refine .bind (inspectAll_spec _ prev (inspectList_sorted hps) ?_ (fun hb y _ pv h => hp hb y pv h)) ?_
  · intro y hy
    apply hR2
    have := inspectList_sub hy
    rw [← e, rightAnc_iff hAt, e]
    rw [List.mem_filter] at this
    simpa using this
  · rintro ⟨done, prev'⟩ h
    exact .ite (fun _ => .pure h) (fun _ => .ite (fun _ => .pure h) (fun _ => .pure h))

theorem contactLoop_spec {m : Monitor} {c : PMap} {b : Prop} : ∀ (rest prev ptrs : PMap), rest.Pairwise (fun a b => a.1 > b.1) →
    (∀ e ∈ rest, e.1 < m.treeSize ∧ e ∈ c) → (¬ b → rest.Pairwise (fun a b => a.2 > b.2)) →
    (¬ b → ∀ e ∈ rest, ∀ y pv, prev.lookup y = some pv → e.2 < pv) →
    Spec (contactLoop m rest prev ptrs) (ContactReq m.treeSize c) (fun _ => True) (MonoErr b) := by
  intro rest
  induction rest with
  | nil => intro prev ptrs _ _ _ _; unfold contactLoop; exact .pure trivial
  | cons e rest ih =>
    obtain ⟨x, ver⟩ := e
    intro prev ptrs hs hn hv hp
    rw [List.pairwise_cons] at hs
    unfold contactLoop
    refine .bind (contactMonitor1_spec (b := b) (hn (x, ver) (by simp)).1 ?_ ?_ (fun hb y pv h => hp hb (x, ver) (by simp) y pv h)) ?_
    · intro q hq; cases q <;> simp_all [TsReq, ContactReq]
    · intro y hy; exact ⟨x, (hn (x, ver) (by simp)).2, hy⟩
    · rintro ⟨u, prev'⟩ h
      have key : ∀ ptrs', Spec (contactLoop m rest prev' ptrs') (ContactReq m.treeSize c) (fun _ => True) (MonoErr b) := by
        intro ptrs'
        refine ih _ _ hs.2 (fun e he => hn e (by simp [he])) (fun hb => (List.pairwise_cons.1 (hv hb)).2) ?_
        intro hb e he y pv hy
        rcases h y pv hy with h | h
        · exact hp hb e (by simp [he]) y pv h
        · rw [h]; exact (List.pairwise_cons.1 (hv hb)).1 e he
      cases u with
      | none => exact key _
      | some y => exact key _

end Katie.Alg
