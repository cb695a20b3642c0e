import Verif.Model.CmdRoutes

/-
C96: the metrics of the server program do not contain account names; a consistency proof is added when it was asked for.
-/

namespace Katie.CmdServerSpec
open Katie Katie.CmdServer

/-- the requests that the server program routes to its API -/
inductive Route where
  | info
  | consistency
  | account
  deriving DecidableEq

/-- a part of a path that a variable without a pattern can match (gorilla/mux: `[^/]+`) -/
def Segment (s : List Char) : Prop := s ≠ [] ∧ '/' ∉ s

/-- what the pattern `[0-9]+` matches -/
def Digits (s : List Char) : Prop := s ≠ [] ∧ ∀ c ∈ s, c.isDigit = true

/-- main.go:58-62: which paths are routed to which function; the home page is not counted.  For an account also the account and the
parameter `last`. -/
inductive Routed : List Char → Route → Option (List Char) → Option (List Char) → Prop
  | info : Routed "/v1/meta".toList .info none none
  | consistency {a b : List Char} : Digits a → Digits b → Routed ("/v1/consistency/".toList ++ a ++ '/' :: b) .consistency none none
  | account {a : List Char} : Segment a → Routed ("/v1/account/".toList ++ a) .account (some a) none
  | accountFrom {a b : List Char} : Segment a → Digits b → Routed ("/v1/account/".toList ++ a ++ '/' :: b) .account (some a) (some b)

/-- the label of the counter for each kind of request -/
def label : Route → Bool → List Char
  | .info, _ => "/v1/meta".toList
  | .consistency, _ => "/v1/consistency".toList
  | .account, false => "/v1/account".toList
  | .account, true => "POST:/v1/account".toList

end Katie.CmdServerSpec

namespace Katie.Props
open Katie Katie.CmdServer Katie.CmdServerSpec

theorem split_ne_nil (s : List Char) : split s ≠ [] := by
  cases s with
  | nil => simp [split]
  | cons c s =>
    unfold split
    split
    · simp
    · split <;> simp

/-- the first part ends at the first `/` -/
theorem split_append {p : List Char} (hp : '/' ∉ p) (s : List Char) : split (p ++ '/' :: s) = p :: split s := by
  induction p with
  | nil => simp [split]
  | cons c p ih =>
    rw [List.mem_cons, not_or] at hp
    rw [List.cons_append, split, if_neg (Ne.symm hp.1), ih hp.2]

theorem split_last {p : List Char} (hp : '/' ∉ p) : split p = [p] := by
  induction p with
  | nil => simp [split]
  | cons c p ih =>
    rw [List.mem_cons, not_or] at hp
    rw [split, if_neg (Ne.symm hp.1), ih hp.2]

/-- **C96.**  The label under which a request is counted depends on the kind of the request and on whether it is a POST request, and on
nothing else: it is one of four strings. -/
theorem C96_label {path method : List Char} {r : Route} {acc last : Option (List Char)} (h : Routed path r acc last) :
    extractPath path method = label r (decide (method = "POST".toList)) := by
  have two : ∀ (q s : List Char), '/' ∉ q →
      extractPath ('/' :: ("v1".toList ++ '/' :: (q ++ '/' :: s))) method =
        if '/' :: "v1".toList ++ '/' :: q = "/v1/account".toList ∧ method = "POST".toList then
          "POST:".toList ++ ('/' :: "v1".toList ++ '/' :: q) else '/' :: "v1".toList ++ '/' :: q := by
    intro q s hq
    unfold extractPath
    simp only [split_append (show '/' ∉ "v1".toList by decide), split_append hq]
  cases h with
  | info =>
    rw [show "/v1/meta".toList = '/' :: ("v1".toList ++ '/' :: "meta".toList) by simp]
    unfold extractPath
    simp only [split_append (show '/' ∉ "v1".toList by decide), split_last (show '/' ∉ "meta".toList by decide)]
    rw [if_neg (by rintro ⟨h, -⟩; revert h; decide)]
    rfl
  | @consistency a b _ _ =>
    rw [show "/v1/consistency/".toList ++ a ++ '/' :: b = '/' :: ("v1".toList ++ '/' :: ("consistency".toList ++ '/' :: (a ++ '/' :: b))) by
      simp, two _ _ (by decide)]
    rw [if_neg (by rintro ⟨h, -⟩; revert h; decide)]
    rfl
  | @account a _ =>
    rw [show "/v1/account/".toList ++ a = '/' :: ("v1".toList ++ '/' :: ("account".toList ++ '/' :: a)) by simp, two _ _ (by decide)]
    by_cases hm : method = "POST".toList
    · rw [if_pos ⟨by decide, hm⟩, hm]; rfl
    · rw [if_neg (fun h => hm h.2), decide_eq_false hm]; rfl
  | @accountFrom a b _ _ =>
    rw [show "/v1/account/".toList ++ a ++ '/' :: b = '/' :: ("v1".toList ++ '/' :: ("account".toList ++ '/' :: (a ++ '/' :: b))) by simp,
      two _ _ (by decide)]
    by_cases hm : method = "POST".toList
    · rw [if_pos ⟨by decide, hm⟩, hm]; rfl
    · rw [if_neg (fun h => hm h.2), decide_eq_false hm]; rfl

/-- **C96, accounts.**  Requests about different accounts, with or without a size, are counted under the same label. -/
theorem C96_no_account {p₁ p₂ method : List Char} {a₁ a₂ l₁ l₂ : Option (List Char)} (h₁ : Routed p₁ .account a₁ l₁)
    (h₂ : Routed p₂ .account a₂ l₂) : extractPath p₁ method = extractPath p₂ method := by
  rw [C96_label h₁, C96_label h₂]

/-- **The label is safe only because of the router**: for other paths it contains whatever the second part of the path is. -/
theorem C96_unrouted (a : List Char) (ha : '/' ∉ a) (hne : a ≠ "account".toList) (method : List Char) :
    extractPath ("/v1/".toList ++ a) method = "/v1/".toList ++ a := by
  rw [show "/v1/".toList ++ a = '/' :: ("v1".toList ++ '/' :: a) by simp]
  unfold extractPath
  simp only [split_append (show '/' ∉ "v1".toList by decide), split_last ha]
  rw [if_neg]
  · simp
  · rintro ⟨h, -⟩
    apply hne
    have : "/v1/".toList ++ a = "/v1/".toList ++ "account".toList := by simpa using h
    exact List.append_cancel_left this

theorem digits_not_any {s : List Char} (h : Digits s) : ¬ (s = [] ∨ s.any (fun c => !c.isDigit) = true) := by
  rintro (h' | h')
  · exact h.1 h'
  · obtain ⟨c, hc, hd⟩ := List.any_eq_true.1 h'
    rw [h.2 c hc] at hd
    cases hd

/-- **C96, consistency proofs.**  A request with a size gets a consistency proof from that size, unless the number does not fit in 64
bits with a sign, which is an error; a request without a size gets none. -/
theorem C96_consistency {path : List Char} {a : List Char} {last : Option (List Char)} (h : Routed path .account (some a) last) :
    (∀ b, last = some b → digitsValue b < 2 ^ 63 → (parseLast last).map consistencyFrom = .ok (some (digitsValue b : Int))) ∧
    (∀ b, last = some b → 2 ^ 63 ≤ digitsValue b → parseLast last = goErr "request path had unexpected format") ∧
    (last = none → (parseLast last).map consistencyFrom = .ok none) := by
  have hd : ∀ b, last = some b → Digits b := by
    intro b hb
    cases h with
    | account => cases hb
    | accountFrom _ h => cases hb; exact h
  refine ⟨fun b hb hlt => ?_, fun b hb hge => ?_, fun hn => ?_⟩
  · have hb' := hd b hb
    subst hb
    unfold parseLast atoi
    simp only
    rw [if_neg (digits_not_any hb'), if_pos hlt]
    simp only [G.pure_eq, Except.map, consistencyFrom]
    rw [if_pos (by omega)]
  · have hb' := hd b hb
    subst hb
    unfold parseLast atoi
    simp only
    rw [if_neg (digits_not_any hb'), if_neg (by omega)]
    rfl
  · subst hn
    rfl

/-- requests of all kinds -/
example : Routed "/v1/account/alice".toList .account (some "alice".toList) none ∧
    Routed "/v1/account/bob/17".toList .account (some "bob".toList) (some "17".toList) ∧
    Routed "/v1/consistency/3/5".toList .consistency none none ∧
    extractPath "/v1/account/bob/17".toList "POST".toList = "POST:/v1/account".toList ∧ digitsValue "17".toList = 17 :=
  ⟨.account (a := "alice".toList) ⟨by decide, by decide⟩,
    .accountFrom (a := "bob".toList) (b := "17".toList) ⟨by decide, by decide⟩ ⟨by decide, by decide⟩,
    .consistency (a := "3".toList) (b := "5".toList) ⟨by decide, by decide⟩ ⟨by decide, by decide⟩, by decide, by decide⟩

/-- a number that is too large -/
example : Digits "9223372036854775808".toList ∧ 2 ^ 63 ≤ digitsValue "9223372036854775808".toList := ⟨⟨by decide, by decide⟩, by decide⟩

end Katie.Props
