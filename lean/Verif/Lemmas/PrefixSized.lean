import Verif.Lemmas.PrefixStore
import Verif.Lemmas.Structs

/-
Sizes of everything in a prefix proof produced from an arbitrary store.
-/

namespace Katie.Prefix
open Katie

variable {cs : Suite}

/-- byte strings of the node have the size of a hash -/
def Sized (cs : Suite) : Node → Prop
  | .empty => True
  | .leaf v c => v.length = cs.hashSize ∧ c.length = cs.hashSize
  | .parent l r h _ => Sized cs l ∧ Sized cs r ∧ ∀ x, h = some x → x.length = cs.hashSize
  | .ext h _ => h.length = cs.hashSize

theorem readFull_length {n : Nat} {buf b rest : Bytes} (h : readFull n buf = .ok (b, rest)) : b.length = n := by
  have := (Wire.codec_full n).canon buf b rest h
  exact this.1

theorem unmarshalNode_sized (id : TileId) : ∀ (fuel depth : Nat) (buf : Bytes) (n : Node) (rest : Bytes),
    unmarshalNode cs id fuel depth buf = .ok (n, rest) → Sized cs n := by
  intro fuel
  induction fuel with
  | zero => intro d buf n rest h; cases h
  | succ fuel ih =>
    intro d buf n rest h
    unfold unmarshalNode at h
    obtain ⟨⟨b, buf1⟩, _, h⟩ := G.bind_eq_ok.1 h
    simp only at h
    by_cases h2 : b = 2
    · rw [if_pos h2] at h
      by_cases hs : shouldStoreIntermediate d
      · rw [if_pos hs] at h
        obtain ⟨⟨y, buf5⟩, hy, h⟩ := G.bind_eq_ok.1 h
        obtain ⟨⟨hash, buf2⟩, hh, h⟩ := G.bind_eq_ok.1 h
        obtain ⟨⟨l, buf3⟩, hl, h⟩ := G.bind_eq_ok.1 h
        obtain ⟨⟨r, buf4⟩, hr, h⟩ := G.bind_eq_ok.1 h
        cases h
        cases hh
        exact ⟨ih _ _ _ _ hl, ih _ _ _ _ hr, fun x hx => by cases hx; exact readFull_length hy⟩
      · rw [if_neg hs] at h
        obtain ⟨⟨hash, buf2⟩, hh, h⟩ := G.bind_eq_ok.1 h
        obtain ⟨⟨l, buf3⟩, hl, h⟩ := G.bind_eq_ok.1 h
        obtain ⟨⟨r, buf4⟩, hr, h⟩ := G.bind_eq_ok.1 h
        cases h
        cases hh
        exact ⟨ih _ _ _ _ hl, ih _ _ _ _ hr, fun x hx => by cases hx⟩
    · rw [if_neg h2] at h
      by_cases h0 : b = 0
      · rw [if_pos h0] at h; cases h; trivial
      · rw [if_neg h0] at h
        by_cases h1 : b = 1
        · rw [if_pos h1] at h
          obtain ⟨⟨v, buf2⟩, hv, h⟩ := G.bind_eq_ok.1 h
          obtain ⟨⟨c, buf3⟩, hc, h⟩ := G.bind_eq_ok.1 h
          cases h
          exact ⟨readFull_length hv, readFull_length hc⟩
        · rw [if_neg h1] at h
          by_cases h3 : b = 3
          · rw [if_pos h3] at h
            obtain ⟨⟨v, buf2⟩, hv, h⟩ := G.bind_eq_ok.1 h
            obtain ⟨⟨ver, buf3⟩, _, h⟩ := G.bind_eq_ok.1 h
            obtain ⟨⟨ctr, buf4⟩, _, h⟩ := G.bind_eq_ok.1 h
            cases h
            exact readFull_length hv
          · rw [if_neg h3] at h; cases h

theorem unmarshalTile_sized {id : TileId} {raw : Bytes} {t : Tile} (h : unmarshalTile cs id raw = .ok t) :
    Sized cs t.root := by
  unfold unmarshalTile at h
  obtain ⟨⟨d, buf⟩, _, h⟩ := G.bind_eq_ok.1 h
  obtain ⟨⟨n, rest⟩, hn, h⟩ := G.bind_eq_ok.1 h
  simp only at h
  split at h
  · cases h
  · cases h
    exact unmarshalNode_sized _ _ _ _ _ _ hn

theorem walkTile_sized (v : Bytes) : ∀ (k : Nat) (n : Node) (d : Nat) (m : Node), Sized cs n →
    walkTile v k n d = .ok m → Sized cs m := by
  intro k
  induction k with
  | zero => intro n d m hn h; cases n <;> (cases h; exact hn)
  | succ k ih =>
    intro n d m hn h
    cases n with
    | parent l r hh id =>
      unfold walkTile at h
      obtain ⟨b, _, h⟩ := G.bind_eq_ok.1 h
      refine ih _ _ _ ?_ h
      cases b
      · exact hn.1
      · exact hn.2.1
    | _ => cases h

theorem expand_sized (st : Store) : ∀ (fuel : Nat) (n : Node) (vrfs : List Bytes) (d : Nat) (m : Node),
    (Sized cs n ∨ vrfs ≠ []) → (n.isExt = false → Sized cs n) →
    expand cs st fuel n vrfs d = .ok m → Sized cs m := by
  intro fuel
  induction fuel with
  | zero => intro n vrfs d m _ _ h; cases h
  | succ fuel ih =>
    intro n vrfs d m hn hn' h
    unfold expand at h
    cases vrfs with
    | nil => cases h; exact hn.resolve_right (fun h => h rfl)
    | cons v vs =>
      cases n with
      | empty => cases h; trivial
      | leaf w c => cases h; exact hn' rfl
      | parent l r hh id =>
        obtain ⟨⟨a, b⟩, _, h⟩ := G.bind_eq_ok.1 h
        obtain ⟨l', hl, h⟩ := G.bind_eq_ok.1 h
        obtain ⟨r', hr, h⟩ := G.bind_eq_ok.1 h
        cases h
        have := hn' rfl
        exact ⟨ih _ _ _ _ (.inl this.1) (fun _ => this.1) hl, ih _ _ _ _ (.inl this.2.1) (fun _ => this.2.1) hr,
          this.2.2⟩
      | ext hh id =>
        obtain ⟨t, ht, h⟩ := G.bind_eq_ok.1 h
        obtain ⟨m', hm, h⟩ := G.bind_eq_ok.1 h
        have hs : Sized cs m' := by
          refine walkTile_sized _ _ _ _ _ ?_ hm
          unfold getTile at ht
          split at ht
          · cases ht
          · exact unmarshalTile_sized ht
        exact ih _ _ _ _ (.inl hs) (fun _ => hs) h

theorem hash_length (hcs : cs.Good) {n : Node} (h : Sized cs n) : (n.hash cs).length = cs.hashSize := by
  cases n with
  | empty => simp [Node.hash]
  | leaf v c => simp only [Node.hash]; exact hcs.len _
  | parent l r hh id =>
    cases hh with
    | none => simp only [Node.hash]; exact hcs.len _
    | some x => simp only [Node.hash]; exact h.2.2 x rfl
  | ext hh id => simp only [Node.hash]; exact h

/-! ### what `build` leaves behind -/

/-- a filled slot is a search result with hash-sized strings and a depth of at most `D` -/
def SlotOK (cs : Suite) (D : Nat) (o : Option Res) : Prop :=
  ∀ r, o = some r → r.depth ≤ D ∧
    ∀ v c d, r = .nonInclusionLeaf v c d → v.length = cs.hashSize ∧ c.length = cs.hashSize

theorem slots_set {D i : Nat} {l : List (Option Res)} {r : Res} (h : ∀ o ∈ l, SlotOK cs D o)
    (hr : SlotOK cs D (some r)) : ∀ o ∈ l.set i (some r), SlotOK cs D o := by
  intro o ho
  rcases List.mem_or_eq_of_mem_set ho with h' | rfl
  · exact h o h'
  · exact hr

theorem fillEmpty_slots {D d : Nat} (hd : d ≤ D) (L : List (Nat × Bytes)) : ∀ pb : Builder,
    (∀ o ∈ pb.results, SlotOK cs D o) → (∀ o ∈ (fillEmpty d L pb).results, SlotOK cs D o) ∧
      (fillEmpty d L pb).elements = pb.elements ∧ (fillEmpty d L pb).results.length = pb.results.length := by
  induction L with
  | nil => intro pb h; exact ⟨h, rfl, rfl⟩
  | cons x L ih =>
    intro pb h
    obtain ⟨h1, h2, h3⟩ := ih { pb with results := pb.results.set x.1 (some (.nonInclusionParent d)) }
      (slots_set h (fun r hr => by cases hr; exact ⟨hd, fun _ _ _ h => by cases h⟩))
    exact ⟨h1, h2, by rw [show (fillEmpty d (x :: L) pb).results.length = _ from h3]; simp⟩

theorem fillLeaf_slots {D d : Nat} (hd : d ≤ D) {v c : Bytes} (hv : v.length = cs.hashSize)
    (hc : c.length = cs.hashSize) (L : List (Nat × Bytes)) : ∀ pb : Builder,
    (∀ o ∈ pb.results, SlotOK cs D o) → (∀ o ∈ (fillLeaf v c d L pb).results, SlotOK cs D o) ∧
      (fillLeaf v c d L pb).elements = pb.elements ∧ (fillLeaf v c d L pb).results.length = pb.results.length := by
  induction L with
  | nil => intro pb h; exact ⟨h, rfl, rfl⟩
  | cons x L ih =>
    intro pb h
    unfold fillLeaf
    by_cases hx : x.2 = v
    · rw [if_pos hx]
      obtain ⟨h1, h2, h3⟩ := ih ⟨pb.results.set x.1 (some (.inclusion d)), pb.commitments.set x.1 (some c), pb.elements⟩
        (slots_set h (fun r hr => by cases hr; exact ⟨hd, fun _ _ _ h => by cases h⟩))
      exact ⟨h1, h2, by rw [h3]; simp⟩
    · rw [if_neg hx]
      obtain ⟨h1, h2, h3⟩ := ih { pb with results := pb.results.set x.1 (some (.nonInclusionLeaf v c d)) }
        (slots_set h (fun r hr => by cases hr; exact ⟨hd, fun _ _ _ h => by cases h; exact ⟨hv, hc⟩⟩))
      exact ⟨h1, h2, by rw [h3]; simp⟩

theorem getBit_lt {v : Bytes} {d : Nat} {b : Bool} (h : getBit v d = .ok b) : d < 8 * v.length := by
  unfold getBit at h
  split at h
  · cases h
  · rename_i x hx
    have := (List.getElem?_eq_some_iff.1 hx).1
    omega

theorem splitBit_sized {L a b : List (Nat × Bytes)} {d hs : Nat} (hL : ∀ x ∈ L, x.2.length = hs) (hne : L ≠ [])
    (h : splitBit Prod.snd L d = .ok (a, b)) : d < 8 * hs ∧ L = a ++ b := by
  unfold splitBit at h
  obtain ⟨i, hi, h⟩ := G.bind_eq_ok.1 h
  cases h
  refine ⟨?_, (List.take_append_drop i L).symm⟩
  cases L with
  | nil => exact absurd rfl hne
  | cons x L =>
    simp only [List.length_cons] at hi
    unfold searchBit at hi
    rw [if_pos (by omega)] at hi
    split at hi
    · cases hi
    · rename_i y hy
      obtain ⟨b, hb, _⟩ := G.bind_eq_ok.1 hi
      have := getBit_lt hb
      rw [hL y (List.mem_of_getElem? hy)] at this
      exact this

/-- number of elements a list of requests adds at depth `d` -/
def elemBound (D : Nat) (L : List (Nat × Bytes)) (d : Nat) : Nat :=
  if L = [] then 1 else L.length * (D - d)

theorem build_sized (hcs : cs.Good) (n : Node) : ∀ (L : List (Nat × Bytes)) (d : Nat) (pb pb' : Builder),
    Sized cs n → (∀ x ∈ L, x.2.length = cs.hashSize) → d ≤ 8 * cs.hashSize →
    (∀ o ∈ pb.results, SlotOK cs (8 * cs.hashSize) o) →
    (∀ e ∈ pb.elements, e.length = cs.hashSize) → build cs n L d pb = .ok pb' →
    (∀ o ∈ pb'.results, SlotOK cs (8 * cs.hashSize) o) ∧ (∀ e ∈ pb'.elements, e.length = cs.hashSize) ∧
    pb'.elements.length ≤ pb.elements.length + elemBound (8 * cs.hashSize) L d ∧
    pb'.results.length = pb.results.length := by
  have hnil : ∀ (n : Node) (d : Nat) (pb pb' : Builder), Sized cs n →
      (∀ o ∈ pb.results, SlotOK cs (8 * cs.hashSize) o) →
      (∀ e ∈ pb.elements, e.length = cs.hashSize) → build cs n [] d pb = .ok pb' →
      (∀ o ∈ pb'.results, SlotOK cs (8 * cs.hashSize) o) ∧ (∀ e ∈ pb'.elements, e.length = cs.hashSize) ∧
      pb'.elements.length ≤ pb.elements.length + elemBound (8 * cs.hashSize) [] d ∧
      pb'.results.length = pb.results.length := by
    intro n d pb pb' hn hr he h
    have : pb' = { pb with elements := pb.elements ++ [n.hash cs] } := by
      cases n <;> (unfold build at h; cases h; rfl)
    subst this
    refine ⟨hr, ?_, by simp [elemBound], rfl⟩
    intro e hm
    rcases List.mem_append.1 hm with hm | hm
    · exact he e hm
    · rw [List.mem_singleton.1 hm]; exact hash_length hcs hn
  induction n with
  | empty =>
    intro L d pb pb' hn hL hd hr he h
    cases L with
    | nil => exact hnil _ _ _ _ hn hr he h
    | cons x L =>
      unfold build at h
      cases h
      obtain ⟨h1, h2, h3⟩ := fillEmpty_slots hd (x :: L) pb hr
      exact ⟨h1, by rw [h2]; exact he, by rw [h2]; omega, h3⟩
  | leaf v c =>
    intro L d pb pb' hn hL hd hr he h
    cases L with
    | nil => exact hnil _ _ _ _ hn hr he h
    | cons x L =>
      unfold build at h
      cases h
      obtain ⟨h1, h2, h3⟩ := fillLeaf_slots hd hn.1 hn.2 (x :: L) pb hr
      exact ⟨h1, by rw [h2]; exact he, by rw [h2]; omega, h3⟩
  | ext hh id =>
    intro L d pb pb' hn hL hd hr he h
    cases L with
    | nil => exact hnil _ _ _ _ hn hr he h
    | cons x L => unfold build at h; cases h
  | parent l r hh id ihl ihr =>
    intro L d pb pb' hn hL hd hr he h
    cases L with
    | nil => exact hnil _ _ _ _ hn hr he h
    | cons x L =>
      unfold build at h
      obtain ⟨⟨a, b⟩, hs, h⟩ := G.bind_eq_ok.1 h
      obtain ⟨pb1, hb1, h⟩ := G.bind_eq_ok.1 h
      obtain ⟨hlt, hab⟩ := splitBit_sized hL (by simp) hs
      have hLa : ∀ y ∈ a, y.2.length = cs.hashSize := fun y hy => hL y (by rw [hab]; exact List.mem_append_left _ hy)
      have hLb : ∀ y ∈ b, y.2.length = cs.hashSize := fun y hy => hL y (by rw [hab]; exact List.mem_append_right _ hy)
      obtain ⟨r1, e1, n1, l1⟩ := ihl a (d + 1) pb pb1 hn.1 hLa (by omega) hr he hb1
      obtain ⟨r2, e2, n2, l2⟩ := ihr b (d + 1) pb1 pb' hn.2.1 hLb (by omega) r1 e1 h
      refine ⟨r2, e2, ?_, by rw [l2, l1]⟩
      have hlen : (x :: L).length = a.length + b.length := by rw [hab, List.length_append]
      refine n2.trans ?_
      have key : elemBound (8 * cs.hashSize) a (d + 1) + elemBound (8 * cs.hashSize) b (d + 1) ≤
          elemBound (8 * cs.hashSize) (x :: L) d := by
        unfold elemBound
        rw [if_neg (show x :: L ≠ [] by simp), hlen]
        obtain ⟨k, hk⟩ : ∃ k, 8 * cs.hashSize - d = k + 1 := ⟨8 * cs.hashSize - d - 1, by omega⟩
        have hk' : 8 * cs.hashSize - (d + 1) = k := by omega
        rw [hk, hk']
        have hpos : 0 < a.length + b.length := by rw [← hlen]; simp
        by_cases ha : a = []
        · by_cases hb : b = []
          · subst ha; subst hb; simp at hpos
          · rw [if_pos ha, if_neg hb, ha]
            have : 0 < b.length := by rw [ha] at hpos; simpa using hpos
            simp only [List.length_nil, Nat.zero_add, Nat.mul_succ]
            omega
        · by_cases hb : b = []
          · rw [if_neg ha, if_pos hb, hb]
            have : 0 < a.length := by rw [hb] at hpos; simpa using hpos
            simp only [List.length_nil, Nat.add_zero, Nat.mul_succ]
            omega
          · rw [if_neg ha, if_neg hb, Nat.mul_succ, Nat.add_mul]
            omega
      omega

theorem allSome_ok {α : Type} {l : List (Option α)} {out : List α} (h : allSome l = .ok out) : l = out.map some := by
  induction l generalizing out with
  | nil => cases h; rfl
  | cons o l ih =>
    cases o with
    | none => cases h
    | some a =>
      obtain ⟨as, has, h⟩ := G.bind_eq_ok.1 h
      cases h
      rw [ih has]; rfl

theorem mem_sortBy' {α : Type} {key : α → Bytes} {l : List α} {a : α} (h : a ∈ sortBy key l) : a ∈ l := by
  induction l with
  | nil => exact h
  | cons b l ih =>
    have : ∀ (l : List α), a ∈ insertBy key b l → a = b ∨ a ∈ l := by
      intro l
      induction l with
      | nil => intro h; left; simpa [insertBy] using h
      | cons c l ih =>
        intro h
        unfold insertBy at h
        split at h
        · rcases List.mem_cons.1 h with rfl | h
          · exact .inr List.mem_cons_self
          · rcases ih h with h | h
            · exact .inl h
            · exact .inr (List.mem_cons_of_mem _ h)
        · rcases List.mem_cons.1 h with rfl | h
          · exact .inl rfl
          · exact .inr h
    rcases this _ h with rfl | h
    · exact List.mem_cons_self
    · exact List.mem_cons_of_mem _ (ih h)

theorem length_sortBy' {α : Type} (key : α → Bytes) (l : List α) : (sortBy key l).length = l.length := by
  induction l with
  | nil => rfl
  | cons a l ih =>
    have : ∀ l : List α, (insertBy key a l).length = l.length + 1 := by
      intro l
      induction l with
      | nil => rfl
      | cons b l ih => unfold insertBy; split <;> simp [ih]
    rw [sortBy, this, ih]; rfl

/-- **Everything in a proof produced by `runProofBuilder` has the sizes the wire format expects.** -/
theorem runProofBuilder_sized (hcs : cs.Good) {n : Node} (hn : Sized cs n) {vrfs : List Bytes}
    (hv : ∀ v ∈ vrfs, v.length = cs.hashSize) {p : Proof} {com : List (Option Bytes)}
    (h : runProofBuilder cs n vrfs = .ok (p, com)) :
    (∀ r ∈ p.results, SlotOK cs (8 * cs.hashSize) (some r)) ∧ (∀ e ∈ p.elements, e.length = cs.hashSize) ∧
    p.results.length = vrfs.length ∧ (vrfs ≠ [] → p.elements.length ≤ vrfs.length * (8 * cs.hashSize)) := by
  unfold runProofBuilder at h
  obtain ⟨pb, hpb, h⟩ := G.bind_eq_ok.1 h
  obtain ⟨res, hres, h⟩ := G.bind_eq_ok.1 h
  cases h
  obtain ⟨h1, h2, h3, h4⟩ := build_sized hcs n _ 0 _ pb hn (fun x hx => hv _ (List.of_mem_zip (mem_sortBy' hx)).2) (by omega)
    (fun o ho => by rw [(List.mem_replicate.1 ho).2]; intro r hr; cases hr) (fun e he => by cases he) hpb
  · have hr := allSome_ok hres
    have hl : res.length = vrfs.length := by
      have := congrArg List.length hr
      rw [h4] at this
      simpa using this.symm
    refine ⟨fun r hr' => h1 _ (by rw [hr]; exact List.mem_map_of_mem hr'), h2, hl, fun hne => ?_⟩
    refine h3.trans ?_
    have hlen : (sortBy Prod.snd ((List.range vrfs.length).zip vrfs)).length = vrfs.length := by
      rw [length_sortBy', List.length_zip, List.length_range, Nat.min_self]
    unfold elemBound
    rw [if_neg (fun h0 => hne (List.length_eq_zero_iff.1 (by rw [← hlen, h0]; rfl))), hlen]
    simp

theorem mapM_getElem {α β : Type} {f : α → G β} : ∀ {l : List α} {out : List β}, l.mapM f = .ok out →
    ∀ {i : Nat} {a : α} {b : β}, l[i]? = some a → out[i]? = some b → f a = .ok b := by
  intro l
  induction l with
  | nil => intro out h i a b ha; simp at ha
  | cons x l ih =>
    intro out h i a b ha hb
    rw [List.mapM_cons] at h
    obtain ⟨y, hy, h⟩ := G.bind_eq_ok.1 h
    obtain ⟨ys, hys, h⟩ := G.bind_eq_ok.1 h
    cases h
    cases i with
    | zero => simp only [List.getElem?_cons_zero, Option.some.injEq] at ha hb; rw [← ha, ← hb]; exact hy
    | succ i =>
      rw [List.getElem?_cons_succ] at ha hb
      exact ih hys ha hb

theorem checkSearches_len {l : List Search} (h : checkSearches cs l = .ok ()) : ∀ s ∈ l, ∀ v ∈ s.vrfs,
    v.length = cs.hashSize := by
  induction l with
  | nil => intro s hs; cases hs
  | cons t l ih =>
    unfold checkSearches at h
    split at h
    · cases h
    · split at h
      · cases h
      · rename_i _ hall
        intro s hs v hv
        rcases List.mem_cons.1 hs with rfl | hs
        · have := Classical.not_not.1 hall
          have := List.all_eq_true.1 this v hv
          exact beq_iff_eq.1 this
        · exact ih h s hs v hv

theorem search_sized (hcs : cs.Good) {st : Store} {searches : List Search}
    {out : List (Proof × List (Option Bytes))} (h : search cs st searches = .ok out) {i : Nat} {s : Search}
    {p : Proof} {com : List (Option Bytes)} (hi : searches[i]? = some s) (ho : out[i]? = some (p, com))
    (hne : s.vrfs ≠ []) :
    (∀ r ∈ p.results, SlotOK cs (8 * cs.hashSize) (some r)) ∧ (∀ e ∈ p.elements, e.length = cs.hashSize) ∧
    p.results.length = s.vrfs.length ∧ (s.vrfs ≠ [] → p.elements.length ≤ s.vrfs.length * (8 * cs.hashSize)) := by
  obtain ⟨_, hc, h⟩ := G.bind_eq_ok.1 h
  have h1 := mapM_getElem h hi ho
  obtain ⟨root, hroot, h1⟩ := G.bind_eq_ok.1 h1
  have hmem := List.mem_of_getElem? hi
  have hs : Sized cs root := by
    refine expand_sized st _ _ _ _ _ (.inr ?_) (fun h => by cases h) hroot
    intro h0
    obtain ⟨v, vs, hv⟩ := List.exists_cons_of_ne_nil hne
    have : v ∈ (searches.filter (fun t => t.version == s.version)).flatMap Search.vrfs :=
      List.mem_flatMap.2 ⟨s, List.mem_filter.2 ⟨hmem, by simp⟩, by rw [hv]; exact List.mem_cons_self⟩
    rw [h0] at this
    cases this
  exact runProofBuilder_sized hcs hs (checkSearches_len hc s hmem) h1

end Katie.Prefix
