import Verif.Spec.Auditor
import Verif.Lemmas.Structs
import Verif.Lemmas.Log

/- The format of the auditor's state. -/

namespace Katie.Wire
open Katie

/-- a value followed by one whose format depends on it -/
theorem Codec.dep {α β : Type} {P : α → Prop} {w : α → G Bytes} {r : Rd α} {Q : α → β → Prop} {w' : α → β → G Bytes}
    {r' : α → Rd β} (c : Codec P w r) (c' : ∀ a, Codec (Q a) (w' a) (r' a)) :
    Codec (fun p : α × β => P p.1 ∧ Q p.1 p.2) (fun p => w p.1 +> w' p.1 p.2)
      (do let a ← r; let b ← r' a; pure (a, b)) := by
  constructor
  · rintro ⟨a, b⟩ bs rest ⟨hp, hq⟩ hw
    obtain ⟨x, y, hx, hy, rfl⟩ := wSeq_ok.1 hw
    rw [List.append_assoc, rd_bind_ok (c.rt a x (y ++ rest) hp hx), rd_bind_ok ((c' a).rt b y rest hq hy)]
    rfl
  · rintro bs ⟨a, b⟩ rest h
    obtain ⟨a', m1, h1, h2⟩ := rd_bind_inv h
    obtain ⟨b', m2, h3, h4⟩ := rd_bind_inv h2
    cases h4
    obtain ⟨hp, x, hx, rfl⟩ := c.canon _ _ _ h1
    obtain ⟨hq, y, hy, rfl⟩ := (c' _).canon _ _ _ h3
    exact ⟨⟨hp, hq⟩, x ++ y, wSeq_ok.2 ⟨x, y, hx, hy, rfl⟩, by rw [List.append_assoc]⟩

end Katie.Wire

namespace Katie.Audit
open Katie Katie.Wire Katie.AuditSpec

theorem codec_inserted (hs : Nat) :
    Codec (fun i : Inserted => Fits 8 i.pos ∧ i.vrf.length = hs) Inserted.marshal (newInserted hs) :=
  ((codec_num 8).pair (codec_full hs)).iso
    (fun p => (⟨p.1, p.2⟩ : Inserted)) (fun s => (s.pos, s.vrf)) (fun _ => rfl) (fun _ => rfl)
    (fun s => Iff.rfl) (fun _ => rfl) (by unfold newInserted; simp only [bind_assoc, pure_bind])

theorem codec_insertedList (hs : Nat) :
    Codec (Each (fun i : Inserted => Fits 8 i.pos ∧ i.vrf.length = hs)) marshalInserted (rSlice 2 (newInserted hs)) := by
  have c := codec_slice (codec_inserted hs) 2 ""
  constructor
  · intro l b rest hl hb
    refine c.rt l b rest hl ?_
    unfold marshalInserted at hb
    split at hb
    · cases hb
    · next h =>
      unfold wSlice
      rw [if_neg (by omega)]
      exact hb
  · intro bs l rest h
    obtain ⟨h1, b, hb, e⟩ := c.canon bs l rest h
    refine ⟨h1, b, ?_, e⟩
    unfold wSlice at hb
    split at hb
    · cases hb
    · next h =>
      unfold marshalInserted
      rw [if_neg (by omega)]
      exact hb

theorem codec_times (n : Nat) :
    Codec (fun l : List Nat => ∃ fr, SearchTree.frontier n = .ok fr ∧ l.length = fr.length ∧ Each (Fits 8) l)
      (wLoop (wNum 8)) (do let fr ← liftRd (SearchTree.frontier n); rLoop (rNum 8) fr.length) := by
  cases hf : SearchTree.frontier n with
  | error e =>
    constructor
    · rintro l b rest ⟨fr, h, _⟩; cases h
    · intro bs l rest h
      rw [rd_bind_err (e := e) (by rfl)] at h
      cases h
  | ok fr =>
    have c := codec_loop (codec_num 8) fr.length
    constructor
    · rintro l b rest ⟨fr', h, h1, h2⟩ hb
      cases h
      rw [rd_bind_ok (a := fr) (rest := b ++ rest) (by rfl)]
      exact c.rt l b rest ⟨h1, h2⟩ hb
    · intro bs l rest h
      rw [rd_bind_ok (a := fr) (rest := bs) (by rfl)] at h
      obtain ⟨⟨h1, h2⟩, h3⟩ := c.canon bs l rest h
      exact ⟨⟨fr, rfl, h1, h2⟩, h3⟩

/-- the state behind a read tuple -/
def ofTuple (p : AuditorTreeHead × List Bytes × List Nat × Bytes × List Inserted) : AState :=
  ⟨p.1.timestamp, p.1.treeSize, some p.1.signature, p.2.1, p.2.2.1, p.2.2.2.1, p.2.2.2.2⟩

def toTuple (s : AState) : AuditorTreeHead × List Bytes × List Nat × Bytes × List Inserted :=
  (⟨s.timestamp, s.treeSize, s.signature.getD []⟩, s.fullSubtrees, s.timestamps, s.prefixTree, s.inserted)

theorem codec_state (hs : Nat) : Codec (StateTyped hs) AState.marshal (newAuditorState hs) := by
  have c := codec_auditorTreeHead.dep (fun th =>
    (codec_loop (codec_full hs) (onesCount th.treeSize)).pair ((codec_times th.treeSize).pair
      ((codec_full hs).pair (codec_insertedList hs))))
  have hr : newAuditorState hs = (do
      let p ← (do
        let th ← newAuditorTreeHead
        let q ← (do
          let l ← rLoop (rFull hs) (onesCount th.treeSize)
          let q ← (do
            let ts ← (do let fr ← liftRd (SearchTree.frontier th.treeSize); rLoop (rNum 8) fr.length)
            let q ← (do
              let pt ← rFull hs
              let ins ← rSlice 2 (newInserted hs)
              pure (pt, ins))
            pure (ts, q))
          pure (l, q))
        pure (th, q))
      pure (ofTuple p)) := by
    unfold newAuditorState ofTuple
    simp only [bind_assoc, pure_bind]
  constructor
  · intro s b rest ht hb
    obtain ⟨sig, hsig⟩ := Option.isSome_iff_exists.1 ht.signed
    have e : ofTuple (toTuple s) = s := by
      unfold ofTuple toTuple
      cases s
      simp only at hsig
      subst hsig
      rfl
    rw [hr, rd_bind_ok (c.rt (toTuple s) b rest ⟨⟨ht.timestamp, ht.treeSize⟩, ht.subtrees, ht.times, ht.root, ht.inserted⟩ hb), e]
    rfl
  · intro bs s rest h
    rw [hr] at h
    obtain ⟨p, m, h1, h2⟩ := rd_bind_inv h
    cases h2
    obtain ⟨hp, b, hb, e⟩ := c.canon _ _ _ h1
    refine ⟨⟨rfl, hp.1.1, hp.1.2, hp.2.1, hp.2.2.1, hp.2.2.2.1, hp.2.2.2.2⟩, b, ?_, e⟩
    exact hb

/-! ### the number of full subtrees -/

theorem ones_zero (f : Nat) : ones f 0 = 0 := by
  induction f with
  | zero => rfl
  | succ f ih => unfold ones; simpa using ih

theorem ones_add : ∀ (k f m : Nat), k < f → m < 2 ^ k → ones f (2 ^ k + m) = 1 + ones f m := by
  intro k
  induction k with
  | zero =>
    intro f m hf hm
    obtain ⟨g, rfl⟩ : ∃ g, f = g + 1 := ⟨f - 1, by omega⟩
    have : m = 0 := by omega
    subst this
    unfold ones
    simp [ones_zero]
  | succ k ih =>
    intro f m hf hm
    obtain ⟨g, rfl⟩ : ∃ g, f = g + 1 := ⟨f - 1, by omega⟩
    have e : 2 ^ (k + 1) = 2 * 2 ^ k := by ring
    unfold ones
    rw [show (2 ^ (k + 1) + m) / 2 = 2 ^ k + m / 2 by omega, ih g (m / 2) (by omega) (by omega)]
    omega

theorem ones_two_pow (k f : Nat) (h : k < f) : ones f (2 ^ k) = 1 := by
  have := ones_add k f 0 h (Nat.two_pow_pos k)
  rw [Nat.add_zero, ones_zero] at this
  exact this

/-- a log has as many heads as its size has ones -/
theorem heads_length (H : Bytes → Bytes) : ∀ (m : Nat) (L : List Bytes), L.length ≤ m → L.length < 2 ^ 64 →
    (LogSpec.heads H L).length = onesCount L.length := by
  intro m
  induction m with
  | zero =>
    intro L hm _
    have : L = [] := List.length_eq_zero_iff.1 (by omega)
    subst this
    rw [Log.heads_small H (by simp)]; rfl
  | succ m ih =>
    intro L hm hlt
    by_cases h1 : L.length ≤ 1
    · rw [Log.heads_small H h1]
      rcases Nat.le_one_iff_eq_zero_or_eq_one.1 h1 with h | h <;> rw [h] <;> rfl
    · obtain ⟨⟨k, hk⟩, h2, h3⟩ := LogSpec.half_spec (s := L.length) (by omega)
      have hk64 : k < 64 := by
        rw [hk] at h2
        exact (Nat.pow_lt_pow_iff_right (by omega : 1 < 2)).1 (by omega)
      have e : 2 ^ (k + 1) = 2 * 2 ^ k := by ring
      by_cases hf : L.length = 2 * LogSpec.half L.length
      · rw [Log.heads_full H (by omega) hf]
        have hpow : L.length = 2 ^ (k + 1) := by rw [e, ← hk]; exact hf
        have hk2 : k + 1 < 64 := by
          rw [hpow] at hlt
          exact (Nat.pow_lt_pow_iff_right (by omega : 1 < 2)).1 (by omega)
        unfold onesCount
        rw [hpow, ones_two_pow _ _ hk2]
        rfl
      · rw [Log.heads_part H (by omega) hf, List.length_cons, ih _ (by rw [List.length_drop]; have := LogSpec.half_pos L.length; omega)
          (by rw [List.length_drop]; omega), List.length_drop]
        unfold onesCount
        have := ones_add k 64 (L.length - LogSpec.half L.length) hk64 (by rw [hk] at *; omega)
        rw [← hk, show LogSpec.half L.length + (L.length - LogSpec.half L.length) = L.length by omega] at this
        omega

theorem merkle_sized {cs : Log.Suite} (hcs : cs.Good) {L : List Bytes} (hL : ∀ v ∈ L, v.length = cs.hashSize) (h0 : L ≠ []) :
    (LogSpec.merkle cs.H L).value.length = cs.hashSize := by
  by_cases h : L.length ≤ 1
  · obtain ⟨x, rfl⟩ : ∃ x, L = [x] := List.length_eq_one_iff.1 (by have := List.length_pos_iff.2 h0; omega)
    rw [Log.merkle_one]
    exact hL x (by simp)
  · rw [Log.merkle_two _ _ (by omega)]
    exact hcs.len _

/-- the heads have the size of a hash -/
theorem heads_sized {cs : Log.Suite} (hcs : cs.Good) {L : List Bytes} (hL : ∀ v ∈ L, v.length = cs.hashSize) :
    ∀ v ∈ LogSpec.heads cs.H L, v.length = cs.hashSize := by
  have gen : ∀ (m : Nat) (L : List Bytes), L.length ≤ m → (∀ v ∈ L, v.length = cs.hashSize) →
      ∀ v ∈ LogSpec.heads cs.H L, v.length = cs.hashSize := by
    intro m
    induction m with
    | zero =>
      intro L hm hL
      rw [Log.heads_small _ (by omega)]; exact hL
    | succ m ih =>
      intro L hm hL
      by_cases h1 : L.length ≤ 1
      · rw [Log.heads_small _ h1]; exact hL
      · have hne : L ≠ [] := by rintro rfl; simp at h1
        have hp := LogSpec.half_pos L.length
        by_cases hf : L.length = 2 * LogSpec.half L.length
        · rw [Log.heads_full _ (by omega) hf]
          intro v hv
          rw [List.mem_singleton] at hv
          rw [hv]; exact merkle_sized hcs hL hne
        · rw [Log.heads_part _ (by omega) hf]
          intro v hv
          rcases List.mem_cons.1 hv with rfl | hv
          · refine merkle_sized hcs (fun v hv => hL v (List.mem_of_mem_take hv)) ?_
            intro hc
            have := congrArg List.length hc
            rw [List.length_take, List.length_nil] at this
            omega
          · exact ih _ (by rw [List.length_drop]; omega) (fun v hv => hL v (List.mem_of_mem_drop hv)) v hv
  exact gen _ L (le_refl _) hL

end Katie.Audit
