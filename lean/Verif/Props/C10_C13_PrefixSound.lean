import Verif.Lemmas.PrefixAudit
import Verif.Props.C07_C09_Prefix

/-
C10, C11, C12, C13: what accepted prefix-tree proofs prove, the auditor's before/after evaluation, and
mutations that change nothing.

The claims of C10, C11, C12 and C13 are false for the code; each is refuted by a concrete execution, and the
part that does hold is proved for all trees and all proofs.
-/

namespace Katie.Props
open Katie Katie.Prefix Katie.PrefixSpec

/-- The strings hashed by a verifier that evaluates a proof (none if the proof is malformed). -/
def verifierInputs (cs : Suite) (es : List Entry) (p : Proof) : List Bytes :=
  match evaluate cs es p with
  | .ok n => n.inputs cs
  | .error _ => []

/-- Escape clause of the soundness theorems: the verifier's hash inputs and those of the tree contain a
collision, or one of them hashes to the all-zero string that stands for an empty subtree. -/
def Broken (cs : Suite) (A B : List Bytes) : Prop :=
  Collides cs.H A B ∨ ZeroDigest cs.H cs.hashSize (A ++ B)

theorem verify_ok {cs : Suite} {es : List Entry} {p : Proof} {root : Bytes}
    (h : verify cs es p root = .ok ()) : ∃ n, evaluate cs es p = .ok n ∧ n.hash cs = root := by
  unfold verify evaluateRoot at h
  obtain ⟨x, h1, h⟩ := G.bind_eq_ok.mp h
  obtain ⟨n, h2, h1⟩ := G.bind_eq_ok.mp h1
  refine ⟨n, h2, ?_⟩
  rw [Except.ok.inj h1]
  by_contra hc
  rw [if_pos (fun h' => hc h'.symm)] at h
  cases h

/-- What one verified entry says about the map behind the root. -/
theorem verified_entry {cs : Suite} (hcs : cs.Good) {S : List Pair} (hS : IsMap cs.hashSize S) {es : List Entry}
    {p : Proof} (hp : WireProof cs.hashSize p)
    (h : verify cs es p (rootHash cs.H cs.hashSize S) = .ok ()) {e : Entry} {r : Res}
    (her : (e, r) ∈ es.zip p.results) :
    (∃ t, Says e r p.named t ∧ (∀ x, t = some x → x ∈ S) ∧ ∀ c, (e.vrf, c) ∈ S → t = some (e.vrf, c)) ∨
    Broken cs (verifierInputs cs es p) (rootInputs cs.H cs.hashSize S) := by
  obtain ⟨n, h1, h2⟩ := verify_ok h
  obtain ⟨n1, _, _, _, n5⟩ := evaluate_spec hp h1
  obtain ⟨s1, s2, s3, s4⟩ := fullRoot_spec (cs := cs) hS
  have hin : verifierInputs cs es p = n.inputs cs := by unfold verifierInputs; rw [h1]
  rw [hin, ← s2]
  rcases agree_of_hash hcs n _ n1 s3 (by rw [h2, s1]) with ha | ha
  · left
    obtain ⟨t, t1, t2⟩ := n5 e r her
    obtain ⟨u, u1, u2, u3⟩ := s4 e.vrf
    obtain rfl := ha.term t1 u1
    exact ⟨t, t2, u2, u3⟩
  · exact Or.inr ha

/-! ### C10 -/

/-- An accepted inclusion result is sound as far as presence goes: the VRF output is in the tree. -/
theorem C10_vrf_output_present {cs : Suite} (hcs : cs.Good) (S : List Pair) (hS : IsMap cs.hashSize S)
    (es : List Entry) (p : Proof) (hp : WireProof cs.hashSize p)
    (h : verify cs es p (rootHash cs.H cs.hashSize S) = .ok ()) (e : Entry) (r : Res)
    (her : (e, r) ∈ es.zip p.results) (hincl : r.isInclusion = true) :
    e.vrf ∈ S.map Prod.fst ∨ Broken cs (verifierInputs cs es p) (rootInputs cs.H cs.hashSize S) := by
  rcases verified_entry hcs hS hp h her with ⟨t, t1, t2, _⟩ | hb
  · left
    unfold Says at t1
    rw [if_pos hincl] at t1
    obtain ⟨c, rfl, _⟩ := t1
    exact List.mem_map.mpr ⟨_, t2 _ rfl, rfl⟩
  · exact Or.inr hb

/-- The pair is in the tree, provided no other result of the same batch names a leaf with this VRF output and another
commitment.  Missing for the full statement: that proviso; without it the claim is false, see
`C10_commitment_not_checked`. -/
theorem C10_inclusion_sound_partial {cs : Suite} (hcs : cs.Good) (S : List Pair) (hS : IsMap cs.hashSize S)
    (es : List Entry) (p : Proof) (hp : WireProof cs.hashSize p)
    (h : verify cs es p (rootHash cs.H cs.hashSize S) = .ok ()) (e : Entry) (r : Res)
    (her : (e, r) ∈ es.zip p.results) (hincl : r.isInclusion = true)
    (hother : ∀ c d, Res.nonInclusionLeaf e.vrf c d ∈ p.results → c = e.com) :
    (e.vrf, e.com) ∈ S ∨ Broken cs (verifierInputs cs es p) (rootInputs cs.H cs.hashSize S) := by
  rcases verified_entry hcs hS hp h her with ⟨t, t1, t2, _⟩ | hb
  · left
    unfold Says at t1
    rw [if_pos hincl] at t1
    obtain ⟨c, rfl, hc⟩ := t1
    rcases hc with rfl | hc
    · exact t2 _ rfl
    · obtain ⟨r', hr', hn⟩ := List.mem_filterMap.mp hc
      cases r' with
      | nonInclusionLeaf v c' d =>
        obtain ⟨rfl, rfl⟩ := Prod.mk.inj (Option.some.inj hn)
        rw [← hother _ _ hr']
        exact t2 _ rfl
      | inclusion d => cases hn
      | nonInclusionParent d => cases hn
  · exact Or.inr hb

/-- In particular a proof for a single entry is sound. -/
theorem C10_single_entry_sound {cs : Suite} (hcs : cs.Good) (S : List Pair) (hS : IsMap cs.hashSize S)
    (e : Entry) (p : Proof) (hp : WireProof cs.hashSize p)
    (h : verify cs [e] p (rootHash cs.H cs.hashSize S) = .ok ()) (d : Nat) (hr : p.results = [.inclusion d]) :
    (e.vrf, e.com) ∈ S ∨ Broken cs (verifierInputs cs [e] p) (rootInputs cs.H cs.hashSize S) :=
  C10_inclusion_sound_partial hcs S hS [e] p hp h e (.inclusion d) (by rw [hr]; simp) rfl (by rw [hr]; simp)

/-- C10 is false: in a batch, a non-inclusion result for another VRF output can place the real leaf in the
skeleton, and an inclusion result for that leaf's VRF output is then accepted with any commitment, because
`addToSkeleton` compares only VRF outputs (verify.go:38-43).  Here the tree holds only `(80, 01)`; a proof that
`90` is absent and `(80, 4D)` is present is accepted, and no hash collides. -/
theorem C10_commitment_not_checked :
    verify toySuite [⟨[0x90], []⟩, ⟨[0x80], [77]⟩] ⟨[.nonInclusionLeaf [0x80] [1] 0, .inclusion 0], []⟩
      (rootHash toySuite.H 1 [([0x80], [1])]) = .ok () ∧
    IsMap 1 [([0x80], [1])] ∧ ([0x80], [77]) ∉ [(([0x80], [1]) : Pair)] ∧
    ¬ Broken toySuite (verifierInputs toySuite [⟨[0x90], []⟩, ⟨[0x80], [77]⟩]
        ⟨[.nonInclusionLeaf [0x80] [1] 0, .inclusion 0], []⟩) (rootInputs toySuite.H 1 [([0x80], [1])]) := by
  refine ⟨by decide +kernel, ⟨by decide, by decide⟩, by decide, ?_⟩
  have h1 : verifierInputs toySuite [⟨[0x90], []⟩, ⟨[0x80], [77]⟩]
      ⟨[.nonInclusionLeaf [0x80] [1] 0, .inclusion 0], []⟩ = [[2, 0x80, 1]] := by decide +kernel
  have h2 : rootInputs toySuite.H 1 [([0x80], [1])] = [[2, 0x80, 1]] := by decide +kernel
  rw [h1, h2]
  rintro (⟨a, ha, b, hb, hne, _⟩ | ⟨a, ha, hz⟩)
  · rw [List.mem_singleton] at ha hb; exact hne (by rw [ha, hb])
  · simp only [List.cons_append, List.nil_append, List.mem_cons, List.not_mem_nil, or_false, or_self] at ha
    subst ha; revert hz; decide

-- the hypotheses of the partial theorem on an honest proof: tree {80 ↦ 1, 01 ↦ 3}, present and absent entry
example : WireProof 1 ⟨[.inclusion 1, .nonInclusionLeaf [0x01] [3] 1], []⟩ ∧
    verify toySuite [⟨[0x80], [1]⟩, ⟨[0x02], []⟩] ⟨[.inclusion 1, .nonInclusionLeaf [0x01] [3] 1], []⟩
      (rootHash toySuite.H 1 [([0x80], [1]), ([0x01], [3])]) = .ok () ∧
    (∀ c d, Res.nonInclusionLeaf [0x80] c d ∉ [Res.inclusion 1, .nonInclusionLeaf [0x01] [3] 1]) := by
  refine ⟨⟨by simp, by rintro v c d h; simp at h; obtain ⟨rfl, rfl, rfl⟩ := h; decide⟩, by decide +kernel, by simp⟩

/-! ### C11 -/

/-- An accepted non-inclusion result is sound unless it names a leaf with the searched VRF output itself.
Missing for the full statement: that proviso; without it the claim is false, see `C11_names_itself`. -/
theorem C11_non_inclusion_sound_partial {cs : Suite} (hcs : cs.Good) (S : List Pair) (hS : IsMap cs.hashSize S)
    (es : List Entry) (p : Proof) (hp : WireProof cs.hashSize p)
    (h : verify cs es p (rootHash cs.H cs.hashSize S) = .ok ()) (e : Entry) (r : Res)
    (her : (e, r) ∈ es.zip p.results) (hincl : r.isInclusion = false)
    (hself : ∀ c d, r ≠ .nonInclusionLeaf e.vrf c d) :
    e.vrf ∉ S.map Prod.fst ∨ Broken cs (verifierInputs cs es p) (rootInputs cs.H cs.hashSize S) := by
  rcases verified_entry hcs hS hp h her with ⟨t, t1, _, t3⟩ | hb
  · left
    intro hmem
    obtain ⟨x, hx, hxe⟩ := List.mem_map.mp hmem
    have ht := t3 x.2 (by rw [← hxe]; exact hx)
    unfold Says at t1
    rw [if_neg (by rw [hincl]; simp), ht] at t1
    rcases t1 with t1 | ⟨v, c, hvc, hor⟩
    · cases t1
    · obtain ⟨rfl, rfl⟩ := Prod.mk.inj (Option.some.inj hvc)
      rcases hor with hor | hor
      · exact hor rfl
      · cases r with
        | nonInclusionLeaf v c d =>
          obtain ⟨rfl, rfl⟩ := Prod.mk.inj (Option.some.inj hor)
          exact hself _ _ rfl
        | inclusion d => cases hor
        | nonInclusionParent d => cases hor
  · exact Or.inr hb

/-- C11 is false: a non-inclusion result may name the very leaf that was searched for, and the first time a
path is filled in nothing compares the two (verify.go:55-66).  The tree holds `(80, 01)` and `(01, 03)`; a proof
that `80` is absent is accepted. -/
theorem C11_names_itself :
    verify toySuite [⟨[0x80], []⟩] ⟨[.nonInclusionLeaf [0x80] [1] 1], [[226]]⟩
      (rootHash toySuite.H 1 [([0x80], [1]), ([0x01], [3])]) = .ok () ∧
    IsMap 1 [([0x80], [1]), ([0x01], [3])] ∧ [0x80] ∈ [([0x80], [1]), (([0x01], [3]) : Pair)].map Prod.fst ∧
    ¬ Broken toySuite (verifierInputs toySuite [⟨[0x80], []⟩] ⟨[.nonInclusionLeaf [0x80] [1] 1], [[226]]⟩)
      (rootInputs toySuite.H 1 [([0x80], [1]), ([0x01], [3])]) := by
  refine ⟨by decide +kernel, ⟨by decide, by decide⟩, by decide, ?_⟩
  have h1 : verifierInputs toySuite [⟨[0x80], []⟩] ⟨[.nonInclusionLeaf [0x80] [1] 1], [[226]]⟩ =
      [3 :: (toySuite.H [2, 0x01, 3] ++ toySuite.H [2, 0x80, 1]), [2, 0x80, 1]] := by decide +kernel
  have h2 : rootInputs toySuite.H 1 [([0x80], [1]), ([0x01], [3])] =
      [3 :: (toySuite.H [2, 0x01, 3] ++ toySuite.H [2, 0x80, 1]), [2, 0x01, 3], [2, 0x80, 1]] := by decide +kernel
  rw [h1, h2]
  have e : (3 :: (toySuite.H [2, 0x01, 3] ++ toySuite.H [2, 0x80, 1]) : Bytes) = [3, 226, 93] := by decide +kernel
  rw [e]
  unfold Broken Collides ZeroDigest
  decide +kernel

-- the hypotheses of the partial theorem are met by an honest proof
example : WireProof 1 ⟨[.nonInclusionLeaf [0x80] [1] 1], [[226]]⟩ ∧
    verify toySuite [⟨[0x90], []⟩] ⟨[.nonInclusionLeaf [0x80] [1] 1], [[226]]⟩
      (rootHash toySuite.H 1 [([0x80], [1]), ([0x01], [3])]) = .ok () ∧
    (∀ c d, Res.nonInclusionLeaf [0x80] [1] 1 ≠ .nonInclusionLeaf [0x90] c d) := by
  refine ⟨⟨by simp, by rintro v c d h; simp at h; obtain ⟨rfl, rfl, rfl⟩ := h; decide⟩, by decide +kernel, by simp⟩

/-- Two verifiers that accepted proofs against the same root, whatever it is the root of, cannot have been
told two different commitments for one VRF output (with the proviso of C10 for both). -/
theorem C10_no_equivocation_partial {cs : Suite} (hcs : cs.Good) (root : Bytes) (es₁ es₂ : List Entry)
    (p₁ p₂ : Proof) (hp₁ : WireProof cs.hashSize p₁) (hp₂ : WireProof cs.hashSize p₂)
    (h₁ : verify cs es₁ p₁ root = .ok ()) (h₂ : verify cs es₂ p₂ root = .ok ()) (e₁ e₂ : Entry) (r₁ r₂ : Res)
    (he₁ : (e₁, r₁) ∈ es₁.zip p₁.results) (he₂ : (e₂, r₂) ∈ es₂.zip p₂.results) (hv : e₁.vrf = e₂.vrf)
    (hi₁ : r₁.isInclusion = true) (hother₁ : ∀ c d, Res.nonInclusionLeaf e₁.vrf c d ∉ p₁.results)
    (hother₂ : ∀ c d, Res.nonInclusionLeaf e₁.vrf c d ∉ p₂.results) :
    (r₂.isInclusion = true ∧ e₁.com = e₂.com) ∨
    Broken cs (verifierInputs cs es₁ p₁) (verifierInputs cs es₂ p₂) := by
  obtain ⟨n, a1, a2⟩ := verify_ok h₁
  obtain ⟨m, b1, b2⟩ := verify_ok h₂
  obtain ⟨n1, _, _, _, n5⟩ := evaluate_spec hp₁ a1
  obtain ⟨m1, _, _, _, m5⟩ := evaluate_spec hp₂ b1
  have i1 : verifierInputs cs es₁ p₁ = n.inputs cs := by unfold verifierInputs; rw [a1]
  have i2 : verifierInputs cs es₂ p₂ = m.inputs cs := by unfold verifierInputs; rw [b1]
  rw [i1, i2]
  have notNamed : ∀ (p : Proof) (v c : Bytes), (∀ c d, Res.nonInclusionLeaf v c d ∉ p.results) → (v, c) ∉ p.named := by
    intro p v c hno hc
    obtain ⟨r', hr', hn⟩ := List.mem_filterMap.mp hc
    cases r' with
    | nonInclusionLeaf v c' d =>
      obtain ⟨rfl, rfl⟩ := Prod.mk.inj (Option.some.inj hn)
      exact hno _ _ hr'
    | inclusion d => cases hn
    | nonInclusionParent d => cases hn
  rcases agree_of_hash hcs n m n1 m1 (by rw [a2, b2]) with ha | ha
  · left
    obtain ⟨t, t1, t2⟩ := n5 _ _ he₁
    obtain ⟨u, u1, u2⟩ := m5 _ _ he₂
    rw [← hv] at u1
    obtain rfl := ha.term t1 u1
    unfold Says at t2
    rw [if_pos hi₁] at t2
    obtain ⟨c, rfl, hc⟩ := t2
    have hc : c = e₁.com := by
      rcases hc with hc | hc
      · exact hc
      · exact absurd hc (notNamed _ _ _ hother₁)
    unfold Says at u2
    split at u2
    · rename_i hi
      obtain ⟨c', hcc, hc'⟩ := u2
      obtain ⟨_, rfl⟩ := Prod.mk.inj (Option.some.inj hcc)
      refine ⟨hi, ?_⟩
      rcases hc' with hc' | hc'
      · rw [← hc, hc']
      · rw [← hv] at hc'; exact absurd hc' (notNamed _ _ _ hother₂)
    · exfalso
      rcases u2 with u2 | ⟨v, c', hvc, hor⟩
      · cases u2
      · obtain ⟨rfl, rfl⟩ := Prod.mk.inj (Option.some.inj hvc)
        rcases hor with hor | hor
        · exact hor hv
        · have hr2 : r₂ ∈ p₂.results := (List.of_mem_zip he₂).2
          exact notNamed _ _ _ hother₂ (List.mem_filterMap.mpr ⟨r₂, hr2, hor⟩)
  · exact Or.inr ha

/-- Two accepted proofs against the same root that give the same results for the same entries are the same
proof: nothing can be added to or left out of the list of copath elements. -/
theorem C10_elements_unique {cs : Suite} (hcs : cs.Good) (root : Bytes) (es : List Entry)
    (p₁ p₂ : Proof) (hp₁ : WireProof cs.hashSize p₁) (hp₂ : WireProof cs.hashSize p₂)
    (h₁ : verify cs es p₁ root = .ok ()) (h₂ : verify cs es p₂ root = .ok ()) (hr : p₁.results = p₂.results) :
    p₁ = p₂ ∨ Broken cs (verifierInputs cs es p₁) (verifierInputs cs es p₂) := by
  obtain ⟨n, a1, a2⟩ := verify_ok h₁
  obtain ⟨m, b1, b2⟩ := verify_ok h₂
  have i1 : verifierInputs cs es p₁ = n.inputs cs := by unfold verifierInputs; rw [a1]
  have i2 : verifierInputs cs es p₂ = m.inputs cs := by unfold verifierInputs; rw [b1]
  rcases evaluate_unique hcs hp₁ hp₂ hr a1 b1 (by rw [a2, b2]) with h | h
  · exact Or.inl h
  · right; left; rw [i1, i2]; exact h

/-! ### C12 -/

/-- What `Mutate` returns evaluates to the root before the change, as long as nothing is both added and removed. -/
theorem mutate_evaluates {cs : Suite} (hcs : cs.Good) (hsm : Small cs) {bs : List Batch} {st : Store}
    (h : History cs bs st) (b : Batch) (res : MutateResult)
    (hm : mutate cs st bs.length (entries b.add) b.remove = .ok res)
    (hne : bs = [] ∨ b.add ≠ [] ∨ b.remove ≠ []) (hver : bs.length + 1 < 2 ^ 64)
    (hsize : (contents (bs ++ [b])).length < 2 ^ 54)
    (hdist : (b.add.map Prod.fst ++ b.remove).Nodup) :
    ∃ n T, T.Perm (contents bs) ∧ Rep cs (fun _ q _ => below id (Batch.vrfs b) q = [])
      (fun _ q T => 2 ≤ T.length ∧ below id (Batch.vrfs b) q ≠ []) [] n T ∧
      evaluate cs (entries b.add ++ entries (b.remove.zip res.removed)) res.proof = .ok n ∧
      (entries (b.remove.zip res.removed)).map Entry.vrf = b.remove ∧
      n.hash cs = rootHash cs.H cs.hashSize (contents bs) := by
  obtain ⟨hmap, X, hinv⟩ := history_inv hcs hsm h
  obtain ⟨hb, ho⟩ := mutate_ok hcs hsm hinv hmap hm hne hver hsize
  obtain ⟨n, T, hperm, hstart, hproof⟩ := ho.proof
  have hrem := ho.removed
  rw [current_versions] at hperm hrem
  have hlenR : b.remove.length = res.removed.length := hrem.length_eq
  have hfst : (b.remove.zip res.removed).map Prod.fst = b.remove := by
    rw [List.map_fst_zip]; omega
  have hvrfs : (entries b.add ++ entries (b.remove.zip res.removed)).map Entry.vrf = Batch.vrfs b := by
    rw [List.map_append, entries_vrf, entries_vrf, hfst]; rfl
  have hlenV : ∀ v ∈ Batch.vrfs b, v.length = cs.hashSize :=
    vrfs_len (fun e he => (hb.addLen e he).1) hb.removeLen
  have hremMem : ∀ e ∈ b.remove.zip res.removed, e ∈ contents bs := by
    intro e he
    obtain ⟨i, hi⟩ := List.mem_iff_getElem?.mp he
    rw [List.getElem?_zip_eq_some] at hi
    have := List.forall₂_iff_get.mp hrem
    have h1 : i < b.remove.length := by
      by_contra hc; rw [List.getElem?_eq_none (by omega)] at hi; cases hi.1
    have h2 : i < res.removed.length := by omega
    have := this.2 i h1 h2
    rw [List.getElem?_eq_getElem h1, List.getElem?_eq_getElem h2] at hi
    simp only [Option.some.injEq] at hi
    simp only [List.get_eq_getElem, hi.1, hi.2] at this
    exact this
  have hev := evaluate_honest hstart.rep (fun i q T h => h.1) (entries b.add ++ entries (b.remove.zip res.removed))
    (by rw [hvrfs]; exact fun _ _ _ h => h.2)
    (by
      intro e he
      refine ⟨hlenV _ (by rw [← hvrfs]; exact List.mem_map.mpr ⟨e, he, rfl⟩), Or.inr ?_⟩
      rcases List.mem_append.mp he with he | he
      · exact (hb.addLen _ (mem_entries.mp he)).2
      · exact (hmap.len _ (hremMem _ (mem_entries.mp he))).2)
    (by rw [hvrfs]; exact hdist)
    (by
      intro e he c hc
      have hv : e.vrf ∈ Batch.vrfs b := by rw [← hvrfs]; exact List.mem_map.mpr ⟨e, he, rfl⟩
      have hin := hperm.mem_iff.mp ((hstart.look hv (hlenV _ hv) c).mp hc)
      rcases List.mem_append.mp he with he | he
      · exfalso
        have he' := mem_entries.mp he
        have := hb.fresh _ he' (List.mem_map.mpr ⟨_, hin, rfl⟩)
        exact (List.disjoint_of_nodup_append hdist) (List.mem_map.mpr ⟨_, he', rfl⟩) this
      · have h1 := hremMem _ (mem_entries.mp he)
        have := (lookup_iff hmap.distinct _ _).mpr h1
        rw [(lookup_iff hmap.distinct _ _).mpr hin] at this
        exact (Option.some.inj this).symm)
  have hps : (entries b.add ++ entries (b.remove.zip res.removed)).map (fun e => (look n 0 e.vrf).1) =
      (Batch.vrfs b).map (fun v => (look n 0 v).1) := by
    rw [← hvrfs, List.map_map]; rfl
  rw [hps, hvrfs, ← hproof] at hev
  have hrep := pruned_rep (fun _ _ _ h => h.2) n _ _ hstart.rep (fun i q T _ h => h.1)
  have hrep' : Rep cs (fun _ q _ => below id (Batch.vrfs b) q = [])
      (fun _ q T => 2 ≤ T.length ∧ below id (Batch.vrfs b) q ≠ []) [] (pruned cs (Batch.vrfs b) [] n) T :=
    hrep.mono (fun _ _ _ h => h.1) (fun _ _ _ _ h => h)
  refine ⟨_, T, hperm, hrep', hev, by rw [entries_vrf, hfst], ?_⟩
  rw [hrep'.hash_eq (fun i q T _ h => h.1), trieHash_root]
  exact trieHash_perm _ _ _ _ _ _ hperm

/-- For every mutation of a history whose added and removed VRF outputs are distinct, and that lists
entries in both halves of every subtree that it leaves with at most one of several entries (`Resolved`, always true
without removals), the proof returned by `Mutate` evaluates to the root before and the root after.
Missing for the full statement: removals that leave an unlisted entry alone in its subtree, for which the claim is
false, see `C12_removal_wrong_after`, and removing and adding the same VRF output, see `C12_replace_rejected`. -/
theorem C12_before_after_partial {cs : Suite} (hcs : cs.Good) (hsm : Small cs) {bs : List Batch} {st : Store}
    (h : History cs bs st) (b : Batch) (res : MutateResult)
    (hm : mutate cs st bs.length (entries b.add) b.remove = .ok res)
    (hne : bs = [] ∨ b.add ≠ [] ∨ b.remove ≠ []) (hver : bs.length + 1 < 2 ^ 64)
    (hsize : (contents (bs ++ [b])).length < 2 ^ 54)
    (hdist : (b.add.map Prod.fst ++ b.remove).Nodup)
    (hbig : b.Resolved (contents bs)) :
    evaluateBeforeAfter cs (entries b.add) (entries (b.remove.zip res.removed)) res.proof =
      .ok (rootHash cs.H cs.hashSize (contents bs), res.root) := by
  obtain ⟨n, T, hperm, hrep, hev, hR, hbefore⟩ := mutate_evaluates hcs hsm h b res hm hne hver hsize hdist
  obtain ⟨hmap, X, hinv⟩ := history_inv hcs hsm h
  obtain ⟨hb, ho⟩ := mutate_ok hcs hsm hinv hmap hm hne hver hsize
  obtain ⟨n', a1, a2⟩ := after_spec hperm hmap hrep
    hb.addLen hb.addDistinct hb.removeLen hb.fresh hbig
  unfold evaluateBeforeAfter
  rw [hev]
  simp only [G.ok_bind]
  rw [hR, a1]
  simp only [G.ok_bind, G.pure_eq]
  rw [a2, ho.root, current_versions, hbefore]

/-- Adversarial version: whatever the proof, if it evaluates to the root of `S` before the change, then none of the
added VRF outputs is present in `S` and it evaluates to the root of the changed map afterwards, unless the hash inputs
contain a collision or an all-zero digest.  (A result that forges the absence of an added VRF output, see C11, or shows
it present does not help: the addition itself then fails.)
Missing for the full statement: as in `C12_before_after_partial`. -/
theorem C12_sound_partial {cs : Suite} (hcs : cs.Good) (S : List Pair) (hS : IsMap cs.hashSize S)
    (b : Batch) (removed : List Bytes) (hlen : removed.length = b.remove.length) (p : Proof)
    (hp : WireProof cs.hashSize p) (after : Bytes)
    (hcom : ∀ e ∈ b.add, e.2.length = cs.hashSize)
    (h : evaluateBeforeAfter cs (entries b.add) (entries (b.remove.zip removed)) p =
      .ok (rootHash cs.H cs.hashSize S, after))
    (hbig : b.Resolved S) :
    (after = rootHash cs.H cs.hashSize (b.apply S) ∧ ∀ e ∈ b.add, e.1 ∉ S.map Prod.fst) ∨
    Broken cs (verifierInputs cs (entries b.add ++ entries (b.remove.zip removed)) p)
      (rootInputs cs.H cs.hashSize S) := by
  unfold evaluateBeforeAfter at h
  obtain ⟨n, hev, h⟩ := G.bind_eq_ok.mp h
  obtain ⟨n', hadd, h⟩ := G.bind_eq_ok.mp h
  obtain ⟨hbefore, hafter⟩ := Prod.mk.inj (Except.ok.inj h)
  have hfst : (b.remove.zip removed).map Prod.fst = b.remove := by rw [List.map_fst_zip]; omega
  have hvrfs : (entries b.add ++ entries (b.remove.zip removed)).map Entry.vrf = Batch.vrfs b := by
    rw [List.map_append, entries_vrf, entries_vrf, hfst]; rfl
  obtain ⟨n1, n2, n3, n4, n5⟩ := evaluate_spec hp hev
  have hcov := evaluate_cov hev
  rw [hvrfs] at hcov n4
  have hin : verifierInputs cs (entries b.add ++ entries (b.remove.zip removed)) p = n.inputs cs := by
    unfold verifierInputs; rw [hev]
  have hterm : ∀ v ∈ Batch.vrfs b, ∃ t, n.term 0 v = some t := by
    intro v hv
    rw [← hvrfs] at hv
    obtain ⟨e, he, rfl⟩ := List.mem_map.mp hv
    obtain ⟨i, hi⟩ := List.mem_iff_getElem?.mp he
    have hi2 : i < p.results.length := by
      rw [← n2]; by_contra hc; rw [List.getElem?_eq_none (by omega)] at hi; cases hi
    obtain ⟨t, t1, _⟩ := n5 e p.results[i] (List.mem_iff_getElem?.mpr
      ⟨i, List.getElem?_zip_eq_some.mpr ⟨hi, List.getElem?_eq_getElem hi2⟩⟩)
    exact ⟨t, t1⟩
  rcases rep_of_hash hcs (V := Batch.vrfs b) n [] S ((wf_root_iff _ _).mpr hS) (by simp) n1 hcov
    (fun v hv _ => hterm v hv) (by rw [hbefore, trieHash_root]) with ⟨T, hT, hrep⟩ | hbk
  swap
  · right; rw [hin]; exact hbk
  have haddLen : ∀ e ∈ b.add, e.1.length = cs.hashSize ∧ e.2.length = cs.hashSize := by
    intro e he
    exact ⟨n3 ⟨e.1, e.2⟩ (List.mem_append_left _ (mem_entries.mpr he)), hcom e he⟩
  have hremLen : ∀ v ∈ b.remove, v.length = cs.hashSize := by
    intro v hv
    rw [← hfst] at hv
    obtain ⟨e, he, rfl⟩ := List.mem_map.mp hv
    exact n3 ⟨e.1, e.2⟩ (List.mem_append_right _ (mem_entries.mpr he))
  have hR : (entries (b.remove.zip removed)).map Entry.vrf = b.remove := by rw [entries_vrf, hfst]
  rw [hR] at hadd
  left
  -- the added VRF outputs are absent
  have hfresh : ∀ e ∈ b.add, e.1 ∉ S.map Prod.fst := by
    intro e he hmem
    obtain ⟨x, hx, hxe⟩ := List.mem_map.mp hmem
    obtain ⟨t, ht⟩ := hterm e.1 (List.mem_append_left _ (List.mem_map.mpr ⟨e, he, rfl⟩))
    have ht' := Rep.term_of_mem (v := e.1) (c := x.2) n hrep (by rw [← hxe]; exact hT.mem_iff.mpr hx) ht
    subst ht'
    refine add_present_fails (cs := cs) (v := e.1) (c := x.2) (haddLen e he).1 (mutationFuel cs) (n.cacheHashes cs) []
      (sortBy Entry.vrf (entries b.add)) (sortBy id b.remove) n' (sortBy_sorted _) ?_ (sortBy_sorted _) ?_ ?_ ?_ (on_nil _)
      (by rw [cacheHashes_term]; exact ht) (by rw [below_root, below_root]; exact hadd)
    · intro a ha; exact (haddLen _ (mem_entries.mp ((sortBy_perm _).mem_iff.mp ha))).1
    · intro r hr; exact hremLen _ ((sortBy_perm _).mem_iff.mp hr)
    · exact ⟨⟨e.1, e.2⟩, (sortBy_perm _).mem_iff.mpr (mem_entries.mpr he), rfl⟩
    · intro hr
      exact (List.disjoint_of_nodup_append n4) (List.mem_map.mpr ⟨e, he, rfl⟩) ((sortBy_perm _).mem_iff.mp hr)
  refine ⟨?_, hfresh⟩
  obtain ⟨m, m1, m2⟩ := after_spec hT hS hrep
    haddLen (List.nodup_append.mp n4).1 hremLen (fun e he hin => absurd hin (hfresh e he)) hbig
  rw [hadd] at m1
  rw [← hafter, Except.ok.inj m1, m2]

/-- C12 is false for removals: with the tree `{80 ↦ 1, 01 ↦ 3}`, removing `80` leaves the single leaf `01`, which
`Mutate` moves to the root; the auditor sees the sibling only as a hash and keeps a parent node, so the two
disagree about the root afterwards. -/
theorem C12_removal_wrong_after : ∃ r1 r2,
    mutate toySuite [] 0 [⟨[0x80], [1]⟩, ⟨[0x01], [3]⟩] [] = .ok r1 ∧
    mutate toySuite r1.store 1 [] [[0x80]] = .ok r2 ∧ r2.removed = [[1]] ∧
    evaluateBeforeAfter toySuite [] [⟨[0x80], [1]⟩] r2.proof = .ok (r1.root, [139]) ∧ r2.root = [226] := by
  refine ⟨_, _, rfl, rfl, ?_⟩
  decide +kernel

/-- C12 is false for replacing a commitment in one mutation: `Mutate` accepts it, the auditor rejects the
proof because the VRF output is listed twice. -/
theorem C12_replace_rejected : ∃ r1 r2,
    mutate toySuite [] 0 [⟨[0x80], [1]⟩, ⟨[0x01], [3]⟩] [] = .ok r1 ∧
    mutate toySuite r1.store 1 [⟨[0x80], [5]⟩] [[0x80]] = .ok r2 ∧
    evaluateBeforeAfter toySuite [⟨[0x80], [5]⟩] [⟨[0x80], [1]⟩] r2.proof =
      goErr "same vrf output present multiple times" := by
  refine ⟨_, _, rfl, rfl, ?_⟩
  decide +kernel

/-- An addition with a forged "absent" result (C11) makes the auditor panic: the leaf and the addition share
all bits. -/
theorem C12_self_named_addition_panics :
    evaluateBeforeAfter toySuite [⟨[0x80], [5]⟩] [] ⟨[.nonInclusionLeaf [0x80] [1] 1], [[226]]⟩ =
      goPanic "index out of range" := by
  decide +kernel

-- the hypotheses hold: an addition, and a removal next to a subtree of two entries
example : ∃ r1 r2, mutate toySuite [] 0 [⟨[0x80], [1]⟩, ⟨[0x01], [3]⟩, ⟨[0x41], [4]⟩] [] = .ok r1 ∧
    mutate toySuite r1.store 1 [⟨[0xC0], [5]⟩] [[0x80]] = .ok r2 ∧
    evaluateBeforeAfter toySuite [⟨[0xC0], [5]⟩] [⟨[0x80], [1]⟩] r2.proof = .ok (r1.root, r2.root) := by
  refine ⟨_, _, rfl, rfl, ?_⟩
  decide +kernel

/-! ### C13 -/

/-- C13 is false: a mutation without additions and removals never loads the old root, so the new version is
written as a reference with an empty hash; its root hash is empty and it cannot be read back.  The first
version has the entries `80 ↦ 1` and `01 ↦ 3`. -/
theorem C13_noop_unreadable : ∃ r1 r2,
    mutate toySuite [] 0 [⟨[0x80], [1]⟩, ⟨[0x01], [3]⟩] [] = .ok r1 ∧ r1.root = [232] ∧
    mutate toySuite r1.store 1 [] [] = .ok r2 ∧ r2.root = [] ∧
    search toySuite r2.store [⟨2, [[0x80]]⟩] = goErr "EOF" := by
  refine ⟨_, _, rfl, ?_, rfl, ?_⟩ <;> decide +kernel

/-- The same in general: whatever the store and the (non-zero) version, the call succeeds and returns the
empty string as root hash. -/
theorem C13_noop_root_is_empty (cs : Suite) (st : Store) (ver : Nat) (hv : ver ≠ 0) :
    ∃ res, mutate cs st ver [] [] = .ok res ∧ res.root = [] := by
  have hl : loadVersion cs st ver [] = .ok (.ext [] ⟨ver, 0⟩) := by
    unfold loadVersion; unfold expand; rfl
  have hr : runProofBuilder cs (.ext [] ⟨ver, 0⟩) [] = .ok (⟨[], [[]]⟩, []) := rfl
  have hg : getMutationRoot cs st ver [] [] = .ok (.ext [] ⟨ver, 0⟩, ⟨[], [[]]⟩, []) := by
    unfold getMutationRoot
    simp only [List.map_nil, List.append_nil]
    rw [if_neg hv, hl]
    simp only [G.ok_bind]
    rw [hr]; rfl
  have ha : addRemoveEntries cs (mutationFuel cs) (.ext [] ⟨ver, 0⟩) [] [] 0 = .ok (.ext [] ⟨ver, 0⟩) := by
    unfold mutationFuel addRemoveEntries; rfl
  have hs : splitIntoTiles cs (ver + 1) (.ext [] ⟨ver, 0⟩) = .ok [⟨⟨ver + 1, 0⟩, 0, .ext [] ⟨ver, 0⟩⟩] := by
    simp [splitIntoTiles, splitLoop, makeTile, makeTileLoop, Node.size, Node.at]
  have hp : ∃ st', putTiles cs [⟨⟨ver + 1, 0⟩, 0, .ext [] ⟨ver, 0⟩⟩] st = .ok st' := ⟨_, rfl⟩
  obtain ⟨st', hp⟩ := hp
  refine ⟨⟨[], ⟨[], [[]]⟩, [], st'⟩, ?_, rfl⟩
  unfold mutate
  simp only [sortBy, checkEntries, checkRemoves, G.pure_eq, G.ok_bind]
  rw [hg]
  simp only [G.ok_bind]
  rw [ha]
  simp only [G.ok_bind]
  rw [hs]
  simp only [G.ok_bind]
  rw [hp]
  rfl

/-- Partial: publishing an empty first version works (root hash all zeroes, readable).  Missing: every later
version, for which the claim is false. -/
theorem C13_empty_first_version_partial {cs : Suite} (hcs : cs.Good) (hsm : Small cs) :
    ∃ res, mutate cs [] 0 [] [] = .ok res ∧ res.root = List.replicate cs.hashSize 0 ∧
      ∀ v : Bytes, v.length = cs.hashSize → ∃ p, search cs res.store [⟨1, [v]⟩] = .ok [(p, [none])] := by
  have hvalid : Batch.Valid cs.hashSize (contents []) ⟨[], []⟩ :=
    ⟨by simp, by simp, by simp, by simp, by simp, by simp⟩
  obtain ⟨res, hm⟩ := (C08_mutate_iff_valid hcs hsm History.nil ⟨[], []⟩ (Or.inl rfl) (by decide) (by decide)).1.mpr hvalid
  refine ⟨res, hm, ?_, ?_⟩
  · rw [C07_root_is_trie_hash hcs hsm History.nil ⟨[], []⟩ res hm (Or.inl rfl) (by decide) (by decide)]
    simp [rootHash, contents, Batch.apply]
    cases 8 * cs.hashSize <;> simp [trieHash]
  · intro v hv
    obtain ⟨_, h2⟩ := C08_mutate_is_map_update hcs hsm History.nil ⟨[], []⟩ res hm (Or.inl rfl) (by decide) (by decide)
    obtain ⟨p, com, h3, h4⟩ := h2 v hv
    have : com = none := by
      cases com with
      | none => rfl
      | some c => have := (h4 c).mp rfl; simp [contents] at this
    subst this
    exact ⟨p, h3⟩

end Katie.Props
