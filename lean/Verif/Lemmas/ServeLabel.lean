import Verif.Lemmas.ServeSearch
import Verif.Spec.Served
import Verif.Lemmas.ServerStep

/-
What the server has of one label, as the proofs to a client need it.
-/

namespace Katie.Server
open Katie Katie.Wire Katie.Alg Katie.Ladder Katie.ServerSpec Katie.PrefixSpec Katie.AuditSpec Katie.SearchSpec Katie.Props
  Katie.ServedSpec

theorem entryAt_get {cs : Log.Suite} {us : List AuditorUpdate} {x : Nat} (hx : x < us.length) :
    (logOf cs us)[x]? = some (entryAt cs us x) := by
  unfold entryAt
  rw [List.getD_eq_getElem?_getD, List.getElem?_eq_getElem (by rw [logOf_length]; exact hx)]
  rfl

theorem leavesOf_entryAt (cs : Log.Suite) (us : List AuditorUpdate) :
    leavesOf cs (entryAt cs us) us.length = (logOf cs us).map (leafHash cs) := by
  apply List.ext_getElem
  · simp [leavesOf, logOf_length]
  · intro i h1 h2
    have hi : i < us.length := by simpa [leavesOf] using h1
    have := entryAt_get (cs := cs) hi
    rw [List.getElem?_eq_getElem (by rw [logOf_length]; exact hi)] at this
    simp only [leavesOf, List.getElem_map, List.getElem_range]
    rw [Option.some.inj this]
    rfl

theorem honest_of_inv {env : Env} (hcs : env.cs.Good) (hsm : Prefix.Small env.cs) {cs : List Change} {us : List AuditorUpdate}
    {st : Store} {head : Option TreeHead} (h : Inv env cs us st head) (hne : cs ≠ []) :
    Honest env.cs (serverDB env st) (us.map batchOf) cs.length (entryAt env.cs us) where
  good := hcs
  small := hsm
  pos := List.length_pos_iff.2 hne
  size := h.size
  entry x hx := h.getEntry hcs x _ (entryAt_get (by rw [h.len]; exact hx))
  times := by
    have e : (fun x => (entryAt env.cs us x).timestamp) = timeOf (logOf env.cs us) := by
      funext x
      unfold entryAt timeOf
      rw [List.getD_eq_getElem?_getD]
      cases (logOf env.cs us)[x]? <;> rfl
    rw [e, ← h.len]
    exact h.times
  hist := h.hist
  len := by rw [List.length_map, h.len]
  root x hx := by
    rw [logOf_get (entryAt_get (by rw [h.len]; exact hx)), List.map_take]
  nonempty x hx := by
    rw [logOf_get (entryAt_get (by rw [h.len]; exact hx))]
    intro hc
    have := rootHash_len hcs (contents ((us.take (x + 1)).map batchOf))
    rw [hc] at this
    have := hcs.pos
    simp at *
    omega
  log := by
    rw [← h.len, leavesOf_entryAt]
    exact h.log

/-! ### one label -/

/-- the VRF output and proof of a version -/
def vrfOf (env : Env) (l : Bytes) (v : Nat) : Bytes × Bytes :=
  match computeVrf env l v with
  | .ok r => r
  | .error _ => ([], [])

/-- the commitment to what the server has stored for a version -/
def comOf (env : Env) (l : Bytes) (vs : List Version) (v : Nat) : Bytes :=
  match commitmentValue l v (storedOf env vs v).value with
  | .ok body => Commit.commit env.cs (storedOf env vs v).opening body
  | .error _ => List.replicate env.cs.hashSize 0

theorem comOf_pair {env : Env} {l : Bytes} {vs : List Version} {v : Nat} {x : Version} (hx : vs[v]? = some x) {p : Pair}
    (hp : pairOf env l v x = .ok p) : p.2 = comOf env l vs v := by
  unfold pairOf at hp
  obtain ⟨vrf, -, hp⟩ := G.bind_eq_ok.1 hp
  obtain ⟨body, h1, hp⟩ := G.bind_eq_ok.1 hp
  rw [← Except.ok.inj hp]
  unfold comOf storedOf
  simp only [hx, h1]

theorem le_greatestAt_iff {index : List Nat} (hs : index.Pairwise (· ≤ ·)) (v x : Nat) :
    (v : Int) ≤ greatestAt index x ↔ ∃ p, index[v]? = some p ∧ p ≤ x := by
  unfold greatestAt
  have h : v < (index.takeWhile (fun p => decide (p < x + 1))).length ↔ ∃ p, index[v]? = some p ∧ p ≤ x := by
    induction index generalizing v with
    | nil => simp
    | cons a l ih =>
      rw [List.pairwise_cons] at hs
      simp only [List.takeWhile_cons, decide_eq_true_eq]
      by_cases ha : a < x + 1
      · rw [if_pos ha]
        cases v with
        | zero => simp; omega
        | succ v =>
          simp only [List.length_cons, Nat.add_lt_add_iff_right, List.getElem?_cons_succ]
          exact ih hs.2 v
      · rw [if_neg ha]
        simp only [List.length_nil, Nat.not_lt_zero, false_iff, not_exists, not_and]
        intro p hp
        have : p ∈ a :: l := List.mem_of_getElem? hp
        rcases List.mem_cons.1 this with rfl | hm
        · omega
        · have := hs.1 p hm; omega
  rw [← h]
  omega

theorem commit_len {cs : Log.Suite} (hcs : cs.Good) (a b : Bytes) : (Commit.commit cs a b).length = cs.hashSize := hcs.len _

theorem comOf_len {env : Env} (hcs : env.cs.Good) (l : Bytes) (vs : List Version) (v : Nat) :
    (comOf env l vs v).length = env.cs.hashSize := by
  unfold comOf
  split
  · exact commit_len hcs _ _
  · simp

theorem labelTree_of_runs {env : Env} (hcs : env.cs.Good) (hsm : Prefix.Small env.cs) {cs : List Change} {us : List AuditorUpdate}
    {t : Tree} (h : ServerSpec.Runs env cs us t) {l : Bytes} (hl : ∀ c ∈ cs, l ∉ c.remove) {V : List Nat}
    (hvrf : ∀ v ∈ V, ∃ o pr, computeVrf env l v = .ok (o, pr) ∧ o.length = env.cs.hashSize)
    (hd : VrfDistinct env cs l V) :
    LabelTree env.cs (us.map batchOf) cs.length V (fun v => (vrfOf env l v).1) (comOf env l (versionsOf l cs))
      (greatestAt ((versionsOf l cs).map Version.pos)) where
  len v hv := by
    obtain ⟨o, pr, h1, h2⟩ := hvrf v hv
    simp only [vrfOf, h1, h2]
  comLen v _ := comOf_len hcs l _ v
  inj v hv w hw he := by
    obtain ⟨o, pr, h1, -⟩ := hvrf v hv
    obtain ⟨o', pr', h2, -⟩ := hvrf w hw
    simp only [vrfOf, h1, h2] at he
    subst he
    exact ((hd v hv l w o pr pr' (.inl ⟨rfl, hw⟩) h1 h2).2).symm
  mem x hx v hv c := by
    obtain ⟨o, pr, h1, -⟩ := hvrf v hv
    obtain ⟨t', h'⟩ := runs_prefix h (x + 1) hx
    obtain ⟨_, hinv'⟩ := runs_inv hcs hsm h'
    have hmap : (us.map batchOf).take (x + 1) = (us.take (x + 1)).map batchOf := by rw [List.map_take]
    obtain ⟨rest, hr, -, -⟩ := versionsOf_append l (cs.take (x + 1)) (cs.drop (x + 1)) (fun c hc => hl c (List.mem_of_mem_drop hc))
    rw [List.take_append_drop] at hr
    have hiff : (v : Int) ≤ greatestAt ((versionsOf l cs).map Version.pos) x ↔ v < (versionsOf l (cs.take (x + 1))).length := by
      rw [le_greatestAt_iff (versionsOf_pos l cs).1,
        versionsOf_take l cs (x + 1) hx (fun c hc => hl c (List.mem_of_mem_drop hc)) v]
      simp only [Nat.lt_succ_iff]
    have hcom : ∀ y, (versionsOf l (cs.take (x + 1)))[v]? = some y → ∃ p, pairOf env l v y = .ok p ∧ p = (o, comOf env l (versionsOf l cs) v) := by
      intro y hy
      obtain ⟨p, hp⟩ := hinv'.total l v y hy
      refine ⟨p, hp, ?_⟩
      obtain ⟨pr', hpr⟩ := pairOf_vrf hp
      rw [h1] at hpr
      have h2 : (versionsOf l cs)[v]? = some y := by
        rw [hr, List.getElem?_append_left (by by_contra hc; rw [List.getElem?_eq_none (by omega)] at hy; cases hy)]
        exact hy
      have := (Prod.mk.inj (Except.ok.inj hpr)).1
      rw [this, ← comOf_pair h2 hp]
    rw [hmap, hinv'.mem, hiff]
    simp only [vrfOf, h1]
    constructor
    · rintro ⟨l', v', y, hy, hp⟩
      obtain ⟨pr', hpr⟩ := pairOf_vrf hp
      have hv' : v' < (versionsOf l' (cs.take (x + 1))).length := by
        by_contra hcon
        rw [List.getElem?_eq_none (by omega)] at hy
        cases hy
      obtain ⟨rfl, rfl⟩ := hd v hv l' v' o pr pr' (.inr ⟨x + 1, hv'⟩) h1 hpr
      obtain ⟨p, k1, k2⟩ := hcom y hy
      rw [hp] at k1
      have := (Prod.mk.inj ((Except.ok.inj k1).trans k2)).2
      exact ⟨hv', this⟩
    · rintro ⟨hv', rfl⟩
      have hy := List.getElem?_eq_getElem hv'
      obtain ⟨p, k1, k2⟩ := hcom _ hy
      exact ⟨l, v, _, hy, by rw [k1, k2]⟩

end Katie.Server
