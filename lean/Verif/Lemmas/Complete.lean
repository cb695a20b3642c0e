import Verif.Lemmas.Serve
import Verif.Lemmas.ClientFinish
import Verif.Props.C07_C09_Prefix
import Verif.Props.C03_C04_LogStore

/-
The proof that the server outputs for what an algorithm has asked for: it exists, it convinces the client, and the client's
`Finish` accepts it.
-/

namespace Katie.Alg
open Katie Katie.Wire Katie.Ladder Katie.Props Katie.SearchSpec Katie.SearchTree Katie.PrefixSpec Katie.Prefix Prog

/-! ### running -/

theorem run_bind {α β σ : Type} (H : Handle σ) (p : Prog α) (f : α → Prog β) (q : Provider σ) :
    q.run H (p >>= f) = match q.run H p with
      | (.ok a, q') => q'.run H (f a)
      | (.error e, q') => (.error e, q') := by
  change q.run H (p.bind f) = _
  induction p generalizing q with
  | ret r => cases r <;> rfl
  | op r k ih => exact ih _ _

theorem fits_ok {ts : Nat → Nat} {g : Nat → Int} {stop : Nat → Int → Bool} {n : Nat} {more : Bool} :
    ∀ {tr : List Ev} {done : List Nat}, Fits g n more done tr → AgreesWith tr (honest ts g stop) →
      ∀ e ∈ tr, ∃ a, e.a = .ok a
  | [], _, _, _, e, he => by cases he
  | ⟨q, a⟩ :: tr, done, hf, ha, e, he => by
    have h1 : a = honest ts g stop q := ha _ List.mem_cons_self
    have ha' : AgreesWith tr (honest ts g stop) := fun e he => ha e (List.mem_cons_of_mem _ he)
    subst h1
    cases q with
    | ts x =>
      rcases List.mem_cons.1 he with rfl | he
      · exact ⟨_, rfl⟩
      · exact fits_ok hf.2 ha' e he
    | search x v om =>
      rcases List.mem_cons.1 he with rfl | he
      · exact ⟨_, rfl⟩
      · exact fits_ok hf.2.2.2 ha' e he
    | monitor x v =>
      rcases List.mem_cons.1 he with rfl | he
      · exact ⟨(), if_pos hf.2.2.1⟩
      · exact fits_ok hf.2.2.2 ha' e he
    | incl x vers =>
      rcases List.mem_cons.1 he with rfl | he
      · refine ⟨(), if_pos ?_⟩
        rcases hf.1 with rfl | ⟨-, v, rfl, hv⟩
        · rfl
        · simpa using hv
      · exact fits_ok hf.2 ha' e he
    | stop x v =>
      rcases List.mem_cons.1 he with rfl | he
      · exact ⟨_, rfl⟩
      · exact fits_ok hf.2 ha' e he
    | addLadder _ _ _ _ => exact hf.elim

/-- The server runs an algorithm on an honest log and the client runs it on the server's proof: both get the answer that
the log gives, and the client uses up the proof. -/
theorem session {cs : Log.Suite} {db : ServerDB} {index : List Nat} {n : Nat} {E : Nat → LogEntry} {stop : Nat → Int → Bool}
    (hE : ∀ x < n, db.entry x = .ok (E x)) (ht : GoodTimes (fun x => (E x).timestamp) n) (hi : index.length ≤ 2 ^ 32)
    {α : Type} {prog : Prog α}
    (hfit : FitsP (fun x => (E x).timestamp) (greatestAt index) stop n false [] prog) {p : Provider Produced}
    (hp : Agrees n E p) (htr : p.state.tracker = {}) :
    (p.run (Produced.handle db index) prog).1 = eval (honest (fun x => (E x).timestamp) (greatestAt index) stop) prog ∧
    AgreesWith (p.trace (Produced.handle db index) prog) (honest (fun x => (E x).timestamp) (greatestAt index) stop) ∧
    (∀ e ∈ p.trace (Produced.handle db index) prog, ∃ a, e.a = .ok a) ∧
    Agrees n E (p.run (Produced.handle db index) prog).2 ∧
    ∃ ts pfs, Adds p (p.run (Produced.handle db index) prog).2 ts pfs ∧ (∀ need ∈ pfs, Provable n need) ∧
      ∀ full vs roots incl prs, List.Forall₂ (Convinces cs vs (greatestAt index) E) pfs prs →
        (mirror p full vs ts prs roots incl).run (Received.handle cs) prog =
          ((p.run (Produced.handle db index) prog).1, mirror (p.run (Produced.handle db index) prog).2 full vs [] [] roots incl) := by
  obtain ⟨tr, hr, ha⟩ := runs_eval (honest (fun x => (E x).timestamp) (greatestAt index) stop) prog
  obtain ⟨hf, hst⟩ := hfit tr _ hr ha
  have hrec : Recorded (greatestAt index) [] p.state.tracker := by rw [htr]; exact ⟨by simp, by simp⟩
  obtain ⟨h1, h2, h3⟩ := run_honest hE ht hi hr ha hp hrec hf hst
  have hok : ∀ e ∈ p.trace (Produced.handle db index) prog, ∃ a, e.a = .ok a := by
    rw [h1]; exact fits_ok hf ha
  obtain ⟨ts, pfs, done', k1, -, k3, -, k5⟩ := run_sim cs hE hi prog p hrec hok (by rw [h1]; exact hf)
  refine ⟨h2, by rw [h1]; exact ha, hok, h3, ts, pfs, k1, k3, ?_⟩
  intro full vs roots incl prs hprs
  have := k5 full vs [] [] roots incl prs hprs (by simp)
  simpa using this

/-! ### the prefix proofs -/

/-- The prefix trees contain, of the label, the versions that exist, under the VRF outputs `out` with the commitments
`com`; for the versions `V`. -/
structure LabelTree (cs : Log.Suite) (bs : List Batch) (n : Nat) (V : List Nat) (out com : Nat → Bytes) (g : Nat → Int) :
    Prop where
  mem : ∀ x < n, ∀ v ∈ V, ∀ c, (out v, c) ∈ contents (bs.take (x + 1)) ↔ (v : Int) ≤ g x ∧ c = com v
  inj : ∀ v ∈ V, ∀ w ∈ V, out v = out w → v = w
  len : ∀ v ∈ V, (out v).length = cs.hashSize
  comLen : ∀ v ∈ V, (com v).length = cs.hashSize

/-- the table of versions of the server or the client: the VRF outputs are right, and the commitments that are known -/
def Table (V : List Nat) (out com : Nat → Bytes) (vs : Versions) : Prop :=
  (∀ v ∈ V, ∃ k, vs.lookup v = some k) ∧
  ∀ v k, vs.lookup v = some k → v ∈ V ∧ k.vrf = out v ∧ (k.com = none ∨ k.com = some (com v))

theorem outputsFor_ok {V : List Nat} {out com : Nat → Bytes} {vs : Versions} (h : Table V out com vs) :
    ∀ {vers : List Nat}, (∀ v ∈ vers, v ∈ V) → Produced.outputsFor vs vers = .ok (vers.map out)
  | [], _ => rfl
  | v :: vers, hv => by
    obtain ⟨k, hk⟩ := h.1 v (hv v List.mem_cons_self)
    unfold Produced.outputsFor
    rw [hk, outputsFor_ok h (fun w hw => hv w (List.mem_cons_of_mem _ hw))]
    simp [(h.2 v k hk).2.1]

theorem outputsFor_known {V : List Nat} {out com : Nat → Bytes} {vs : Versions} (h : Table V out com vs) :
    ∀ {vers : List Nat} {o : List Bytes}, Produced.outputsFor vs vers = .ok o → ∀ v ∈ vers, v ∈ V
  | [], _, _, v, hv => by cases hv
  | w :: vers, o, ho, v, hv => by
    unfold Produced.outputsFor at ho
    cases hl : vs.lookup w with
    | none => rw [hl] at ho; cases ho
    | some k =>
      rw [hl] at ho
      obtain ⟨o', ho', -⟩ := G.bind_eq_ok.1 ho
      rcases List.mem_cons.1 hv with rfl | hv
      · exact (h.2 _ k hl).1
      · exact outputsFor_known h ho' v hv

theorem searches_ok {V : List Nat} {out com : Nat → Bytes} {vs : Versions} (h : Table V out com vs) :
    ∀ {needs : List (Nat × List Nat)}, (∀ need ∈ needs, ∀ v ∈ need.2, v ∈ V) →
      Produced.searches vs needs = .ok (needs.map (fun need => ⟨need.1 + 1, need.2.map out⟩))
  | [], _ => rfl
  | need :: needs, hv => by
    unfold Produced.searches
    rw [outputsFor_ok h (hv need List.mem_cons_self), searches_ok h (fun w hw => hv w (List.mem_cons_of_mem _ hw))]
    simp

theorem searches_known {V : List Nat} {out com : Nat → Bytes} {vs : Versions} (h : Table V out com vs) :
    ∀ {needs : List (Nat × List Nat)} {ss : List Search}, Produced.searches vs needs = .ok ss →
      ∀ need ∈ needs, ∀ v ∈ need.2, v ∈ V
  | [], _, _, need, hn => by cases hn
  | a :: needs, ss, hs, need, hn => by
    unfold Produced.searches at hs
    obtain ⟨o, ho, hs⟩ := G.bind_eq_ok.1 hs
    obtain ⟨more, hm, -⟩ := G.bind_eq_ok.1 hs
    rcases List.mem_cons.1 hn with rfl | hn
    · exact outputsFor_known h ho
    · exact searches_known h hm need hn

/-- what taking over commitments does to the table -/
structure Takes (V : List Nat) (out com : Nat → Bytes) (vs vs' : Versions) (done : Nat → Prop) : Prop where
  table : Table V out com vs'
  kept : ∀ v k, vs.lookup v = some k → k.com = some (com v) → vs'.lookup v = some k
  new : ∀ v, done v → ∃ k, vs'.lookup v = some k ∧ k.com = some (com v)
  only : ∀ v k, vs'.lookup v = some k → k.com = some (com v) → (∃ k, vs.lookup v = some k ∧ k.com = some (com v)) ∨ done v

theorem takeCommitments_ok {V : List Nat} {out com : Nat → Bytes} {gx : Int} : ∀ {vers : List Nat} {coms : List (Option Bytes)}
    {vs : Versions}, Table V out com vs → (∀ v ∈ vers, v ∈ V) →
    List.Forall₂ (fun (v : Nat) c => c = if (v : Int) ≤ gx then some (com v) else none) vers coms →
    ∃ vs', Produced.takeCommitments vers coms vs = .ok vs' ∧ Takes V out com vs vs' (fun v => v ∈ vers ∧ (v : Int) ≤ gx)
  | [], [], vs, ht, _, _ => ⟨vs, by unfold Produced.takeCommitments; rfl, ht, fun _ _ h _ => h, by simp,
      fun v k h h' => Or.inl ⟨k, h, h'⟩⟩
  | v :: vers, c :: coms, vs, ht, hv, .cons h1 h2 => by
    have hv' : ∀ w ∈ vers, w ∈ V := fun w hw => hv w (List.mem_cons_of_mem _ hw)
    have hvV := hv v List.mem_cons_self
    by_cases hle : (v : Int) ≤ gx
    · rw [if_pos hle] at h1
      subst h1
      obtain ⟨k, hk⟩ := ht.1 v hvV
      have hkk := ht.2 v k hk
      unfold Produced.takeCommitments
      rw [hk]
      rcases hkk.2.2 with hn | hs
      · simp only [hn]
        obtain ⟨vs', e1, e2⟩ := takeCommitments_ok (gx := gx) (vers := vers) (coms := coms)
          (vs := (v, ⟨k.vrf, some (com v)⟩) :: vs) (by
            constructor
            · intro w hw
              rw [List.lookup_cons]
              by_cases hwv : w = v
              · subst hwv; simp
              · rw [show (w == v) = false by simpa using hwv]; exact ht.1 w hw
            · intro w kw hw
              rw [List.lookup_cons] at hw
              by_cases hwv : w = v
              · subst hwv
                simp at hw
                subst hw
                exact ⟨hvV, hkk.2.1, Or.inr rfl⟩
              · rw [show (w == v) = false by simpa using hwv] at hw; exact ht.2 w kw hw) hv' h2
        refine ⟨vs', e1, e2.table, ?_, ?_, ?_⟩
        · intro w kw hw hc
          refine e2.kept w kw ?_ hc
          rw [List.lookup_cons]
          by_cases hwv : w = v
          · subst hwv
            rw [hk] at hw
            cases hw
            rw [hn] at hc; cases hc
          · rw [show (w == v) = false by simpa using hwv]; exact hw
        · rintro w ⟨hw, hwle⟩
          rcases List.mem_cons.1 hw with rfl | hw
          · exact ⟨_, e2.kept w ⟨k.vrf, some (com w)⟩ (by simp) rfl, rfl⟩
          · exact e2.new w ⟨hw, hwle⟩
        · intro w kw hw hc
          rcases e2.only w kw hw hc with ⟨k', h', h''⟩ | ⟨h', h''⟩
          · rw [List.lookup_cons] at h'
            by_cases hwv : w = v
            · subst hwv; exact Or.inr ⟨List.mem_cons_self, hle⟩
            · rw [show (w == v) = false by simpa using hwv] at h'; exact Or.inl ⟨k', h', h''⟩
          · exact Or.inr ⟨List.mem_cons_of_mem _ h', h''⟩
      · simp only [hs, ne_eq, not_true_eq_false, if_false]
        obtain ⟨vs', e1, e2⟩ := takeCommitments_ok (gx := gx) ht hv' h2
        refine ⟨vs', e1, e2.table, e2.kept, ?_, ?_⟩
        · rintro w ⟨hw, hwle⟩
          rcases List.mem_cons.1 hw with rfl | hw
          · exact ⟨k, e2.kept w k hk hs, hs⟩
          · exact e2.new w ⟨hw, hwle⟩
        · intro w kw hw hc
          rcases e2.only w kw hw hc with h' | ⟨h', h''⟩
          · exact Or.inl h'
          · exact Or.inr ⟨List.mem_cons_of_mem _ h', h''⟩
    · rw [if_neg hle] at h1
      subst h1
      unfold Produced.takeCommitments
      obtain ⟨vs', e1, e2⟩ := takeCommitments_ok (gx := gx) ht hv' h2
      refine ⟨vs', e1, e2.table, e2.kept, ?_, ?_⟩
      · rintro w ⟨hw, hwle⟩
        rcases List.mem_cons.1 hw with rfl | hw
        · exact absurd hwle hle
        · exact e2.new w ⟨hw, hwle⟩
      · intro w kw hw hc
        rcases e2.only w kw hw hc with h' | ⟨h', h''⟩
        · exact Or.inl h'
        · exact Or.inr ⟨List.mem_cons_of_mem _ h', h''⟩

theorem takeAll_ok {V : List Nat} {out com : Nat → Bytes} {g : Nat → Int} : ∀ {needs : List (Nat × List Nat)}
    {res : List (Prefix.Proof × List (Option Bytes))} {vs : Versions}, Table V out com vs →
    (∀ need ∈ needs, ∀ v ∈ need.2, v ∈ V) →
    List.Forall₂ (fun need (r : Prefix.Proof × List (Option Bytes)) =>
      List.Forall₂ (fun (v : Nat) c => c = if (v : Int) ≤ g need.1 then some (com v) else none) need.2 r.2) needs res →
    ∃ vs', Produced.takeAll needs res vs = .ok vs' ∧
      Takes V out com vs vs' (fun v => ∃ need ∈ needs, v ∈ need.2 ∧ (v : Int) ≤ g need.1)
  | [], [], vs, ht, _, _ => ⟨vs, by unfold Produced.takeAll; rfl, ht, fun _ _ h _ => h, by simp,
      fun v k h h' => Or.inl ⟨k, h, h'⟩⟩
  | need :: needs, r :: res, vs, ht, hv, .cons h1 h2 => by
    obtain ⟨vs1, e1, e2⟩ := takeCommitments_ok (gx := g need.1) ht (hv need List.mem_cons_self) h1
    obtain ⟨vs2, e3, e4⟩ := takeAll_ok (g := g) e2.table (fun w hw => hv w (List.mem_cons_of_mem _ hw)) h2
    unfold Produced.takeAll
    rw [e1, G.ok_bind]
    refine ⟨vs2, e3, e4.table, ?_, ?_, ?_⟩
    · intro v k hk hc
      exact e4.kept v k (e2.kept v k hk hc) hc
    · rintro v ⟨w, hw, hw1, hw2⟩
      rcases List.mem_cons.1 hw with rfl | hw
      · obtain ⟨k, hk, hc⟩ := e2.new v ⟨hw1, hw2⟩
        exact ⟨k, e4.kept v k hk hc, hc⟩
      · exact e4.new v ⟨w, hw, hw1, hw2⟩
    · intro v k hk hc
      rcases e4.only v k hk hc with ⟨k', hk', hc'⟩ | ⟨w, hw, hh⟩
      · rcases e2.only v k' hk' hc' with h' | h'
        · exact Or.inl h'
        · exact Or.inr ⟨need, List.mem_cons_self, h'⟩
      · exact Or.inr ⟨w, List.mem_cons_of_mem _ hw, hh⟩

theorem forall₂_map_iff {α β γ : Type} {R : γ → β → Prop} {f : α → γ} : ∀ {l : List α} {r : List β},
    List.Forall₂ R (l.map f) r → List.Forall₂ (fun a b => R (f a) b) l r
  | [], _, h => by cases h; exact .nil
  | a :: l, _, h => by
    cases h with
    | cons h hs => exact .cons h (forall₂_map_iff hs)

theorem forall₂_mem_imp {α β : Type} {R S : α → β → Prop} : ∀ {l : List α} {r : List β}, (∀ a ∈ l, ∀ b, R a b → S a b) →
    List.Forall₂ R l r → List.Forall₂ S l r
  | [], _, _, h => by cases h; exact .nil
  | a :: l, _, hi, h => by
    cases h with
    | cons h hs => exact .cons (hi _ List.mem_cons_self _ h) (forall₂_mem_imp (fun a ha => hi a (List.mem_cons_of_mem _ ha)) hs)

theorem forall₂_map_right {α β γ : Type} {R : α → γ → Prop} {f : β → γ} : ∀ {l : List α} {r : List β},
    List.Forall₂ (fun a b => R a (f b)) l r → List.Forall₂ R l (r.map f)
  | _, _, .nil => .nil
  | _, _, .cons h hs => .cons h (forall₂_map_right hs)

theorem forall₂_and {α β : Type} {R S : α → β → Prop} : ∀ {l : List α} {r : List β}, List.Forall₂ R l r →
    List.Forall₂ S l r → List.Forall₂ (fun a b => R a b ∧ S a b) l r
  | _, _, .nil, .nil => .nil
  | _, _, .cons h hs, .cons k ks => .cons ⟨h, k⟩ (forall₂_and hs ks)

theorem map_isSome_eq {com : Nat → Bytes} {gx : Int} : ∀ {vers : List Nat} {coms : List (Option Bytes)},
    List.Forall₂ (fun (v : Nat) c => c = if (v : Int) ≤ gx then some (com v) else none) vers coms →
    coms.map Option.isSome = vers.map (fun (v : Nat) => decide ((v : Int) ≤ gx))
  | _, _, .nil => rfl
  | _, _, .cons h hs => by
    rw [List.map_cons, List.map_cons, map_isSome_eq hs, h]
    split <;> simp [*]

/-- the entries that the client looks up -/
theorem entriesFor_table {V : List Nat} {out com : Nat → Bytes} {vs : Versions} (ht : Table V out com vs) {gx : Int} :
    ∀ {vers : List Nat} {res : List Prefix.Res}, (∀ v ∈ vers, v ∈ V) →
    (∀ v ∈ vers, (v : Int) ≤ gx → ∃ k, vs.lookup v = some k ∧ k.com = some (com v)) →
    res.map Prefix.Res.isInclusion = vers.map (fun (v : Nat) => decide ((v : Int) ≤ gx)) →
    ∃ es, Received.entriesFor vs vers res = .ok es ∧ es.map Entry.vrf = vers.map out ∧
      ∀ e ∈ es, ∃ v ∈ vers, e.vrf = out v ∧ ((v : Int) ≤ gx → e.com = com v) ∧ (e.com = [] ∨ e.com = com v)
  | [], [], _, _, _ => ⟨[], rfl, rfl, by simp⟩
  | [], _ :: _, _, _, h => by simp at h
  | _ :: _, [], _, _, h => by simp at h
  | v :: vers, r :: res, hv, hc, hr => by
    simp only [List.map_cons, List.cons.injEq] at hr
    obtain ⟨es, e1, e2, e3⟩ := entriesFor_table ht (vers := vers) (res := res) (fun w hw => hv w (List.mem_cons_of_mem _ hw))
      (fun w hw => hc w (List.mem_cons_of_mem _ hw)) hr.2
    obtain ⟨k, hk⟩ := ht.1 v (hv v List.mem_cons_self)
    obtain ⟨-, k2, k3⟩ := ht.2 v k hk
    unfold Received.entriesFor
    rw [hk]
    simp only
    have hkc : (v : Int) ≤ gx → k.com = some (com v) := by
      intro hle
      obtain ⟨k', hk', hc'⟩ := hc v List.mem_cons_self hle
      rw [hk] at hk'
      cases hk'
      exact hc'
    rw [if_neg, e1]
    · refine ⟨k.entry :: es, rfl, ?_, ?_⟩
      · simp [e2, Known.entry, k2]
      · intro e he
        rcases List.mem_cons.1 he with rfl | he
        · refine ⟨v, List.mem_cons_self, k2, ?_, ?_⟩
          · intro hle; simp [Known.entry, hkc hle]
          · rcases k3 with h | h
            · left; simp [Known.entry, h]
            · right; simp [Known.entry, h]
        · obtain ⟨w, hw, h⟩ := e3 e he
          exact ⟨w, List.mem_cons_of_mem _ hw, h⟩
    · rintro ⟨h1, h2⟩
      rw [hr.1, decide_eq_true_eq] at h1
      rw [hkc h1] at h2
      cases h2

section
variable {cs : Log.Suite} {bs : List Batch} {st : Store} {n : Nat} {V : List Nat} {out com : Nat → Bytes} {g : Nat → Int}
  {E : Nat → LogEntry}

/-- The prefix tree part of `Output` succeeds, and the proofs convince a client that has the commitments. -/
theorem prefix_output (hcs : cs.Good) (hsm : Small cs) (hist : History cs bs st) (hn : bs.length = n)
    (hroot : ∀ x < n, (E x).prefixTree = rootHash cs.H cs.hashSize (contents (bs.take (x + 1))))
    (hlab : LabelTree cs bs n V out com g) {needs : List (Nat × List Nat)} (hneeds : ∀ need ∈ needs, Provable n need)
    (hV : ∀ need ∈ needs, ∀ v ∈ need.2, v ∈ V) {vs : Versions} (ht : Table V out com vs) :
    ∃ res vs', Produced.searches vs needs = .ok (needs.map (fun need => ⟨need.1 + 1, need.2.map out⟩)) ∧
      Prefix.search cs st (needs.map (fun need => ⟨need.1 + 1, need.2.map out⟩)) = .ok res ∧
      Produced.takeAll needs res vs = .ok vs' ∧
      Takes V out com vs vs' (fun v => ∃ need ∈ needs, v ∈ need.2 ∧ (v : Int) ≤ g need.1) ∧
      ∀ vsC, Table V out com vsC →
        (∀ need ∈ needs, ∀ v ∈ need.2, (v : Int) ≤ g need.1 → ∃ k, vsC.lookup v = some k ∧ k.com = some (com v)) →
        List.Forall₂ (Convinces cs vsC g E) needs (res.map (·.1)) := by
  obtain ⟨res, h1, h2⟩ := Props.C09_search_partial hcs hsm hist (needs.map (fun need => (⟨need.1 + 1, need.2.map out⟩ : Search))) (by
    intro s hs
    obtain ⟨need, hneed, rfl⟩ := List.mem_map.1 hs
    obtain ⟨p1, p2, p3⟩ := hneeds need hneed
    refine ⟨by simp, by simp only; omega, by simpa using p2, ?_⟩
    intro o ho
    obtain ⟨v, hv, rfl⟩ := List.mem_map.1 ho
    exact hlab.len v (hV need hneed v hv))
  have h3 := forall₂_map_iff h2
  have h4 : List.Forall₂ (fun need (r : Prefix.Proof × List (Option Bytes)) =>
      List.Forall₂ (fun (v : Nat) c => c = if (v : Int) ≤ g need.1 then some (com v) else none) need.2 r.2) needs res := by
    refine forall₂_mem_imp ?_ h3
    intro need hneed r hr
    refine forall₂_mem_imp ?_ (forall₂_map_iff hr.1)
    intro v hv c hc
    have hm := hlab.mem need.1 (hneeds need hneed).1 v (hV need hneed v hv)
    by_cases hle : (v : Int) ≤ g need.1
    · rw [if_pos hle]
      exact (hc (com v)).2 ((hm _).2 ⟨hle, rfl⟩)
    · rw [if_neg hle]
      cases c with
      | none => rfl
      | some c => exact absurd ((hm c).1 ((hc c).1 rfl)).1 hle
  obtain ⟨vs', h5, h6⟩ := takeAll_ok ht hV h4
  refine ⟨res, vs', searches_ok ht hV, h1, h5, h6, ?_⟩
  intro vsC htC hcC
  apply forall₂_map_right
  have h7 := forall₂_and h3 h4
  refine forall₂_mem_imp ?_ h7
  rintro need hneed r ⟨⟨-, q2, q3⟩, q4⟩
  obtain ⟨p1, p2, p3⟩ := hneeds need hneed
  have hres : r.1.results.map Prefix.Res.isInclusion = need.2.map (fun (v : Nat) => decide ((v : Int) ≤ g need.1)) := by
    rw [q2]
    exact map_isSome_eq q4
  obtain ⟨es, e1, e2, e3⟩ := entriesFor_table htC (hV need hneed) (hcC need hneed) hres
  refine ⟨hres, es, e1, ?_⟩
  have hver := q3 es e2 (by
      refine List.Nodup.map_on ?_ p3
      intro a ha b hb hab
      exact hlab.inj a (hV need hneed a ha) b (hV need hneed b hb) hab) (by
      intro e he c hc
      obtain ⟨v, hv, k1, k2, -⟩ := e3 e he
      rw [k1] at hc
      obtain ⟨hle, rfl⟩ := (hlab.mem need.1 p1 v (hV need hneed v hv) c).1 hc
      exact k2 hle) (by
      intro e he
      obtain ⟨v, hv, -, -, k3⟩ := e3 e he
      rcases k3 with h | h
      · exact Or.inl h
      · right; rw [h]; exact hlab.comLen v (hV need hneed v hv))
  unfold verify at hver
  obtain ⟨cand, hc, hver⟩ := G.bind_eq_ok.1 hver
  rw [hc, hroot need.1 p1]
  split at hver
  · cases hver
  · next h => simp only [ne_eq, not_not] at h; rw [h]

end
/-! ### `Finish` -/

theorem readRoots_ok {db : ServerDB} {n : Nat} {E : Nat → Wire.LogEntry} (hE : ∀ x < n, db.entry x = .ok (E x)) :
    ∀ {xs : List Nat}, (∀ x ∈ xs, x < n) → Produced.readRoots db xs = .ok (xs.map (fun x => (E x).prefixTree))
  | [], _ => rfl
  | x :: xs, h => by
    unfold Produced.readRoots
    rw [hE x (h x List.mem_cons_self), readRoots_ok hE (fun y hy => h y (List.mem_cons_of_mem _ hy))]
    rfl

/-- filling in the roots of an honest log -/
theorem fillRoots_honest {E : Nat → Wire.LogEntry} : ∀ (l : List (Nat × Wire.LogEntry)) (m : List (Nat × Bytes)),
    (l.map Prod.fst).Nodup → (∀ e ∈ l, (E e.1).prefixTree ≠ []) →
    (∀ e ∈ l, e.2.timestamp = (E e.1).timestamp ∧ e.2.prefixTree = (m.lookup e.1).getD []) →
    (∀ x r, m.lookup x = some r → r = (E x).prefixTree) →
    (Provider.fillRoots l ((Provider.emptyLeaves l).map (fun x => (E x).prefixTree)) m).1 = l.map (fun e => (e.1, E e.1)) ∧
    (∀ x ∈ l.map Prod.fst, (Provider.fillRoots l ((Provider.emptyLeaves l).map (fun x => (E x).prefixTree)) m).2.lookup x =
      some (E x).prefixTree) ∧
    (∀ x, x ∉ l.map Prod.fst → (Provider.fillRoots l ((Provider.emptyLeaves l).map (fun x => (E x).prefixTree)) m).2.lookup x =
      m.lookup x) := by
  intro l
  induction l with
  | nil => intro m _ _ _ _; exact ⟨rfl, by simp, fun _ _ => rfl⟩
  | cons a l ih =>
    obtain ⟨x, e⟩ := a
    intro m hn hne hl hm
    rw [List.map_cons, List.nodup_cons] at hn
    obtain ⟨hx1, hx2⟩ := hl (x, e) List.mem_cons_self
    have hx3 := hne (x, e) List.mem_cons_self
    simp only at hx1 hx2 hx3
    unfold Provider.fillRoots
    by_cases hemp : e.prefixTree.isEmpty = true
    · have hel : Provider.emptyLeaves ((x, e) :: l) = x :: Provider.emptyLeaves l := by
        unfold Provider.emptyLeaves
        rw [List.filter_cons_of_pos (by simpa using hemp)]
        rfl
      rw [if_pos hemp, hel]
      simp only [List.map_cons]
      obtain ⟨i1, i2, i3⟩ := ih ((x, (E x).prefixTree) :: m.filter (fun k => k.1 ≠ x)) hn.2
        (fun f hf => hne f (List.mem_cons_of_mem _ hf)) (by
          intro f hf
          have hfx : f.1 ≠ x := fun h => hn.1 (List.mem_map.2 ⟨f, hf, h⟩)
          rw [List.lookup_cons, show (f.1 == x) = false by simpa using hfx]
          simp only
          rw [CommittedSpec.lookup_filter_ne hfx]
          exact hl f (List.mem_cons_of_mem _ hf)) (by
          intro y r hy
          rw [List.lookup_cons] at hy
          by_cases hyx : y = x
          · subst hyx; simp at hy; exact hy.symm
          · rw [show (y == x) = false by simpa using hyx] at hy
            simp only at hy
            rw [CommittedSpec.lookup_filter_ne hyx] at hy
            exact hm y r hy)
      refine ⟨?_, ?_, ?_⟩
      · rw [i1]
        congr 1
        cases hE : E x with
        | mk t r => rw [hE] at hx1; cases e; simp only at hx1 ⊢; rw [hx1]
      · intro y hy
        rcases List.mem_cons.1 hy with rfl | hy
        · rw [i3 _ hn.1]; simp
        · exact i2 y hy
      · intro y hy
        simp only [List.mem_cons, not_or] at hy
        rw [i3 y hy.2, List.lookup_cons, show (y == x) = false by simpa using hy.1]
        simp only
        rw [CommittedSpec.lookup_filter_ne hy.1]
    · have hel : Provider.emptyLeaves ((x, e) :: l) = Provider.emptyLeaves l := by
        unfold Provider.emptyLeaves
        rw [List.filter_cons_of_neg (by simpa using hemp)]
      rw [if_neg hemp, hel]
      obtain ⟨i1, i2, i3⟩ := ih m hn.2 (fun f hf => hne f (List.mem_cons_of_mem _ hf))
        (fun f hf => hl f (List.mem_cons_of_mem _ hf)) hm
      have hlk : m.lookup x = some (E x).prefixTree := by
        cases hr : m.lookup x with
        | none => rw [hr] at hx2; rw [hx2] at hemp; simp at hemp
        | some r => rw [hm x r hr]
      refine ⟨?_, ?_, ?_⟩
      · simp only [List.map_cons]
        rw [i1]
        congr 1
        rw [hlk] at hx2
        cases hE : E x with
        | mk t r => rw [hE] at hx1 hx2; cases e; simp only [Option.getD_some] at hx1 hx2 ⊢; rw [hx1, hx2]
      · intro y hy
        rw [List.map_cons] at hy
        rcases List.mem_cons.1 hy with rfl | hy
        · simp only; rw [i3 _ hn.1]; exact hlk
        · exact i2 y hy
      · intro y hy
        rw [List.map_cons, List.mem_cons, not_or] at hy
        exact i3 y hy.2

theorem retained_ok {σ : Type} {p : Provider σ} {E : Nat → Wire.LogEntry} : ∀ {xs : List Nat},
    (∀ x ∈ xs, p.timestamps.lookup x = some (E x).timestamp ∧ p.prefixTrees.lookup x = some (E x).prefixTree) →
    p.retained xs = .ok (xs.map (fun x => (x, E x)))
  | [], _ => rfl
  | x :: xs, h => by
    obtain ⟨h1, h2⟩ := h x List.mem_cons_self
    unfold Provider.retained
    rw [h1, h2, retained_ok (fun y hy => h y (List.mem_cons_of_mem _ hy))]
    rfl

section
variable {cs : Log.Suite} {db : ServerDB} {index : List Nat} {n : Nat} {E : Nat → Wire.LogEntry}

/-- the leaves of the log tree -/
def leavesOf (cs : Log.Suite) (E : Nat → Wire.LogEntry) (n : Nat) : List Bytes :=
  (List.range n).map (fun x => cs.H (CommittedSpec.leafString (E x)))

/-- The rest of `Output` succeeds, and the client's `Finish` accepts. -/
theorem finish_complete (hcs : cs.Good) (hE : ∀ x < n, db.entry x = .ok (E x)) (hne : ∀ x < n, (E x).prefixTree ≠ [])
    (h0 : 0 < n) (hn : n < 2 ^ 63) (hlog : Log.StoreOK cs (leavesOf cs E n) db.logStore)
    {p : Provider Produced} (hts : TsMap p.timestamps) (hag : Agrees n E p)
    (hret : ∀ x, p.logEntries.lookup x ≠ none → p.prefixTrees.lookup x ≠ none)
    {f : List Nat} (hf : frontier n = .ok f) (hcov : ∀ x ∈ f, x ∈ p.timestamps.map Prod.fst)
    {nP m : Option Nat} (hnP : ∀ k, nP = some k → 0 < k ∧ k ≤ n) (hm : ∀ k, m = some k → 0 < k ∧ k ≤ n) :
    ∃ leaves q roots incl, p.inspectedLeaves (Produced.handle db index) = (.ok leaves, q) ∧
      q.state = { p.state with roots := roots } ∧ Log.getBatch cs db.logStore (leaves.map (·.1)) n nP m = .ok incl ∧
      ∀ full vs, (∀ k, m = some k → full = LogSpec.heads cs.H ((leavesOf cs E n).take k)) →
        ∃ result pc, (mirror p full vs [] [] roots incl).finish cs (Received.handle cs) n nP m = (.ok result, pc) ∧
          result.fullSubtrees = LogSpec.heads cs.H (leavesOf cs E n) ∧
          (∀ k, nP = some k → result.additional = LogSpec.heads cs.H ((leavesOf cs E n).take k)) ∧
          result.logEntries = f.map (fun x => (x, E x)) ∧ pc.timestamps = p.timestamps ∧ pc.state.versions = vs ∧
          pc.state.inner.timestamps = [] ∧ pc.state.inner.prefixProofs = [] := by
  have hlt : ∀ x ∈ p.newLeaves.map Prod.fst, x < n := by
    intro x hx
    obtain ⟨e, he, rfl⟩ := List.mem_map.1 hx
    exact (hag.ts _ (newLeaves_mem.1 he).1).1
  have hnd := CommittedSpec.newLeaves_nodup hts
  have hel : ∀ x ∈ Provider.emptyLeaves p.newLeaves, x < n := by
    intro x hx
    unfold Provider.emptyLeaves at hx
    obtain ⟨e, he, rfl⟩ := List.mem_map.1 hx
    exact hlt _ (List.mem_map.2 ⟨e, (List.mem_filter.1 he).1, rfl⟩)
  obtain ⟨r1, r2, r3⟩ := fillRoots_honest (E := E) p.newLeaves p.prefixTrees hnd
    (fun e he => hne _ (hlt _ (List.mem_map.2 ⟨e, he, rfl⟩)))
    (fun e he => ⟨(hag.ts _ (newLeaves_mem.1 he).1).2, (newLeaves_mem.1 he).2.2⟩) hag.roots
  have hLl : (leavesOf cs E n).length = n := by simp [leavesOf]
  have hsz : ∀ v ∈ leavesOf cs E n, v.length = cs.hashSize := by
    intro v hv
    obtain ⟨x, -, rfl⟩ := List.mem_map.1 hv
    exact hcs.len _
  obtain ⟨incl, v, res, b1, b2, b3, b4, -, b6⟩ := C04_stored_log hcs (leavesOf cs E n) [] (by simpa using hsz)
    (by simp [hLl]; omega) (by omega) (st := db.logStore) (by simpa using hlog) (p.newLeaves.map Prod.fst) hnd
    (by rw [hLl]; exact hlt) nP m (by rw [hLl]; exact hnP) (by rw [hLl]; exact hm)
  rw [hLl] at b1 b3
  refine ⟨p.newLeaves.map (fun e => (e.1, E e.1)), { p with
      state := { p.state with roots := (Provider.emptyLeaves p.newLeaves).map (fun x => (E x).prefixTree) }
      prefixTrees := (Provider.fillRoots p.newLeaves ((Provider.emptyLeaves p.newLeaves).map (fun x => (E x).prefixTree)) p.prefixTrees).2 },
    (Provider.emptyLeaves p.newLeaves).map (fun x => (E x).prefixTree), incl, ?_, rfl, ?_, ?_⟩
  · unfold Provider.inspectedLeaves
    simp only [Produced.handle, Produced.prefixTrees, readRoots_ok hE hel, List.length_map, ne_eq, not_true_eq_false, if_false]
    rw [r1]
  · rw [List.map_map]
    exact b1
  · intro full vs hfull
    have hnl : (mirror p full vs [] [] ((Provider.emptyLeaves p.newLeaves).map (fun x => (E x).prefixTree)) incl).newLeaves =
        p.newLeaves := rfl
    unfold Provider.finish Provider.inspectedLeaves
    rw [hnl]
    simp only [Received.handle, Received.prefixTrees, mirror, List.length_map, ne_eq, not_true_eq_false, if_false]
    rw [r1]
    simp only [CommittedSpec.leafHashes_ok, Received.finish, ne_eq, not_true_eq_false, if_false]
    have hv : Provider.verifierFor cs m full = .ok v := by
      rw [← b2]
      cases m with
      | none => rfl
      | some k => rw [hfull k rfl]; rfl
    have hvals : (List.map (fun e => cs.H (CommittedSpec.leafString e.2)) (p.newLeaves.map (fun e => (e.1, E e.1)))) =
        (p.newLeaves.map Prod.fst).map (fun x => (leavesOf cs E n).getD x []) := by
      rw [List.map_map, List.map_map]
      apply List.map_congr_left
      intro e he
      have := hlt e.1 (List.mem_map.2 ⟨e, he, rfl⟩)
      simp [leavesOf, this]
    have hpos : List.map (fun e => e.1) (p.newLeaves.map (fun e => (e.1, E e.1))) = p.newLeaves.map Prod.fst := by
      rw [List.map_map]; rfl
    rw [hv, hvals, hpos]
    simp only [G.ok_bind, b3, hf]
    rw [retained_ok (E := E)]
    · exact ⟨_, _, rfl, b4, fun k hk => (b6 k hk).1, rfl, rfl, rfl, rfl, rfl⟩
    · intro x hx
      obtain ⟨e, he, rfl⟩ := List.mem_map.1 (hcov x hx)
      have h1 : p.timestamps.lookup e.1 = some (E e.1).timestamp := by
        rw [← (hag.ts e he).2]
        exact lookup_of_mem hts.keys he
      refine ⟨h1, ?_⟩
      simp only
      by_cases hk : e.1 ∈ p.newLeaves.map Prod.fst
      · exact r2 _ hk
      · rw [r3 _ hk]
        have h2 : p.logEntries.lookup e.1 ≠ none := by
          intro hnone
          exact hk (List.mem_map.2 ⟨(e.1, ⟨e.2, (p.prefixTrees.lookup e.1).getD []⟩), newLeaves_mem.2 ⟨he, hnone, rfl⟩, rfl⟩)
        cases hr : p.prefixTrees.lookup e.1 with
        | none => exact absurd hr (hret _ h2)
        | some r => rw [hag.roots _ _ hr]

end
end Katie.Alg
