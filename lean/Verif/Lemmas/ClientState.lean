import Verif.Lemmas.ClientOps
import Verif.Lemmas.ClientRun
import Verif.Lemmas.ClientFinish
import Verif.Lemmas.Structs
import Verif.Lemmas.Spine

/-
The state that a client writes after a response: every part of it has the size with which it is read back.
-/

namespace Katie.Log
open Katie

/-- every value of the map has the size of a hash -/
def MapSized (cs : Suite) (m : NMap) : Prop := ∀ x d, m.lookup x = some d → d.value.length = cs.hashSize

theorem addToMap_sized {cs : Suite} {m m' : NMap} {x : Nat} {val : Bytes} (hm : MapSized cs m)
    (h : addToMap cs m x val = .ok m') : MapSized cs m' := by
  unfold addToMap at h
  split at h
  · cases h
  next hl =>
  split at h
  · split at h
    · cases h
    · cases h; exact hm
  · cases h
    intro y d hy
    rw [List.lookup_cons] at hy
    split at hy
    · cases hy; simpa using hl
    · exact hm y d hy

theorem addAll_sized {cs : Suite} {l : List (Nat × Bytes)} {m m' : NMap} (hm : MapSized cs m)
    (h : addAll cs m l = .ok m') : MapSized cs m' := by
  induction l generalizing m with
  | nil => cases h; exact hm
  | cons e l ih =>
    obtain ⟨x, v⟩ := e
    obtain ⟨m1, h1, h⟩ := G.bind_eq_ok.1 (show addToMap cs m x v >>= _ = _ from h)
    exact ih (addToMap_sized hm h1) h

theorem evaluateAux_sized {cs : Suite} {fuel x n : Nat} {m m' : NMap} {sorted : List Nat} (hm : MapSized cs m)
    (h : evaluateAux cs fuel x n m sorted = .ok m') : MapSized cs m' := by
  induction fuel generalizing x m m' sorted with
  | zero => cases h
  | succ fuel ih =>
    unfold evaluateAux at h
    split at h
    · cases h; exact hm
    · obtain ⟨l, -, h⟩ := G.bind_eq_ok.1 h
      obtain ⟨r, -, h⟩ := G.bind_eq_ok.1 h
      obtain ⟨m1, h1, h⟩ := G.bind_eq_ok.1 h
      obtain ⟨m2, h2, h⟩ := G.bind_eq_ok.1 h
      have hm2 := ih (ih hm h1) h2
      split at h
      · obtain ⟨a, -, h⟩ := G.bind_eq_ok.1 h
        obtain ⟨b, -, h⟩ := G.bind_eq_ok.1 h
        obtain ⟨im, -, h⟩ := G.bind_eq_ok.1 h
        exact addToMap_sized hm2 h
      · cases h; exact hm2

theorem mapM_sized {cs : Suite} {m : NMap} (hm : MapSized cs m) {l : List Nat} {vs : List Bytes}
    (h : l.mapM (fun x => do let d ← nodeAt m x; pure d.value : Nat → G Bytes) = .ok vs) :
    ∀ v ∈ vs, v.length = cs.hashSize := by
  induction l generalizing vs with
  | nil => simp at h; cases h; simp
  | cons x l ih =>
    rw [List.mapM_cons] at h
    obtain ⟨v, h1, h⟩ := G.bind_eq_ok.1 h
    obtain ⟨rest, h2, h⟩ := G.bind_eq_ok.1 h
    cases h
    obtain ⟨d, h3, h1⟩ := G.bind_eq_ok.1 h1
    cases h1
    intro v hv
    rcases List.mem_cons.1 hv with rfl | hv
    · unfold nodeAt at h3
      split at h3
      · next hd => cases h3; exact hm _ _ hd
      · cases h3
    · exact ih h2 v hv

/-- The subtree values that a proof is evaluated to have the size of a hash, and the tree has an admissible size. -/
theorem evaluate_sized {cs : Suite} {v : Verifier} {entries : List Nat} {n : Nat} {nP : Option Nat}
    {values proof : List Bytes} {r : EvalResult} (h : evaluate cs v entries n nP values proof = .ok r) :
    (0 < n ∧ n ≤ LogMath.maxTreeSize) ∧ ∀ v ∈ r.fullSubtrees, v.length = cs.hashSize := by
  unfold evaluate at h
  split at h
  · cases h
  next hn =>
  refine ⟨by omega, ?_⟩
  split at h
  · cases h
  split at h
  · cases h
  split at h
  · cases h
  obtain ⟨copath, -, h⟩ := G.bind_eq_ok.1 h
  split at h
  · cases h
  obtain ⟨m1, h1, h⟩ := G.bind_eq_ok.1 h
  obtain ⟨m2, h2, h⟩ := G.bind_eq_ok.1 h
  obtain ⟨m3, h3, h⟩ := G.bind_eq_ok.1 h
  obtain ⟨m4, h4, h⟩ := G.bind_eq_ok.1 h
  obtain ⟨fs, -, h⟩ := G.bind_eq_ok.1 h
  obtain ⟨full, h5, h⟩ := G.bind_eq_ok.1 h
  have hm : MapSized cs m4 := evaluateAux_sized (addAll_sized (addAll_sized (addAll_sized
    (by intro x d hd; cases hd) h1) h2) h3) h4
  have := mapM_sized hm h5
  cases nP with
  | none =>
    cases h
    exact this
  | some k =>
    obtain ⟨fs', -, h⟩ := G.bind_eq_ok.1 h
    obtain ⟨add, -, h⟩ := G.bind_eq_ok.1 h
    cases h
    exact this

end Katie.Log

namespace Katie.Alg
open Katie Katie.Wire Katie.Ladder

/-- what is left of a received proof has the right sizes -/
structure Left (hs : Nat) (s : Received) : Prop where
  times : ∀ t ∈ s.inner.timestamps, t < 2 ^ 64
  proofs : ∀ pf ∈ s.inner.prefixProofs, Prefix.WireProof hs pf
  roots : ∀ r ∈ s.inner.prefixRoots, r.length = hs

/-- everything that a provider has collected has the right sizes -/
structure Collected (hs : Nat) (p : Provider Received) : Prop where
  left : Left hs p.state
  times : ∀ e ∈ p.timestamps, e.2 < 2 ^ 64
  roots : ∀ e ∈ p.prefixTrees, e.2.length = hs

theorem evaluateRoot_sized {cs : Log.Suite} (hcs : cs.Good) {es : List Prefix.Entry} {pf : Prefix.Proof} {root : Bytes}
    (hp : Prefix.WireProof cs.hashSize pf) (h : Prefix.evaluateRoot cs es pf = .ok root) :
    root.length = cs.hashSize := by
  unfold Prefix.evaluateRoot at h
  obtain ⟨n, h1, h2⟩ := G.bind_eq_ok.1 h
  obtain rfl := Except.ok.inj h2
  exact Prefix.Node.hash_length hcs n (Prefix.evaluate_spec hp h1).1

theorem addPrefixTree_mem {m m' : List (Nat × Bytes)} {x : Nat} {r : Bytes} (h : addPrefixTree m x r = .ok m') :
    ∀ e ∈ m', e ∈ m ∨ e = (x, r) := by
  unfold addPrefixTree at h
  split at h
  · split at h
    · cases h
    · cases h; exact fun e he => .inl he
  · cases h
    intro e he
    rcases List.mem_cons.1 he with rfl | he
    · exact .inr rfl
    · exact .inl he

theorem getTs_left {hs : Nat} {x : Nat} {s : Received} (h : Left hs s) :
    Left hs (Received.getTs x s).2 ∧ ∀ t, (Received.getTs x s).1 = .ok t → t < 2 ^ 64 := by
  unfold Received.getTs
  split
  · exact ⟨h, fun t ht => by cases ht⟩
  · next t rest ht =>
    refine ⟨⟨fun u hu => h.times u (by rw [ht]; exact List.mem_cons_of_mem _ hu), h.proofs, h.roots⟩, ?_⟩
    intro u hu
    cases hu
    exact h.times t (by rw [ht]; exact List.mem_cons_self)

theorem pop_left {hs : Nat} {s : Received} {pf : Prefix.Proof} {rest : List Prefix.Proof}
    (hp : s.inner.prefixProofs = pf :: rest) (h : Left hs s) : Left hs (s.pop rest) :=
  ⟨h.times, fun q hq => h.proofs q (by rw [hp]; exact List.mem_cons_of_mem _ hq), h.roots⟩

theorem search_left {cs : Log.Suite} (hcs : cs.Good) {x ver : Nat} {om : Bool} {s : Received} (h : Left cs.hashSize s) :
    Left cs.hashSize (Received.search cs x ver om s).2 ∧
    ∀ r, (Received.search cs x ver om s).1 = .ok r → r.1.length = cs.hashSize := by
  unfold Received.search
  split
  · exact ⟨h, fun t ht => by cases ht⟩
  · next pf rest hp =>
    split
    · exact ⟨h, fun t ht => by cases ht⟩
    · next r hr =>
      have := pop_left hp h
      refine ⟨⟨this.times, this.proofs, this.roots⟩, ?_⟩
      intro r' hr'
      cases hr'
      unfold Received.evalSearch at hr
      obtain ⟨a, -, hr⟩ := G.bind_eq_ok.1 hr
      obtain ⟨es, -, hr⟩ := G.bind_eq_ok.1 hr
      obtain ⟨root, h1, hr⟩ := G.bind_eq_ok.1 hr
      cases hr
      exact evaluateRoot_sized hcs (h.proofs pf (by rw [hp]; exact List.mem_cons_self)) h1

theorem monitor_left {cs : Log.Suite} (hcs : cs.Good) {x ver : Nat} {s : Received} (h : Left cs.hashSize s) :
    Left cs.hashSize (Received.monitor cs x ver s).2 ∧
    ∀ r, (Received.monitor cs x ver s).1 = .ok r → r.length = cs.hashSize := by
  unfold Received.monitor
  split
  · exact ⟨h, fun t ht => by cases ht⟩
  · next pf rest hp =>
    split
    · exact ⟨h, fun t ht => by cases ht⟩
    · next r hr =>
      refine ⟨pop_left hp h, ?_⟩
      intro r' hr'
      cases hr'
      unfold Received.evalMonitor at hr
      obtain ⟨a, -, hr⟩ := G.bind_eq_ok.1 hr
      split at hr
      · cases hr
      split at hr
      · cases hr
      obtain ⟨es, -, hr⟩ := G.bind_eq_ok.1 hr
      exact evaluateRoot_sized hcs (h.proofs pf (by rw [hp]; exact List.mem_cons_self)) hr

theorem incl_left {cs : Log.Suite} (hcs : cs.Good) {x : Nat} {vers : List Nat} {s : Received} (h : Left cs.hashSize s) :
    Left cs.hashSize (Received.incl cs x vers s).2 ∧
    ∀ r, (Received.incl cs x vers s).1 = .ok r → r.length = cs.hashSize := by
  unfold Received.incl
  split
  · exact ⟨h, fun t ht => by cases ht⟩
  · next pf rest hp =>
    split
    · exact ⟨h, fun t ht => by cases ht⟩
    · next r hr =>
      refine ⟨pop_left hp h, ?_⟩
      intro r' hr'
      cases hr'
      unfold Received.evalIncl at hr
      split at hr
      · split at hr
        · cases hr
        · obtain ⟨es, -, hr⟩ := G.bind_eq_ok.1 hr
          exact evaluateRoot_sized hcs (h.proofs pf (by rw [hp]; exact List.mem_cons_self)) hr
      · cases hr

theorem getTimestamp_collected {cs : Log.Suite} {p : Provider Received} (h : Collected cs.hashSize p) (x : Nat) :
    Collected cs.hashSize (p.getTimestamp (Received.handle cs) x).2 := by
  unfold Provider.getTimestamp
  split
  · exact h
  · obtain ⟨hl, ht⟩ := getTs_left (x := x) h.left
    split
    · next e s he =>
      rw [show (Received.handle cs).getTs x p.state = Received.getTs x p.state from rfl] at he
      rw [he] at hl
      exact ⟨hl, h.times, h.roots⟩
    · next t s he =>
      rw [show (Received.handle cs).getTs x p.state = Received.getTs x p.state from rfl] at he
      rw [he] at hl ht
      split
      · exact ⟨hl, h.times, h.roots⟩
      · next m hm =>
        refine ⟨hl, ?_, h.roots⟩
        rw [(addTimestamp_ok hm).1]
        intro e he
        rcases List.mem_cons.1 he with rfl | he
        · exact ht t rfl
        · exact h.times e he

theorem viaRoot_collected {cs : Log.Suite} {γ : Type} {f : Received → G (Bytes × γ) × Received} {p : Provider Received} {x : Nat}
    (hf : ∀ s, Left cs.hashSize s → Left cs.hashSize (f s).2 ∧ ∀ r, (f s).1 = .ok r → r.1.length = cs.hashSize)
    (h : Collected cs.hashSize p) : Collected cs.hashSize (viaRoot (Received.handle cs) x f p).2 := by
  unfold viaRoot
  have ht := getTimestamp_collected h x
  split
  · next he => rw [he] at ht; exact ht
  · next t q he =>
    rw [he] at ht
    obtain ⟨hl, hr⟩ := hf q.state ht.left
    split
    · next e s hs => rw [hs] at hl; exact ⟨hl, ht.times, ht.roots⟩
    · next root res s hs =>
      rw [hs] at hl hr
      have hroot := hr _ rfl
      unfold Provider.record
      split
      · exact ⟨hl, ht.times, ht.roots⟩
      · next m hm =>
        refine ⟨hl, ht.times, ?_⟩
        intro e he
        rcases addPrefixTree_mem hm e he with he | rfl
        · exact ht.roots e he
        · exact hroot

theorem withUnit_left {hs : Nat} {f : Received → G Bytes × Received} {s : Received}
    (h : Left hs (f s).2 ∧ ∀ r, (f s).1 = .ok r → r.length = hs) :
    Left hs (withUnit f s).2 ∧ ∀ r, (withUnit f s).1 = .ok r → r.1.length = hs := by
  unfold withUnit
  split
  · next hf => rw [hf] at h; exact ⟨h.1, fun r hr => by cases hr⟩
  · next hf => rw [hf] at h; exact ⟨h.1, fun r hr => by cases hr; exact h.2 _ rfl⟩

theorem answer_collected {cs : Log.Suite} (hcs : cs.Good) {p : Provider Received} (h : Collected cs.hashSize p) (q : Req) :
    Collected cs.hashSize (p.answer (Received.handle cs) q).2 := by
  cases q with
  | ts x => exact getTimestamp_collected h x
  | search x ver om =>
    rw [show p.answer (Received.handle cs) (.search x ver om) = p.getSearch (Received.handle cs) x ver om from rfl,
      getSearch_eq]
    exact viaRoot_collected (fun s hs => search_left hcs hs) h
  | monitor x ver =>
    rw [show p.answer (Received.handle cs) (.monitor x ver) = p.getMonitor (Received.handle cs) x ver from rfl,
      getMonitor_eq]
    exact viaRoot_collected (fun s hs => withUnit_left (monitor_left (x := x) hcs hs)) h
  | incl x vers =>
    rw [show p.answer (Received.handle cs) (.incl x vers) = p.getIncl (Received.handle cs) x vers from rfl, getIncl_eq]
    split
    · exact h
    · exact viaRoot_collected (fun s hs => withUnit_left (incl_left (x := x) hcs hs)) h
  | stop x ver => exact h
  | addLadder x om g l => exact ⟨⟨h.left.times, h.left.proofs, h.left.roots⟩, h.times, h.roots⟩

theorem run_collected {cs : Log.Suite} (hcs : cs.Good) {α : Type} (prog : Prog α) {p : Provider Received}
    (h : Collected cs.hashSize p) : Collected cs.hashSize (p.run (Received.handle cs) prog).2 := by
  induction prog generalizing p with
  | ret r => exact h
  | op q k ih => exact ih _ (answer_collected hcs h q)

theorem fillRoots_sized {hs : Nat} : ∀ (l : List (Nat × LogEntry)) (roots : List Bytes) (m : List (Nat × Bytes)),
    (∀ r ∈ roots, r.length = hs) → (∀ e ∈ m, e.2.length = hs) →
    ∀ e ∈ (Provider.fillRoots l roots m).2, e.2.length = hs := by
  intro l
  induction l with
  | nil => intro roots m _ hm; exact hm
  | cons a l ih =>
    intro roots m hr hm
    obtain ⟨x, e⟩ := a
    unfold Provider.fillRoots
    split
    · cases roots with
      | nil => exact ih [] m hr hm
      | cons r0 roots =>
        refine ih roots _ (fun r h => hr r (List.mem_cons_of_mem _ h)) ?_
        intro e he
        rcases List.mem_cons.1 he with rfl | he
        · exact hr r0 List.mem_cons_self
        · exact hm e (List.mem_filter.1 he).1
    · exact ih roots m hr hm

theorem inspectedLeaves_collected {cs : Log.Suite} {p q : Provider Received} {r : G (List (Nat × LogEntry))}
    (h : Collected cs.hashSize p) (hq : p.inspectedLeaves (Received.handle cs) = (r, q)) :
    Collected cs.hashSize q := by
  unfold Provider.inspectedLeaves at hq
  dsimp only at hq
  have key : ∀ xs, Left cs.hashSize ((Received.handle cs).prefixTrees xs p.state).2 ∧
      ∀ rs, ((Received.handle cs).prefixTrees xs p.state).1 = .ok rs → ∀ r ∈ rs, r.length = cs.hashSize := by
    intro xs
    show Left cs.hashSize (Received.prefixTrees xs p.state).2 ∧
      ∀ rs, (Received.prefixTrees xs p.state).1 = .ok rs → ∀ r ∈ rs, r.length = cs.hashSize
    unfold Received.prefixTrees
    split
    · exact ⟨h.left, fun rs hrs => by cases hrs⟩
    · exact ⟨⟨h.left.times, h.left.proofs, fun r hr => by cases hr⟩, fun rs hrs => by cases hrs; exact h.left.roots⟩
  obtain ⟨hl, hr⟩ := key (Provider.emptyLeaves p.newLeaves)
  split at hq
  · next he => rw [he] at hl; cases hq; exact ⟨hl, h.times, h.roots⟩
  · next rs s he =>
    rw [he] at hl hr
    split at hq
    · cases hq; exact ⟨hl, h.times, h.roots⟩
    · cases hq
      exact ⟨hl, h.times, fillRoots_sized _ _ _ (hr rs rfl) h.roots⟩

/-- What `Finish` hands over has the right sizes. -/
theorem finish_collected {cs : Log.Suite} {n : Nat} {nP m : Option Nat} {p q : Provider Received} {r : Provider.Result}
    (h : Collected cs.hashSize p) (hf : p.finish cs (Received.handle cs) n nP m = (.ok r, q)) :
    (∀ v ∈ r.fullSubtrees, v.length = cs.hashSize) ∧
    (∀ e ∈ r.logEntries, e.1 < 2 ^ 64 ∧ e.2.timestamp < 2 ^ 64 ∧ e.2.prefixTree.length = cs.hashSize) ∧
    (r.logEntries.map Prod.fst).Nodup := by
  unfold Provider.finish at hf
  split at hf
  · cases hf
  next leaves p1 hl =>
  have h1 := inspectedLeaves_collected h hl
  split at hf
  · cases hf
  next values hv =>
  split at hf
  · cases hf
  next proof s hs =>
  obtain ⟨hf, -⟩ := Prod.mk.inj hf
  obtain ⟨v, -, hf⟩ := G.bind_eq_ok.1 hf
  obtain ⟨res, he, hf⟩ := G.bind_eq_ok.1 hf
  obtain ⟨f, hfr, hf⟩ := G.bind_eq_ok.1 hf
  obtain ⟨es, hes, hf⟩ := G.bind_eq_ok.1 hf
  cases hf
  obtain ⟨⟨h0, hn⟩, hfull⟩ := Log.evaluate_sized he
  have hn64 : n < 2 ^ 64 := Nat.lt_of_le_of_lt hn (by decide)
  obtain ⟨k1, k2⟩ := CommittedSpec.retained_spec hes
  obtain ⟨fr, hfr', -, hpw, hlt, -⟩ := SearchTree.frontier_spine h0 hn64
  rw [hfr'] at hfr
  cases hfr
  refine ⟨hfull, ?_, ?_⟩
  · intro e he
    obtain ⟨t1, t2⟩ := k2 e he
    refine ⟨?_, h1.times _ (lookup_mem t1), h1.roots _ (lookup_mem t2)⟩
    have := hlt e.1 (by rw [← k1]; exact List.mem_map_of_mem he)
    omega
  · rw [k1]
    exact hpw.imp (fun h => Nat.ne_of_lt h)

end Katie.Alg

namespace Katie.Client
open Katie Katie.Wire Katie.Alg Katie.Ladder Katie.Server

/-- what is read from the store has the right sizes -/
theorem getState_typed {env : CEnv} {st : CStore} {s : ClientState} (h : getState env st = .ok (some s)) :
    s.Typed env.cfg env.sz := by
  unfold getState at h
  split at h
  · cases h
  · obtain ⟨s', h1, h⟩ := G.bind_eq_ok.1 h
    cases h
    unfold readAll at h1
    split at h1
    · cases h1
    · next a rest hr =>
      split at h1
      · cases h1
      · cases h1
        exact ((codec_clientState env.cfg env.sz).canon _ _ _ hr).1

/-- a state with the right sizes that is in the store can be read -/
theorem getState_of_typed {env : CEnv} {st : CStore} {s : ClientState} {raw : Bytes} (hs : s.Typed env.cfg env.sz)
    (hm : s.marshal = .ok raw) (h : st.state = some raw) : getState env st = .ok (some s) := by
  unfold getState
  have := (codec_clientState env.cfg env.sz).rt s raw [] hs hm
  rw [List.append_nil] at this
  simp [h, readAll, this]

theorem retainLoop_collected {hs : Nat} {es : List (Nat × LogEntry)} {p q : Provider Received} {u : Unit}
    (hes : ∀ e ∈ es, e.2.timestamp < 2 ^ 64 ∧ e.2.prefixTree.length = hs) (hp : Collected hs p)
    (h : Provider.retainLoop es p = (.ok u, q)) : Collected hs q := by
  induction es generalizing p with
  | nil => cases h; exact hp
  | cons e es ih =>
    obtain ⟨x, l⟩ := e
    obtain ⟨e1, e2⟩ := hes (x, l) List.mem_cons_self
    unfold Provider.retainLoop at h
    split at h
    · cases h
    next ts h1 =>
    dsimp only at h
    split at h
    · cases h
    next pt h2 =>
    refine ih (p := { p with timestamps := ts, prefixTrees := pt })
      (fun e he => hes e (List.mem_cons_of_mem _ he)) ⟨hp.left, ?_, ?_⟩ h
    · show ∀ e ∈ ts, _
      rw [(addTimestamp_ok h1).1]
      intro e he
      rcases List.mem_cons.1 he with rfl | he
      · exact e1
      · exact hp.times e he
    · intro e he
      rcases addPrefixTree_mem h2 e he with he | rfl
      · exact hp.roots e he
      · exact e2

theorem left_of_typed {sz : Sizes} {proof : CombinedTreeProof} {hs : Nat} (hsz : sz.hash = hs) (h : proof.Typed sz) :
    Left hs ⟨proof, [], {}⟩ := by
  subst hsz
  obtain ⟨h1, h2, h3, -⟩ := h
  refine ⟨fun t ht => by have := h1 t ht; simpa [Fits] using this, ?_, h3⟩
  intro pf hpf
  obtain ⟨h4, h5⟩ := h2 pf hpf
  refine ⟨h5, ?_⟩
  intro v c d hm
  obtain ⟨a, b, -⟩ := h4 _ hm
  exact ⟨a, b⟩

theorem newVerifier_collected {env : CEnv} (hsz : env.sz.hash = env.cs.hashSize) {state : Option ClientState}
    {last : Option Nat} {fth : FullTreeHead} {proof : CombinedTreeProof} {v : Verifier}
    (hst : ∀ s, state = some s → s.Typed env.cfg env.sz) (hp : proof.Typed env.sz)
    (h : newVerifier state last fth proof = .ok v) : Collected env.cs.hashSize v.p := by
  unfold newVerifier at h
  obtain ⟨p, h1, h⟩ := G.bind_eq_ok.1 h
  obtain ⟨n, -, h⟩ := G.bind_eq_ok.1 h
  cases h
  have h0 : Collected env.cs.hashSize (newProvider ⟨proof, [], {}⟩) :=
    ⟨left_of_typed hsz hp, fun e (he : e ∈ []) => (by cases he), fun e (he : e ∈ []) => (by cases he)⟩
  unfold retainedProvider at h1
  cases state with
  | none => cases h1; exact h0
  | some s =>
    dsimp only at h1
    split at h1
    · cases h1
    next hr =>
    cases h1
    obtain ⟨-, -, -, h4, -⟩ := hst s rfl
    unfold Provider.addRetained at hr
    refine retainLoop_collected ?_ ?_ hr
    · intro e he
      obtain ⟨-, h5, h6⟩ := h4 e he
      exact ⟨by simpa [Fits] using h5, h6.trans hsz⟩
    · exact ⟨h0.left, h0.times, h0.roots⟩

theorem addVersion_collected {env : CEnv} {v w : Verifier} {ver : Nat} {vrf : Bytes} {com : Option Bytes} {hs : Nat}
    (h : v.addVersion env ver vrf com = .ok w) (hv : Collected hs v.p) : Collected hs w.p := by
  unfold Verifier.addVersion at h
  obtain ⟨s, h1, h⟩ := G.bind_eq_ok.1 h
  cases h
  unfold Received.addVersion at h1
  obtain ⟨vs, -, h1⟩ := G.bind_eq_ok.1 h1
  cases h1
  exact ⟨⟨hv.left.times, hv.left.proofs, hv.left.roots⟩, hv.times, hv.roots⟩

theorem addRetainedVersions_collected {env : CEnv} {l : List RetainedVersion} {v w : Verifier} {hs : Nat}
    (h : addRetainedVersions env l v = .ok w) (hv : Collected hs v.p) : Collected hs w.p := by
  induction l generalizing v with
  | nil => cases h; exact hv
  | cons e l ih =>
    unfold addRetainedVersions at h
    obtain ⟨u, h1, h⟩ := G.bind_eq_ok.1 h
    exact ih h (addVersion_collected h1 hv)

theorem processSteps_collected {env : CEnv} {label : Bytes} {manual : List (Nat × Bytes)} {hs : Nat}
    {l : List (Nat × BinaryLadderStep)} {v w : Verifier} (h : processSteps env label manual l v = .ok w)
    (hv : Collected hs v.p) : Collected hs w.p := by
  induction l generalizing v with
  | nil => cases h; exact hv
  | cons e l ih =>
    obtain ⟨ver, step⟩ := e
    unfold processSteps at h
    obtain ⟨a, -, h⟩ := G.bind_eq_ok.1 h
    obtain ⟨b, -, h⟩ := G.bind_eq_ok.1 h
    obtain ⟨c, -, h⟩ := G.bind_eq_ok.1 h
    obtain ⟨u, h1, h⟩ := G.bind_eq_ok.1 h
    exact ih h (addVersion_collected h1 hv)

theorem processLadder_collected {env : CEnv} {label : Bytes} {ladder : List BinaryLadderStep} {vers : List Nat} {hs : Nat}
    {manual : List (Nat × Bytes)} {v w : Verifier} (h : processLadder env label ladder vers manual v = .ok w)
    (hv : Collected hs v.p) : Collected hs w.p := by
  unfold processLadder at h
  split at h
  · cases h
  · exact processSteps_collected h hv

theorem vrun_collected {env : CEnv} (hcs : env.cs.Good) {α : Type} {prog : Prog α} {v w : Verifier} {a : α}
    (h : v.run env prog = .ok (a, w)) (hv : Collected env.cs.hashSize v.p) : Collected env.cs.hashSize w.p := by
  have := run_collected hcs prog hv
  rw [(run_frame h).2] at this
  exact this

theorem updateView_collected {env : CEnv} (hcs : env.cs.Good) {now : Nat} {v w : Verifier}
    (h : v.updateView env now = .ok w) (hv : Collected env.cs.hashSize v.p) : Collected env.cs.hashSize w.p := by
  have := run_collected hcs (Alg.updateView env.cfg now v.n v.m) hv
  rw [(updateView_frame h).2] at this
  exact this

/-- the new state has the right sizes, but for the auditor's tree head, which is that of the response -/
theorem finish_typed {env : CEnv} (hsz : env.sz.hash = env.cs.hashSize) {v w : Verifier} {s s0 : ClientState}
    (h : v.finish env = .ok (s, w)) (hv : Collected env.cs.hashSize v.p) (hth : s.treeHead = s0.treeHead)
    (h0 : s0.Typed env.cfg env.sz) (hmode : env.cfg.mode ≠ thirdPartyAuditing) (ha : s.auditor = none) :
    s.Typed env.cfg env.sz := by
  obtain ⟨r, p, root, rootP, hf, -, -, -, hs, -⟩ := finish_ok h
  obtain ⟨k1, k2, k3⟩ := finish_collected hv hf
  have hr : s.fullSubtrees = r.fullSubtrees ∧ s.logEntries = r.logEntries := by
    unfold newState at hs
    split at hs
    · cases hs
    · cases hs; exact ⟨rfl, rfl⟩
  refine ⟨by rw [hth]; exact h0.1, ⟨?_, ?_⟩, ?_, ?_, ?_⟩
  · rw [ha]; intro a h; cases h
  · rw [ha]; exact ⟨fun h => (by cases h), fun h => absurd h hmode⟩
  · rw [hr.1, hsz]; exact k1
  · rw [hr.2, hsz]
    intro e he
    obtain ⟨a, b, c⟩ := k2 e he
    exact ⟨by simpa [Fits] using a, by simpa [Fits] using b, c⟩
  · rw [hr.2]; exact k3

end Katie.Client
