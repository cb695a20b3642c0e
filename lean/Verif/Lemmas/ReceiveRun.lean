import Verif.Lemmas.ServeSafe
import Verif.Lemmas.PrefixProof
import Verif.Lemmas.PrefixHistory
import Verif.Lemmas.ClientRun

/-
Running an algorithm on a received proof does not crash, whatever the proof contains.
-/

namespace Katie.Prefix
open Katie Katie.Alg

/-- all parents are above level `b` -/
def Shallow (b : Nat) : Nat → Node → Prop
  | d, .parent l r _ _ => d < b ∧ Shallow b (d + 1) l ∧ Shallow b (d + 1) r
  | _, _ => True

/-- the depths in a proof are within the length of a VRF output -/
def DepthsFit (cs : Suite) (proof : Proof) : Prop := ∀ r ∈ proof.results, r.depth ≤ 8 * cs.hashSize

section
variable {e : Entry} {res : Res}

theorem shallow_terminal {b d : Nat} : Shallow b d (terminalNode e res) := by
  cases res <;> exact trivial

/-- an ok result satisfies `P`, and there is no crash -/
def Safe {α : Type} (P : α → Prop) (r : G α) : Prop := Calm r ∧ ∀ a, r = .ok a → P a

theorem Safe.err {α : Type} {P : α → Prop} {m : String} : Safe P (goErr m : G α) := ⟨.err, fun _ h => nomatch h⟩
theorem Safe.pure {α : Type} {P : α → Prop} {a : α} (h : P a) : Safe P (pure a : G α) := ⟨.ok, fun _ ha => by cases ha; exact h⟩
theorem Safe.bind {α β : Type} {P : α → Prop} {Q : β → Prop} {r : G α} {f : α → G β} (h : Safe P r) (hf : ∀ a, P a → Safe Q (f a)) :
    Safe Q (r >>= f) :=
  ⟨.bind h.1 (fun a ha => (hf a (h.2 a ha)).1), fun b hb => by
    obtain ⟨a, ha, hb⟩ := G.bind_eq_ok.1 hb
    exact (hf a (h.2 a ha)).2 b hb⟩
theorem Safe.ite {α : Type} {P : α → Prop} {c : Prop} [Decidable c] {r s : G α} (h1 : c → Safe P r) (h2 : ¬ c → Safe P s) :
    Safe P (if c then r else s) := by
  by_cases h : c
  · rw [if_pos h]; exact h1 h
  · rw [if_neg h]; exact h2 h

theorem aux_ext {b : Nat} (hb : res.depth ≤ b) (hv : b ≤ 8 * e.vrf.length) : ∀ (k d fuel : Nat) (h : Bytes) (id : TileId),
    res.depth - d = k → 2 * k + 1 ≤ fuel → Safe (Shallow b d) (addToSkeletonAux e res fuel (.ext h id) d)
  | k, d, 0, _, _, _, hf => by omega
  | k, d, fuel + 1, _, _, hk, hf => by
    unfold addToSkeletonAux
    refine .ite (fun _ => .err) (fun h1 => .ite (fun _ => .pure shallow_terminal) (fun h2 => ?_))
    obtain ⟨k, rfl⟩ : ∃ k', k = k' + 1 := ⟨k - 1, by omega⟩
    obtain ⟨fuel, rfl⟩ : ∃ f, fuel = f + 1 := ⟨fuel - 1, by omega⟩
    unfold addToSkeletonAux
    simp only []
    rw [getBit_eq _ _ (by omega), G.ok_bind]
    have ih := aux_ext hb hv k (d + 1) fuel [] ⟨0, 0⟩ (by omega) (by omega)
    refine .ite (fun _ => ih.bind (fun r hr => .pure ⟨by omega, trivial, hr⟩)) (fun _ => ih.bind (fun l hl => .pure ⟨by omega, hl, trivial⟩))

theorem aux_safe {b : Nat} (hb : res.depth ≤ b) (hv : b ≤ 8 * e.vrf.length) : ∀ (n : Node) (d fuel : Nat),
    2 * (res.depth - d) + 2 * n.size ≤ fuel → Shallow b d n → Safe (Shallow b d) (addToSkeletonAux e res fuel n d)
  | .empty, d, fuel, hf, _ => by
    obtain ⟨fuel, rfl⟩ : ∃ f, fuel = f + 1 := ⟨fuel - 1, by simp [Node.size] at hf; omega⟩
    unfold addToSkeletonAux
    exact .ite (fun _ => .err) (fun _ => .pure trivial)
  | .leaf v c, d, fuel, hf, _ => by
    obtain ⟨fuel, rfl⟩ : ∃ f, fuel = f + 1 := ⟨fuel - 1, by simp [Node.size] at hf; omega⟩
    unfold addToSkeletonAux
    exact .ite (fun _ => .err) (fun _ => .pure trivial)
  | .ext h id, d, fuel, hf, _ => by
    simp only [Node.size] at hf
    exact aux_ext hb hv _ d fuel h id rfl (by omega)
  | .parent l r h id, d, fuel, hf, hs => by
    simp only [Node.size] at hf
    obtain ⟨fuel, rfl⟩ : ∃ f, fuel = f + 1 := ⟨fuel - 1, by omega⟩
    unfold addToSkeletonAux
    simp only []
    rw [getBit_eq _ _ (by have := hs.1; omega), G.ok_bind]
    refine .ite (fun _ => ?_) (fun _ => ?_)
    · exact (aux_safe hb hv r (d + 1) fuel (by omega) hs.2.2).bind (fun r' hr => .pure ⟨hs.1, hs.2.1, hr⟩)
    · exact (aux_safe hb hv l (d + 1) fuel (by omega) hs.2.1).bind (fun l' hl => .pure ⟨hs.1, hl, hs.2.2⟩)

theorem addAll_safe {b : Nat} : ∀ (es : List Entry) (rs : List Res) (n : Node), es.length = rs.length →
    (∀ e ∈ es, b ≤ 8 * e.vrf.length) → (∀ r ∈ rs, r.depth ≤ b) → Shallow b 0 n → Safe (Shallow b 0) (addAll n es rs)
  | [], _, n, _, _, _, h => .pure h
  | _ :: _, [], _, hl, _, _, _ => by simp at hl
  | e :: es, r :: rs, n, hl, he, hr, h => by
    unfold addAll addToSkeleton
    refine (aux_safe (hr r (by simp)) (he e (by simp)) n 0 _ (by omega) h).bind (fun n' hn' => ?_)
    exact addAll_safe es rs n' (by simpa using hl) (fun e he' => he e (by simp [he'])) (fun r hr' => hr r (by simp [hr'])) hn'

theorem fillInCopath_calm : ∀ (n : Node) (es : List Bytes), Calm (fillInCopath n es)
  | .empty, _ => .pure
  | .leaf _ _, _ => .pure
  | .ext _ _, [] => .err
  | .ext _ _, _ :: _ => .pure
  | .parent l r h id, es => by
    unfold fillInCopath
    exact .bind (fillInCopath_calm l es) (fun _ _ => .bind (fillInCopath_calm r _) (fun _ _ => .pure))

theorem checkEntries_calm {cs : Suite} {a : Bool} {dup : String} {l : List Entry} {prev : Option Bytes} :
    Calm (checkEntries cs a dup prev l) := by
  rcases checkEntries_fault (cs := cs) a dup l prev with h | ⟨m, h⟩ <;> rw [h]
  · exact .ok
  · exact .err

/-- the evaluation of a prefix proof does not crash, whatever the entries are -/
theorem evaluateRoot_calm {cs : Suite} {entries : List Entry} {proof : Proof} (hf : DepthsFit cs proof) :
    Calm (evaluateRoot cs entries proof) := by
  unfold evaluateRoot evaluate
  refine .bind (.bind checkEntries_calm (fun _ hc => .ite (fun _ => .err) (fun hl => ?_))) (fun _ _ => .pure)
  have hlen := (checkEntries_ok cs true _ entries).1 hc
  refine .bind (addAll_safe (b := 8 * cs.hashSize) _ _ blank (by omega) (fun e he => by rw [(hlen.1 e he).1]) hf trivial).1 (fun n _ => ?_)
  exact .bind (fillInCopath_calm _ _) (fun _ _ => .ite (fun _ => .err) (fun _ => .pure))

end
end Katie.Prefix

namespace Katie.Alg
open Katie Katie.Wire Katie.Ladder Katie.Prefix

section
variable {cs : Log.Suite}

theorem interpretLoop_calm {t : Nat} : ∀ {l : List Nat} {rs : List Bool}, Calm (interpretLoop t l rs)
  | [], _ => .pure
  | _ :: _, [] => .err
  | v :: l, r :: rs => by
    unfold interpretLoop
    exact .ite (fun _ => .ite (fun _ => .err) (fun _ => .pure)) (fun _ => .ite (fun _ => .ite (fun _ => .err) (fun _ => .pure))
      (fun _ => interpretLoop_calm))

theorem searchBinaryLadder_calm {v n : Nat} {a b : List Nat} (hv : v < 2 ^ 31 - 1) : Calm (searchBinaryLadder v n a b) := by
  obtain ⟨base, hb, -⟩ := baseBinaryLadder_ok hv
  unfold searchBinaryLadder
  rw [hb]
  exact .pure

theorem receiveLadder_safe {vt : Tracker} {x v : Nat} {om : Bool} {rs : List Bool} (hv : v < 2 ^ 31 - 1) :
    Safe (fun r => r.1.length = rs.length) (receiveLadder vt x v om rs) := by
  unfold receiveLadder
  refine Safe.bind (P := fun _ => True) ⟨searchBinaryLadder_calm hv, fun _ _ => trivial⟩ (fun ladder _ => ?_)
  unfold interpretSearchLadder
  by_cases hl : rs.length > ladder.length
  · rw [if_pos hl]
    exact .err
  rw [if_neg hl]
  refine Safe.bind (P := fun _ => True) ⟨interpretLoop_calm, fun _ _ => trivial⟩ (fun res _ => ?_)
  refine Safe.bind (P := fun _ => True) ⟨?_, fun _ _ => trivial⟩ (fun vt' _ => .pure (by simp; omega))
  unfold Tracker.addResults
  refine .ite (fun _ => .pure) (fun _ => ?_)
  rw [if_neg hl]
  exact .pure

theorem entriesFor_calm {vs : Versions} : ∀ {l : List Nat} {rs : List Res}, rs.length ≤ l.length → Calm (Received.entriesFor vs l rs)
  | _, [], _ => by unfold Received.entriesFor; exact .pure
  | [], _ :: _, h => by simp at h
  | v :: l, r :: rs, h => by
    unfold Received.entriesFor
    split
    · exact .err
    · exact .ite (fun _ => .err) (fun _ => .bind (entriesFor_calm (by simpa using h)) (fun _ _ => .pure))

theorem allEntries_calm {vs : Versions} : ∀ {l : List Nat}, Calm (Received.allEntries vs l)
  | [] => .pure
  | v :: l => by
    unfold Received.allEntries
    split
    · exact .err
    · exact .ite (fun _ => .err) (fun _ => .bind allEntries_calm (fun _ _ => .pure))

theorem evalSearch_calm {vs : Versions} {vt : Tracker} {x v : Nat} {om : Bool} {proof : Proof} (hf : DepthsFit cs proof) (hv : v < 2 ^ 31 - 1) :
    Calm (Received.evalSearch cs vs vt x v om proof) := by
  unfold Received.evalSearch
  refine .bind (receiveLadder_safe hv).1 (fun r hr => ?_)
  have hl := (receiveLadder_safe hv).2 r hr
  exact .bind (entriesFor_calm (by simp at hl; omega)) (fun _ _ => .bind (evaluateRoot_calm hf) (fun _ _ => .pure))

theorem evalMonitor_calm {vs : Versions} {v : Nat} {proof : Proof} (hf : DepthsFit cs proof) (hv : v < 2 ^ 31 - 1) :
    Calm (Received.evalMonitor cs vs v proof) := by
  unfold Received.evalMonitor
  exact .bind (monitoringBinaryLadder_calm hv) (fun _ _ => .ite (fun _ => .err) (fun _ => .ite (fun _ => .err) (fun _ =>
    .bind allEntries_calm (fun _ _ => evaluateRoot_calm hf))))

theorem evalIncl_calm {vs : Versions} {vers : List Nat} {proof : Proof} (hf : DepthsFit cs proof) :
    Calm (Received.evalIncl cs vs vers proof) := by
  unfold Received.evalIncl
  split
  · exact .ite (fun _ => .err) (fun _ => .bind allEntries_calm (fun _ _ => evaluateRoot_calm hf))
  · exact .err

/-- what is kept about the provider of a client: the table of timestamps is one, the retained subtrees are those given,
and the depths in the remaining proofs are within the length of a VRF output -/
structure Sound (cs : Log.Suite) (p : Provider Received) : Prop where
  ts : TsMap p.timestamps
  fits : ∀ proof ∈ p.state.inner.prefixProofs, DepthsFit cs proof

theorem Sound.setState {p : Provider Received} (h : Sound cs p) {s : Received} (hs : ∀ proof ∈ s.inner.prefixProofs, DepthsFit cs proof) :
    Sound cs { p with state := s } := ⟨h.ts, hs⟩

theorem getTs_same {x : Nat} {s : Received} : (Received.getTs x s).2.inner.prefixProofs = s.inner.prefixProofs := by
  unfold Received.getTs
  split <;> rfl

theorem getTimestamp_sound {p : Provider Received} (hp : Sound cs p) (x : Nat) :
    Calm (p.getTimestamp (Received.handle cs) x).1 ∧ Sound cs (p.getTimestamp (Received.handle cs) x).2 := by
  have hs : ∀ proof ∈ (Received.getTs x p.state).2.inner.prefixProofs, DepthsFit cs proof := by
    rw [getTs_same]
    exact hp.fits
  have hc : Calm (Received.getTs x p.state).1 := by
    unfold Received.getTs
    split
    · exact .err
    · exact .ok
  unfold Provider.getTimestamp
  split
  · exact ⟨.ok, hp⟩
  · simp only [Received.handle]
    generalize Received.getTs x p.state = r at hs hc
    obtain ⟨r, s⟩ := r
    cases r with
    | error e => exact ⟨calm_error hc rfl, hp.setState hs⟩
    | ok t =>
      simp only
      cases ha : addTimestamp p.timestamps x t with
      | error e => exact ⟨calm_error addTimestamp_calm ha, hp.setState hs⟩
      | ok m => exact ⟨.ok, hp.ts.add ha, hs⟩

theorem record_sound {γ : Type} {p : Provider Received} (hp : Sound cs p) (x : Nat) (root : Bytes) (b : γ) :
    Calm (Provider.record x root b p).1 ∧ Sound cs (Provider.record x root b p).2 := by
  unfold Provider.record
  cases ha : addPrefixTree p.prefixTrees x root with
  | error e => exact ⟨calm_error addPrefixTree_calm ha, hp⟩
  | ok m => exact ⟨.ok, hp.ts, hp.fits⟩

theorem viaRoot_sound {γ : Type} {c : Prop} {p : Provider Received} (hp : Sound cs p) {x : Nat} {f : Received → G (Bytes × γ) × Received}
    (hf : ∀ s : Received, (∀ proof ∈ s.inner.prefixProofs, DepthsFit cs proof) →
      (∀ proof ∈ (f s).2.inner.prefixProofs, DepthsFit cs proof) ∧ (c → Calm (f s).1)) :
    (c → Calm (viaRoot (Received.handle cs) x f p).1) ∧ Sound cs (viaRoot (Received.handle cs) x f p).2 := by
  obtain ⟨h1, h2⟩ := getTimestamp_sound hp x
  unfold viaRoot
  generalize p.getTimestamp (Received.handle cs) x = r at h1 h2
  obtain ⟨r, p⟩ := r
  cases r with
  | error e => exact ⟨fun _ => calm_error h1 rfl, h2⟩
  | ok t =>
    simp only
    obtain ⟨k1, k2⟩ := hf p.state h2.fits
    generalize f p.state = q at k1 k2
    obtain ⟨q, s⟩ := q
    cases q with
    | error e => exact ⟨fun hc => calm_error (k2 hc) rfl, h2.setState k1⟩
    | ok ra =>
      obtain ⟨a1, a2⟩ := record_sound (h2.setState k1) x ra.1 ra.2
      exact ⟨fun _ => a1, a2⟩

theorem answer_sound (q : Req) {p : Provider Received} (hp : Sound cs p) :
    (Mild q → Calm (p.answer (Received.handle cs) q).1) ∧ Sound cs (p.answer (Received.handle cs) q).2 := by
  cases q with
  | ts x =>
    obtain ⟨h1, h2⟩ := getTimestamp_sound hp x
    exact ⟨fun _ => h1, h2⟩
  | search x v om =>
    have he : p.answer (Received.handle cs) (.search x v om) = viaRoot (Received.handle cs) x _ p := getSearch_eq _ x v om p
    rw [he]
    refine viaRoot_sound hp (fun s hs => ?_)
    simp only [Received.handle, Received.search]
    split
    · exact ⟨hs, fun _ => .err⟩
    · rename_i proof rest hpr
      have hall := List.forall_mem_cons.1 (hpr ▸ hs)
      cases hev : Received.evalSearch cs s.versions s.tracker x v om proof with
      | error e => exact ⟨hs, fun hm => calm_error (evalSearch_calm hall.1 hm) hev⟩
      | ok r => exact ⟨hall.2, fun _ => .ok⟩
  | monitor x v =>
    have he : p.answer (Received.handle cs) (.monitor x v) = viaRoot (Received.handle cs) x _ p := getMonitor_eq _ x v p
    rw [he]
    refine viaRoot_sound hp (fun s hs => ?_)
    simp only [withUnit, Received.handle, Received.monitor]
    cases hpr : s.inner.prefixProofs with
    | nil => exact ⟨hs, fun _ => .err⟩
    | cons proof rest =>
      have hall := List.forall_mem_cons.1 (hpr ▸ hs)
      simp only
      cases hev : Received.evalMonitor cs s.versions v proof with
      | error e => exact ⟨hs, fun hm => calm_error (evalMonitor_calm hall.1 hm) hev⟩
      | ok r => exact ⟨hall.2, fun _ => .ok⟩
  | incl x vers =>
    have he : p.answer (Received.handle cs) (.incl x vers) = _ := getIncl_eq (Received.handle cs) x vers p
    rw [he]
    split
    · exact ⟨fun _ => .ok, hp⟩
    refine viaRoot_sound hp (fun s hs => ?_)
    simp only [withUnit, Received.handle, Received.incl]
    cases hpr : s.inner.prefixProofs with
    | nil => exact ⟨hs, fun _ => .err⟩
    | cons proof rest =>
      have hall := List.forall_mem_cons.1 (hpr ▸ hs)
      simp only
      cases hev : Received.evalIncl cs s.versions vers proof with
      | error e => exact ⟨hs, fun _ => calm_error (evalIncl_calm hall.1) hev⟩
      | ok r => exact ⟨hall.2, fun _ => .ok⟩
  | stop x v => exact ⟨fun _ => .ok, hp⟩
  | addLadder x om g l => exact ⟨fun _ => .ok, hp.setState hp.fits⟩

theorem run_sound {α : Type} (prog : Prog α) {p : Provider Received} (hp : Sound cs p) :
    Sound cs (p.run (Received.handle cs) prog).2 ∧ ∀ e ∈ p.trace (Received.handle cs) prog, Mild e.q → Calm e.a := by
  induction prog generalizing p with
  | ret r => exact ⟨hp, by simp [Provider.trace]⟩
  | op q k ih =>
    obtain ⟨h1, h2⟩ := answer_sound q hp
    obtain ⟨h3, h4⟩ := ih (p.answer (Received.handle cs) q).1 h2
    exact ⟨h3, List.forall_mem_cons.2 ⟨h1, h4⟩⟩

/-- running a program on a received proof -/
theorem receive_calm {α : Type} {prog : Prog α} {Q : α → Prop} (hs : Spec prog Mild Q IsErr) {p : Provider Received} (hp : Sound cs p) :
    Safe Q (p.run (Received.handle cs) prog).1 ∧ Sound cs (p.run (Received.handle cs) prog).2 ∧
    (p.run (Received.handle cs) prog).2.fullSubtrees = p.fullSubtrees := by
  obtain ⟨h1, h2⟩ := run_sound prog hp
  obtain ⟨g, -, hr, -⟩ := run_spec (Received.handle cs) prog p hp.ts
  refine ⟨⟨?_, fun a ha => hs.ok _ _ (ha ▸ hr)⟩, h1, g.full⟩
  intro f hf
  rw [hf] at hr
  rcases hs.error _ _ hr with ⟨q, hq, hmem⟩ | h
  · exact h2 _ hmem hq f rfl
  · exact h

end
end Katie.Alg
