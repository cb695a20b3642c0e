import Verif.Lemmas.SendSizes

/-
How much the answer of the server to a search holds.
-/

namespace Katie.Server
open Katie Katie.Wire Katie.Alg Katie.Props Katie.SearchSpec Katie.SearchTree Katie.Ladder Katie.Prefix Katie.PrefixSpec

section
variable {env : Env} {bs : List Batch} {n : Nat} {E : Nat → LogEntry} {t : Tree}

theorem readAll_typed {α : Type} {P : α → Prop} {w : α → G Bytes} {r : Rd α} (h : Codec P w r) {a : α} {raw : Bytes} {msg : String}
    (hr : readAll r msg raw = .ok a) : P a ∧ w a = .ok raw := by
  unfold readAll at hr
  split at hr
  · cases hr
  · rename_i a' rest h1
    split at hr
    · cases hr
    · rename_i h3
      cases hr
      obtain ⟨h6, b, h5, h4⟩ := h.canon raw _ rest h1
      have : rest = [] := by simpa using h3
      subst this
      rw [List.append_nil] at h4
      rw [h4]
      exact ⟨h6, h5⟩

theorem Live.typed (hl : Live env bs n E t) : ∀ x < n, (E x).Typed env.cs.hashSize := by
  intro x hx
  have h := hl.honest.entry x hx
  unfold serverDB getEntry at h
  simp only at h
  split at h
  · cases h
  · exact (readAll_typed (codec_logEntry _) h).1

theorem greatestAt_le_length (index : List Nat) (x : Nat) : greatestAt index x ≤ (index.length : Int) - 1 := by
  unfold greatestAt
  have := (List.takeWhile_sublist (l := index) (fun p => decide (p < x + 1))).length_le
  omega

theorem addLadder_steps {l : Bytes} : ∀ {vs : List Nat} {s : Produced} {r : List BinaryLadderStep × Produced}, addLadder env l vs s = .ok r →
    r.1.length = vs.length ∧ (∀ b ∈ r.1, b.commitment = none ∧ ∃ m, b.proof = (env.prove m).2) ∧
      (ComLen env.cs s.versions → ComLen env.cs r.2.versions)
  | [], s, r, h => by
    cases h
    exact ⟨rfl, by simp, id⟩
  | v :: vs, s, r, h => by
    unfold addLadder at h
    obtain ⟨out, h1, h⟩ := G.bind_eq_ok.1 h
    obtain ⟨s', h2, h⟩ := G.bind_eq_ok.1 h
    obtain ⟨⟨steps, s''⟩, h3, h⟩ := G.bind_eq_ok.1 h
    cases h
    obtain ⟨i1, i2, i3⟩ := addLadder_steps h3
    unfold computeVrf at h1
    obtain ⟨m, -, h1⟩ := G.bind_eq_ok.1 h1
    cases h1
    refine ⟨by simpa using i1, ?_, fun hc => i3 ?_⟩
    · intro b hb
      rcases List.mem_cons.1 hb with rfl | hb
      · exact ⟨rfl, m, rfl⟩
      · exact i2 b hb
    · unfold Produced.addVersion Alg.addVersion at h2
      obtain ⟨vs', h4, h2⟩ := G.bind_eq_ok.1 h2
      cases h2
      split at h4
      · cases h4
      · split at h4
        · cases h4
        · split at h4
          · cases h4
          · cases h4
            intro w k c hk hcom
            rw [List.lookup_cons] at hk
            split at hk
            · cases hk
              cases hcom
            · exact hc w k c hk hcom

/-- the ladder of a search that succeeds -/
theorem searchLadder_short {version : Option Nat} {index ladder : List Nat} (hv : ∀ v, version = some v → v < 2 ^ 32)
    (h : searchLadder version index = .ok ladder) :
    ladder.length ≤ 62 ∧ searchTarget version index < 2 ^ 31 - 1 := by
  unfold searchLadder at h
  have hT : searchTarget version index < 2 ^ 32 := by
    unfold searchTarget
    cases version with
    | none => exact Nat.mod_lt _ (by decide)
    | some v => exact hv v rfl
  split at h
  · rename_i hc
    cases h
    obtain ⟨rfl, h2⟩ := hc
    exact ⟨by simp, by unfold searchTarget; simp [h2]⟩
  · have hlt : searchTarget version index < 2 ^ 31 - 1 := by
      by_contra hc
      unfold searchBinaryLadder at h
      obtain ⟨b, hb, -⟩ := G.bind_eq_ok.1 h
      unfold baseBinaryLadder at hb
      rw [C19_ladder_diverges (by omega) hT] at hb
      cases hb
    obtain ⟨b, b1, b2, -⟩ := ladder_self hlt
    rw [b1] at h
    cases h
    exact ⟨C55_ladder_length b2 hT, hlt⟩

theorem searchProg_costs {cfg : Config} {version : Option Nat} {target : Nat} {S : List Nat} (hS : ∀ y, Spine 0 n y → y ∈ S) (hl : 0 < n → n - 1 ∈ S) :
    Costs S (Nat.log2 n + 2) (Nat.log2 n + 2) (searchProg cfg version target n) (fun _ => True) := by
  unfold searchProg
  exact .ite (fun _ => (greatestVersionSearch_costs hS hl).mono (by omega) (by omega) (fun _ h => h)) (fun _ => fixedVersionSearch_costs hl)

theorem searchProg_fits {cfg : Config} {version : Option Nat} {index : List Nat} (h0 : 0 < n) {ts : Nat → Nat} (ht : GoodTimes ts n)
    (hi : index.length ≤ 2 ^ 32) (hv : searchTarget version index < 2 ^ 31 - 1) {stop : Nat → Int → Bool} {more : Bool} :
    FitsP ts (greatestAt index) stop n more [] (searchProg cfg version (searchTarget version index) n) := by
  unfold searchProg
  split
  · rename_i hc
    subst hc
    refine greatestVersionSearch_fits h0 ht (Props.grows_greatestAt index n) hv ?_
    have h1 := greatestAt_le_length index (n - 1)
    unfold searchTarget
    simp only
    by_cases h2 : index.length = 0
    · simp [h2] at h1 ⊢; omega
    · rw [Nat.mod_eq_of_lt (by omega)]; omega
  · exact fixedVersionSearch_fits h0 hv

/-- How much the answer to a search holds. -/
theorem search_holds (hl : Live env bs n E t) {now : Nat} {req : SearchRequest} (h0 : req.last ≠ some 0)
    (hv : ∀ v, req.version = some v → v < 2 ^ 32) (hi : ∀ index, getIndex t.tx req.label = .ok index → index.length ≤ 2 ^ 32)
    {res : SearchResponse} (hs : search env now t req = .ok res) :
    ∃ h index ov, fullTreeHead t req.last = .ok h ∧ Within n req.last h ∧ getIndex t.tx req.label = .ok index ∧
      getVersion env t.tx req.label (searchTarget req.version index) = .ok ov ∧
      res.fullTreeHead = h.fth ∧
      res.version = (match req.version with | none => some (searchTarget req.version index) | some _ => none) ∧
      searchTarget req.version index < 2 ^ 31 - 1 ∧
      res.opening = ov.opening ∧ res.value = ov.value ∧ res.binaryLadder.length ≤ 62 ∧
      (∀ b ∈ res.binaryLadder, (∃ m, b.proof = (env.prove m).2) ∧ ∀ c, b.commitment = some c → c.length = env.cs.hashSize) ∧
      Holds env.cs n (4 * Nat.log2 n + 5) (Nat.log2 n + 2) 62 res.search := by
  unfold search at hs
  obtain ⟨h, k1, hs⟩ := G.bind_eq_ok.1 hs
  obtain ⟨index, k2, hs⟩ := G.bind_eq_ok.1 hs
  obtain ⟨ladder, k3, hs⟩ := G.bind_eq_ok.1 hs
  obtain ⟨ov, k4, hs⟩ := G.bind_eq_ok.1 hs
  obtain ⟨⟨steps, s⟩, k5, hs⟩ := G.bind_eq_ok.1 hs
  obtain ⟨p1, k6, hs⟩ := G.bind_eq_ok.1 hs
  obtain ⟨q, k7, hs⟩ := G.bind_eq_ok.1 hs
  obtain ⟨⟨proof, q'⟩, k8, hs⟩ := G.bind_eq_ok.1 hs
  cases hs
  have hw := (fullTreeHead_calm hl h0).2 h k1
  obtain ⟨l1, hT⟩ := searchLadder_short hv k3
  have hil := hi index k2
  have hh := hl.honest
  have hpos := hh.pos
  have hsz := hh.size
  have hT0 : TableLen env ({} : Produced) := fun v k h => by cases h
  obtain ⟨s1, s2, s3, s4⟩ := (addLadder_calm hT0).2 _ k5
  obtain ⟨c1, c2, c3⟩ := addLadder_steps k5
  obtain ⟨p1s, p1v⟩ := (updateView_calm hl hw.last s2 s3 s4).2 p1 k6
  -- the provider before the search
  obtain ⟨fk, hfk⟩ := retained_exists hsz hw.last
  unfold updateView at k6
  obtain ⟨th, hth, hthn⟩ := hl.head
  rw [hth] at k6
  simp only [loadRetained_ok (env := env) (st := t.tx) hh.entry hh.times hfk, G.ok_bind, hthn] at k6
  have hf := retainedTables_fresh hh.times hfk.nodup hfk.lt (s := s) [] s2 s3 s4
  obtain ⟨⟨u, p1'⟩, k9, k6⟩ := G.bind_eq_ok.1 k6
  cases k6
  unfold Server.runOn handleFor at k9
  split at k9
  · cases k9
  rename_i u' q0 hrun
  cases k9
  rw [hw.size, runSearch_eq] at k7
  unfold handleFor at k7
  have hprog : Alg.Spec (searchProg env.cfg req.version (searchTarget req.version index) n) Mild (fun _ => True) IsErr := by
    unfold searchProg
    exact .ite (fun _ => greatestVersionSearch_mild hT) (fun _ => fixedVersionSearch_mild hT)
  obtain ⟨-, qs, -⟩ := run_calm (index := index) hl.log hprog p1s
  have qv := run_versions (db := serverDB env t.tx) (index := index) (searchProg env.cfg req.version (searchTarget req.version index) n) p1'
  have hq : (p1'.run (Produced.handle (serverDB env t.tx) index) (searchProg env.cfg req.version (searchTarget req.version index) n)).2 = q := by
    split at k7
    · next hr => cases k7; rw [hr]
    · next hr =>
      split at k7
      · cases k7; rw [hr]
      · cases k7
  rw [hq] at qs qv
  -- what has been asked
  obtain ⟨xs, f, hxs, hfr, -⟩ := updateView_positions hpos (by omega : n < 2 ^ 64) hw.last
  obtain ⟨f', hf', hsp, -⟩ := frontier_spine hpos (by omega : n < 2 ^ 64)
  have : f' = f := Except.ok.inj (hf'.symm.trans hfr)
  subst this
  have lx := updateView_length hpos (by omega : n < 2 ^ 64) hw.last hxs
  have lf := frontier_length hpos (by omega : n < 2 ^ 64) hfr
  have cu : Costs (xs ++ (n - 1) :: f') 0 0 (Alg.updateView env.cfg now n req.last) (fun _ => True) :=
    updateView_costs hxs (fun x hx => List.mem_append_left _ hx) (List.mem_append_right _ List.mem_cons_self)
  have cp : Costs (xs ++ (n - 1) :: f') (Nat.log2 n + 2) (Nat.log2 n + 2) (searchProg env.cfg req.version (searchTarget req.version index) n) (fun _ => True) :=
    searchProg_costs (fun y hy => List.mem_append_right _ (List.mem_cons_of_mem _ ((hsp y).2 hy)))
      (fun _ => List.mem_append_right _ List.mem_cons_self)
  obtain ⟨T0, t0, sp0⟩ := run_costs (index := index) hl.log hh.times cu hf.agrees.ts hf.ts
  rw [hrun] at sp0
  obtain ⟨T1, t1, sp1⟩ := run_costs (index := index) hl.log hh.times cp p1s.agrees.ts p1s.ts
  rw [hq] at sp1
  have sp : Spent n E (fun x => x ∈ (xs ++ (n - 1) :: f') ++ T1) (Nat.log2 n + 2) (retainedTables s E [] fk) q :=
    ((sp0.mono (B := fun x => x ∈ (xs ++ (n - 1) :: f') ++ T1) (fun x hx => by
      have : T0 = [] := List.eq_nil_of_length_eq_zero (by omega)
      subst this
      rw [List.append_nil] at hx
      exact List.mem_append_left _ hx) (le_refl _)).trans sp1).mono (fun _ h => h) (by omega)
  obtain ⟨new, n1, n2, n3, n4⟩ := sp.few qs.ts
  have hlenS : new.length ≤ 4 * Nat.log2 n + 5 := by
    simp only [List.length_append, List.length_cons] at n4
    omega
  obtain ⟨pf, f1, f2⟩ := sp.proofs
  have hp0 : (retainedTables s E [] fk).state.proofs = [] := hf.proofs
  have ht0 : (retainedTables s E [] fk).state.timestamps = [] := hf.times
  rw [hp0, List.nil_append] at f1
  rw [ht0, List.nil_append] at n2
  have hts : ∀ e ∈ q.state.timestamps, e < 2 ^ 64 := by
    rw [n2]
    intro e he
    rw [List.mem_reverse] at he
    obtain ⟨e', he', rfl⟩ := List.mem_map.1 he
    obtain ⟨m1, m2⟩ := n3 e' he'
    rw [m2]
    exact (hl.typed _ m1).1
  have hnl : q.newLeaves.length ≤ 4 * Nat.log2 n + 5 := by
    refine (newLeaves_length n1 ?_).trans hlenS
    rw [sp.logEntries]
    intro e he
    simp only [retainedTables, List.mem_reverse, List.mem_map] at he
    obtain ⟨x, hx, rfl⟩ := he
    intro hnone
    have := List.lookup_eq_none_iff.1 hnone (x, E x) (List.mem_map.2 ⟨x, hx, rfl⟩)
    simp at this
  -- the versions of every proof
  have hup : Asks (fun x => x < n) (Alg.updateView env.cfg now n req.last) :=
    updateView_asks_lt hpos (by omega) hw.last
  have hfit : FitsP (fun x => (E x).timestamp) (greatestAt index) (fun _ _ => false) n false []
      (Alg.updateView env.cfg now n req.last >>= fun _ => searchProg env.cfg req.version (searchTarget req.version index) n) :=
    .asks_bind hup (fun _ _ => searchProg_fits hpos hh.times hil hT)
  obtain ⟨-, -, -, -, ts, pfs, hadd, hprov, -⟩ := session (cs := env.cs) hh.entry hh.times hil hfit hf.agrees hf.tracker
  rw [run_bind, hrun] at hadd
  simp only at hadd
  rw [hq] at hadd
  have hqp := hadd.proofs
  rw [hp0, List.nil_append] at hqp
  obtain ⟨b, -, b2, -, b4, b5, -⟩ := ladder_self hT
  have habout := run_about (db := serverDB env t.tx) (index := index) b2 b4 b5 (searchProg_about (cfg := env.cfg) (version := req.version) (by omega : n < 2 ^ 64)) p1' (by
    obtain ⟨pf0, g1, g2⟩ := sp0.proofs
    simp only at g1
    rw [g1, hp0, List.eq_nil_of_length_eq_zero (by omega : pf0.length = 0)]
    simp)
  rw [hq] at habout
  have hb62 := C55_ladder_length b2 (by omega)
  have hV : ∀ need ∈ q.state.proofs, need.2 ≠ [] ∧ need.2.length ≤ 62 := by
    intro need hneed
    obtain ⟨-, v1, v2⟩ := hprov need (by rw [← hqp]; exact hneed)
    exact ⟨v1, ((List.subperm_of_subset v2 (habout need hneed)).length_le).trans hb62⟩
  unfold outputOf at k8
  rw [hw.size] at k8
  split at k8
  · cases k8
  rename_i r q'' hout
  cases k8
  obtain ⟨o1, o2⟩ := output_holds (T := 4 * Nat.log2 n + 5) (P := Nat.log2 n + 2) (V := 62) hh hl.typed qs (by rw [qv, p1v]; exact s1) (by rw [n2, List.length_reverse, List.length_map]; exact hlenS) hts
    (by rw [f1]; exact f2) hV hnl hout
  have hcl : ComLen env.cs q'.state.versions := by
    apply o2
    rw [qv, p1v]
    exact c3 (fun v k c h => by cases h)
  refine ⟨h, index, ov, k1, hw, k2, k4, rfl, rfl, hT, rfl, rfl, ?_, ?_, o1⟩
  · unfold populate
    rw [List.length_map, List.length_zip]
    omega
  · intro b' hb'
    unfold populate at hb'
    obtain ⟨⟨v, b0⟩, hz, rfl⟩ := List.mem_map.1 hb'
    obtain ⟨g1, g2⟩ := c2 b0 (List.of_mem_zip hz).2
    simp only
    split
    · refine ⟨g2, fun c hc => ?_⟩
      simp only [getCommitment] at hc
      split at hc
      · cases hc
      · rename_i k hk
        exact hcl _ _ _ hk hc
    · exact ⟨g2, fun c hc => by rw [g1] at hc; cases hc⟩

end
end Katie.Server
