import Verif.Lemmas.StopsServe
import Verif.Lemmas.ServeFinal
import Verif.Lemmas.ContactState
import Verif.Props.C65_MonitoringMap
import Verif.Props.C29_ContactMonitor
import Verif.Spec.Monitored

/-
Monitoring requests to an honest server: what it answers, and how the client sees it.
-/

namespace Katie.Alg
open Katie Katie.Wire Katie.Ladder Katie.Props Katie.SearchSpec Katie.SearchTree Katie.ServedSpec Prog

/-! ### the algorithm -/

/-- the whole algorithm: contact monitoring, and owner monitoring for an owner -/
def monitorProg (cfg : Config) (n : Nat) (c : PMap) (o : Option Owner) : Prog Monitor :=
  newMonitor cfg n >>= fun m => contactMonitor (monitorOf c o m) >>= fun m =>
    match o with
    | none => pure m
    | some _ => ownerMonitor m

section
variable {ts : Nat → Nat} {g : Nat → Int} {n : Nat}

/-- the requests it makes -/
def MonitorAsks (g : Nat → Int) (n : Nat) (c : PMap) (o : Option Owner) (gv : Int) : Req → Prop
  | .ts x => x < n
  | .stop _ _ => True
  | .monitor y v => ∃ x, (x, v) ∈ c ∧ RightAnc n x y
  | .search x v om => om = false ∧ v = (g x).toNat ∧ ∃ o', o = some o' ∧ o'.starting < x ∧ x < n ∧ g x ≤ gv
  | _ => False

theorem newMonitor_sv {cfg : Config} {W : Req → Prop} {b : Bool} (hn : 0 < n) (hts : ∀ x, x < n → W (.ts x)) (hW : ∀ x v, ¬ W (.search x v true)) :
    Sv ts g n W false b (newMonitor cfg n) (fun st' _ m => st' = false ∧ m = ⟨cfg, ts (n - 1), n, none, none⟩) := by
  unfold newMonitor
  refine .ite (fun h => by omega) (fun _ => .bind hW (.getTs (by omega) (hts _ (by omega))) ?_)
  rintro st1 b1 t - - ⟨rfl, rfl⟩
  exact .pure ⟨rfl, rfl⟩

theorem monitorProg_sv {cfg : Config} {c : PMap} {o : Option Owner} {gv : Int} (hn : 0 < n) (hmono : ∀ x y, x ≤ y → g x ≤ g y)
    (hkeys : c.Pairwise (fun a b => a.1 ≠ b.1)) (hinc : ∀ a ∈ c, ∀ b ∈ c, a.1 > b.1 → a.2 > b.2)
    (hc : ∀ e ∈ c, e.1 < n ∧ e.2 < 2 ^ 31 - 1 ∧ (e.2 : Int) ≤ g e.1) (hgv : gv < 2 ^ 31 - 1)
    (ho : ∀ o', o = some o' → OwnerInv g gv o') (ht : GoodTimes ts n) (b : Bool) :
    Sv ts g n (MonitorAsks g n c o gv) false b (monitorProg cfg n c o)
      (fun _ _ m => m.treeSize = n ∧ m.cfg = cfg ∧ m.rightmost = ts (n - 1) ∧
        (∃ m0 m1 tr, ContactRun m0 c ts tr m1 ∧ m0.cfg = cfg ∧ m0.treeSize = n ∧ m0.owner = o ∧ m1.contact = m.contact) ∧
        m.owner.isSome = o.isSome ∧ ∀ o', o = some o' → ∀ o'', m.owner = some o'' → OwnerInv g gv o'' ∧ o'.starting ≤ o''.starting ∧
        (o''.starting = o'.starting ∨ o''.starting < n) ∧ o'' = o'.setStarting o''.starting) := by
  have hW : ∀ x v, ¬ MonitorAsks g n c o gv (.search x v true) := by rintro x v ⟨h, -⟩; cases h
  have hts : ∀ x, x < n → MonitorAsks g n c o gv (.ts x) := fun x h => h
  unfold monitorProg
  refine .bind hW (newMonitor_sv hn hts hW) ?_
  rintro st1 b1 m - - ⟨rfl, rfl⟩
  have hcontact : ∀ (m : Monitor) (b : Bool), m.treeSize = n → m.contact = some c → m.rightmost = ts (n - 1) → Sv ts g n (MonitorAsks g n c o gv) false b (contactMonitor m)
      (fun st' _ m' => (st' = false ∧ m'.owner = m.owner ∧ m'.treeSize = m.treeSize ∧ m'.cfg = m.cfg ∧ m'.rightmost = m.rightmost) ∧
        ∃ tr, ContactRun m c ts tr m') := by
    intro m b hm hmc hrm
    refine .and_runs ?_ (fun tr a h1 h2 => ⟨tr, hmc, hkeys, fun e he => by rw [hm]; exact (hc e he).1, by rw [hm]; exact ht,
      by rw [hm]; exact hrm, h1, h2⟩)
    unfold contactMonitor
    rw [hmc]
    simp only []
    refine .bind hW (contactLoop_sv hm hW hts _ _ _ _ (sortDesc_sorted hkeys) ?_ ?_ ?_) ?_
    · intro e he
      have he' := mem_sortDesc.1 he
      obtain ⟨h1, h2, h3⟩ := hc e he'
      refine ⟨h1, h2, fun y hy => ⟨h3.trans (hmono _ _ hy.lt.le), e.1, he', hy⟩⟩
    · exact (sortDesc_sorted hkeys).imp_of_mem (fun ha hb h => hinc _ (mem_sortDesc.1 ha) _ (mem_sortDesc.1 hb) h)
    · intro e _ y pv h; cases h
    · rintro st1 b1 ptrs - - rfl
      exact .pure ⟨rfl, rfl, rfl, rfl, rfl⟩
  cases o with
  | none =>
    refine .bind hW (hcontact _ _ rfl rfl rfl) ?_
    rintro st1 b1 m' - - ⟨⟨rfl, h1, h2, h3, h4⟩, tr, hcr⟩
    refine .pure ⟨h2, h3, h4, ⟨_, _, tr, hcr, rfl, rfl, rfl, rfl⟩, by rw [h1]; rfl, ?_⟩
    intro o' h; cases h
  | some o =>
    refine .bind hW (hcontact _ _ rfl rfl rfl) ?_
    rintro st1 b1 m' - - ⟨⟨rfl, h1, h2, h3, h4⟩, tr, hcr⟩
    have h1' : m'.owner = some o := h1
    have h2' : m'.treeSize = n := h2
    simp only []
    unfold ownerMonitor
    rw [h1']
    simp only []
    rw [h2', root_eq hn]
    refine .bind hW (ownerWalk_sv (s := o.starting) hgv hmono hW hts (fun _ _ => trivial)
      (fun x hx hxn hg => ⟨rfl, rfl, o, rfl, hx, hxn, hg⟩) _ 0 n [] _ _ o b1 (.root hn) (by omega) (ho o rfl) (le_refl _)) ?_
    rintro st1 b1 o' - - ⟨k1, k2, k3, k4, -⟩
    refine .pure ⟨rfl, h3, h4, ⟨_, _, tr, hcr, rfl, rfl, rfl, rfl⟩, rfl, ?_⟩
    intro o1 e1 o2 e2
    cases e1
    cases e2
    exact ⟨k1, k2, k3, k4⟩

end

end Katie.Alg

namespace Katie.Server
open Katie Katie.Wire Katie.Alg Katie.Ladder Katie.ServerSpec Katie.PrefixSpec Katie.AuditSpec Katie.SearchSpec Katie.Props
  Katie.Client Katie.SearchTree Katie.ServedSpec Katie.ContactSpec

/-! ### the monitoring map -/

theorem entriesPlaced_map {index : List Nat} {n : Nat} : ∀ {es : List MonitorMapEntry} {m m' : PMap},
    entriesPlaced index n es m = .ok m' → m' = es.foldl (fun m e => m.set e.position e.version) m
  | [], m, m', h => (Except.ok.inj h).symm
  | e :: es, m, m', h => by
    unfold entriesPlaced at h
    cases hx : index[e.version]? with
    | none => rw [hx] at h; cases h
    | some first =>
      rw [hx] at h
      simp only at h
      obtain ⟨path, -, h⟩ := G.bind_eq_ok.1 h
      split at h
      · cases h
      · rw [List.foldl_cons]
        exact entriesPlaced_map h

theorem verifyEntries_ok {index : List Nat} {n : Nat} (hi : ∀ x ∈ index, x < n) {es : List MonitorMapEntry} (h : Acceptable index n es) :
    verifyEntries es index n = .ok (contactMap es) := by
  obtain ⟨m, hm⟩ := (C65_server_accepts_iff hi es).2 h
  rw [hm]
  unfold verifyEntries at hm
  obtain ⟨u, -, h2⟩ := G.bind_eq_ok.1 hm
  rw [entriesPlaced_map h2]
  rfl

/-- what the algorithm is given -/
theorem contactMap_acceptable {index : List Nat} (hs : index.Pairwise (· ≤ ·)) {n : Nat} (hi : ∀ x ∈ index, x < n)
    (hc : index.length < 2 ^ 31 - 1) {es : List MonitorMapEntry}
    (h : Acceptable index n es) :
    (contactMap es).Pairwise (fun a b => a.1 ≠ b.1) ∧ (∀ a ∈ contactMap es, ∀ b ∈ contactMap es, a.1 > b.1 → a.2 > b.2) ∧
      ∀ e ∈ contactMap es, e.1 < n ∧ e.2 < 2 ^ 31 - 1 ∧ (e.2 : Int) ≤ greatestAt index e.1 := by
  obtain ⟨h1, h2⟩ := contactMap_spec (h.sorted.imp (fun h => Nat.ne_of_lt h.1))
  refine ⟨h1, ?_, ?_⟩
  · intro a ha b hb hab
    have ha' := (h2 a).1 ha
    have hb' := (h2 b).1 hb
    have hp : es.Pairwise (fun a b => (a.position < b.position ∧ a.version < b.version)) := h.sorted
    obtain ⟨i, hi', hia⟩ := List.mem_iff_getElem.1 ha'
    obtain ⟨j, hj', hjb⟩ := List.mem_iff_getElem.1 hb'
    rcases Nat.lt_trichotomy i j with hlt | rfl | hlt
    · have := List.pairwise_iff_getElem.1 hp i j hi' hj' hlt
      rw [hia, hjb] at this
      simp only at this
      omega
    · rw [hia] at hjb
      have := congrArg MonitorMapEntry.position hjb
      simp only at this
      omega
    · have := List.pairwise_iff_getElem.1 hp j i hj' hi' hlt
      rw [hia, hjb] at this
      exact this.2
  · intro e he
    obtain ⟨first, k1, k2⟩ := h.placed _ ((h2 e).1 he)
    have hmem := List.mem_of_getElem? k1
    have hlt : e.2 < index.length := by
      by_contra hc
      rw [List.getElem?_eq_none (by simpa using hc)] at k1
      cases k1
    refine ⟨?_, by omega, ?_⟩
    · rcases k2 with k2 | k2
      · have := hi _ hmem
        simp only at k2
        omega
      · exact k2.lt_n
    · refine (le_greatestAt_iff hs _ _).2 ⟨first, k1, ?_⟩
      rcases k2 with k2 | k2
      · simp only at k2; omega
      · exact k2.lt.le

/-! ### the owner state -/

theorem countP_take {y : Nat} : ∀ {L : List Nat} (k : Nat), L.Pairwise (· ≤ ·) →
    (L.take k).countP (· ≤ y) = min (L.countP (· ≤ y)) k
  | [], k, _ => by simp
  | a :: L, 0, _ => by simp
  | a :: L, k + 1, h => by
    rw [List.pairwise_cons] at h
    rw [List.take_succ_cons, List.countP_cons, List.countP_cons, countP_take k h.2]
    by_cases ha : a ≤ y
    · simp only [ha, decide_true, if_true]; omega
    · simp only [ha, decide_false]
      have : L.countP (· ≤ y) = 0 := by
        rw [List.countP_eq_zero]
        intro b hb
        have := h.1 b hb
        simp only [decide_eq_true_eq]; omega
      rw [this]
      simp

theorem greatestAt_countP {index : List Nat} (hs : index.Pairwise (· ≤ ·)) (y : Nat) :
    greatestAt index y = (index.countP (· ≤ y) : Int) - 1 := by
  unfold greatestAt
  congr 2
  induction index with
  | nil => rfl
  | cons a l ih =>
    rw [List.pairwise_cons] at hs
    rw [List.takeWhile_cons, List.countP_cons]
    by_cases ha : a ≤ y
    · rw [if_pos (by simp only [decide_eq_true_eq]; omega), List.length_cons, ih hs.2]
      simp [ha]
    · rw [if_neg (by simp only [decide_eq_true_eq]; omega)]
      have : l.countP (· ≤ y) = 0 := by
        rw [List.countP_eq_zero]
        intro b hb
        have := hs.1 b hb
        simp only [decide_eq_true_eq]; omega
      simp [ha, this]

theorem countP_split {index : List Nat} (hs : index.Pairwise (· ≤ ·)) (s : Nat) :
    (∀ u ∈ index.take (index.countP (· ≤ s)), u ≤ s) ∧ ∀ u ∈ index.drop (index.countP (· ≤ s)), s < u := by
  obtain ⟨-, h2, h3⟩ := bsearch_spec (t := s + 1) hs
  rw [bsearch_count hs] at h2 h3
  exact ⟨fun u hu => by have := h2 u hu; omega, fun u hu => by have := h3 u hu; omega⟩

theorem ownerInv_of {index : List Nat} (hs : index.Pairwise (· ≤ ·)) {n : Nat} {s : Nat} {v : Int} {up : List Nat}
    (h : OwnerKnows index n s v up) : OwnerInv (greatestAt index) (v + up.length) ⟨s, v, up⟩ := by
  obtain ⟨h1, h2, h3⟩ := h
  obtain ⟨k1, k2⟩ := countP_split hs s
  have hd : (v + 1).toNat = index.countP (· ≤ s) := by omega
  rw [hd] at h3
  refine ⟨⟨?_, ?_⟩, ?_, by simp only [greatestAt_countP hs]; omega⟩
  · exact (hs.sublist (List.drop_sublist _ _)).sublist h3.sublist
  · intro u hu
    exact k2 u (h3.subset hu)
  · intro y hy
    simp only at hy
    unfold Owner.versionAt
    simp only
    have e : up = (index.drop (index.countP (· ≤ s))).take up.length := List.prefix_iff_eq_take.1 h3
    have e1 : up.countP (· ≤ y) = min ((index.drop (index.countP (· ≤ s))).countP (· ≤ y)) up.length := by
      conv_lhs => rw [e]
      exact countP_take _ (hs.sublist (List.drop_sublist _ _))
    have e2 : index.countP (· ≤ y) = index.countP (· ≤ s) + (index.drop (index.countP (· ≤ s))).countP (· ≤ y) := by
      conv_lhs => rw [← List.take_append_drop (index.countP (· ≤ s)) index]
      rw [List.countP_append]
      congr 1
      rw [List.countP_eq_length.2 (fun u hu => by have := k1 u hu; simp only [decide_eq_true_eq]; omega), List.length_take]
      have := List.countP_le_length (p := fun u => decide (u ≤ s)) (l := index)
      omega
    rw [e1, greatestAt_countP hs, e2, h2]
    omega

theorem ownerKnows_set {index : List Nat} (hs : index.Pairwise (· ≤ ·)) {n : Nat} {s : Nat} {v : Int} {up : List Nat}
    (h : OwnerKnows index n s v up) {s' : Nat} (hs' : s ≤ s') (hn : s' < n) (hg : greatestAt index s' ≤ v + up.length) :
    OwnerKnows index n s' ((⟨s, v, up⟩ : Owner).setStarting s').verAtStarting ((⟨s, v, up⟩ : Owner).setStarting s').upcoming ∧
      ((⟨s, v, up⟩ : Owner).setStarting s').verAtStarting + ((⟨s, v, up⟩ : Owner).setStarting s').upcoming.length = v + up.length := by
  have hi := ownerInv_of hs h
  have hr := hi.right s' hs'
  unfold Owner.versionAt at hr
  rw [min_eq_left hg, greatestAt_countP hs] at hr
  simp only at hr
  have hle := List.countP_le_length (p := fun u => decide (u ≤ s')) (l := up)
  have hv := h.version
  refine ⟨⟨hn, ?_, ?_⟩, ?_⟩
  · unfold Owner.setStarting
    simp only [bsearch_count hi.wf.1]
    omega
  · unfold Owner.setStarting
    simp only [bsearch_count hi.wf.1]
    have e : ((up.countP (· ≤ s') : Int) + v + 1).toNat = (v + 1).toNat + up.countP (· ≤ s') := by omega
    rw [e, ← List.drop_drop]
    exact h.upcoming.drop _
  · unfold Owner.setStarting
    simp only [bsearch_count hi.wf.1, List.length_drop]
    omega

theorem ownerState_ok {index : List Nat} (hs : index.Pairwise (· ≤ ·)) (hc : index.length < 2 ^ 31 - 1) {n : Nat} {o : LabelOwnerState}
    (h : OwnerKnows index n o.starting o.verAtStarting o.upcomingVers) (last : Option Nat) (l : Bytes) (es : List MonitorMapEntry) :
    ownerState index n ⟨last, l, es, o.starting, greatestVersion o⟩ = .ok (ownerOf o) := by
  obtain ⟨h1, h2, h3⟩ := h
  have hle := List.countP_le_length (p := fun u => decide (u ≤ o.starting)) (l := index)
  have hd : (o.verAtStarting + 1).toNat = index.countP (· ≤ o.starting) := by omega
  rw [hd] at h3
  have hlen := h3.length_le
  rw [List.length_drop] at hlen
  have hset : (⟨0, -1, index⟩ : Owner).setStarting o.starting = ⟨o.starting, o.verAtStarting, index.drop (index.countP (· ≤ o.starting))⟩ := by
    unfold Owner.setStarting
    simp only [bsearch_count hs]
    rw [h2]
    congr 1
  unfold ownerState
  simp only
  rw [if_neg (by omega), hset]
  simp only
  unfold greatestVersion
  simp only
  by_cases hg : o.verAtStarting + o.upcomingVers.length ≥ 0
  · have hm : (o.verAtStarting + o.upcomingVers.length).toNat % 2 ^ 32 = (o.verAtStarting + o.upcomingVers.length).toNat :=
      Nat.mod_eq_of_lt (by omega)
    rw [if_pos hg, hm]
    have htn : (((o.verAtStarting + o.upcomingVers.length).toNat : Nat) : Int) = o.verAtStarting + o.upcomingVers.length := by omega
    simp only [Option.any_some, decide_eq_true_eq, htn]
    rw [if_neg (by omega), if_neg, if_neg (by rw [List.length_drop]; omega)]
    rotate_left
    · rintro ⟨-, h⟩
      change decide (((o.verAtStarting + o.upcomingVers.length).toNat : Int) < o.verAtStarting) = true at h
      rw [decide_eq_true_eq] at h
      omega
    have : (o.verAtStarting + ↑o.upcomingVers.length - o.verAtStarting).toNat = o.upcomingVers.length := by omega
    rw [this, ← List.prefix_iff_eq_take.1 h3]
    rfl
  · rw [if_neg hg]
    have h0 : o.upcomingVers.length = 0 := by omega
    simp only [Option.any_none]
    rw [if_neg (by simp), if_neg (by omega), if_neg (by omega)]
    have : o.upcomingVers = [] := List.length_eq_zero_iff.1 h0
    unfold ownerOf
    rw [this]
    simp

/-! ### versions -/

theorem addRequired_ok {env : Env} {l : Bytes} : ∀ {vs : List Nat} {s : Produced}, vs.Nodup →
    (∀ v ∈ vs, ∃ o pr, computeVrf env l v = .ok (o, pr) ∧ o.length = env.cs.hashSize) →
    (∀ v ∈ vs, s.versions.lookup v = none) →
    addRequired env l vs s = .ok { s with versions := ladderTable (fun v => (vrfOf env l v).1) (fun _ => none) vs ++ s.versions }
  | [], s, _, _, _ => rfl
  | v :: vs, s, hn, hv, hs => by
    rw [List.nodup_cons] at hn
    obtain ⟨o, pr, h1, h2⟩ := hv v List.mem_cons_self
    unfold addRequired
    rw [h1, G.ok_bind]
    unfold Produced.addVersion
    rw [addVersion_new h2 (by simp) (hs v List.mem_cons_self)]
    simp only [G.ok_bind, G.pure_eq]
    rw [addRequired_ok hn.2 (fun w hw => hv w (List.mem_cons_of_mem _ hw))]
    · simp only [vrfOf, h1, ladderTable, List.reverse_cons, List.map_cons, List.append_assoc, List.singleton_append]
    · intro w hw
      have hne : w ≠ v := fun h => hn.1 (h ▸ hw)
      rw [List.lookup_cons, (by simpa using hne : (w == v) = false)]
      exact hs w (List.mem_cons_of_mem _ hw)

theorem addRetainedVersions_ok {env : CEnv} : ∀ {rs : List RetainedVersion} {w : Verifier}, (rs.map (·.version)).Nodup →
    (∀ r ∈ rs, r.vrfOutput.length = env.cs.hashSize) → (∀ r ∈ rs, ∀ c, r.commitment = some c → c.length = env.cs.hashSize) →
    (∀ r ∈ rs, w.p.state.versions.lookup r.version = none) →
    addRetainedVersions env rs w = .ok { w with p := { w.p with state := { w.p.state with
      versions := (rs.map (fun r => (r.version, (⟨r.vrfOutput, r.commitment⟩ : Known)))).reverse ++ w.p.state.versions } } }
  | [], w, _, _, _, _ => rfl
  | r :: rs, w, hn, hv, hc, hw => by
    rw [List.map_cons, List.nodup_cons] at hn
    unfold addRetainedVersions Verifier.addVersion Received.addVersion
    rw [addVersion_new (hv r List.mem_cons_self) (hc r List.mem_cons_self) (hw r List.mem_cons_self)]
    simp only [G.ok_bind, G.pure_eq]
    rw [addRetainedVersions_ok hn.2 (fun x hx => hv x (List.mem_cons_of_mem _ hx)) (fun x hx => hc x (List.mem_cons_of_mem _ hx))]
    · simp
    · intro x hx
      have hne : x.version ≠ r.version := fun h => hn.1 (h ▸ List.mem_map_of_mem hx)
      rw [List.lookup_cons, (by simpa using hne : (x.version == r.version) = false)]
      exact hw x (List.mem_cons_of_mem _ hx)

/-! ### the request -/

theorem run_bind_ok {σ α β : Type} {H : Handle σ} {x : Prog α} {f : α → Prog β} {p q : Provider σ} {a : β}
    (h : p.run H (x >>= f) = (.ok a, q)) : ∃ b p', p.run H x = (.ok b, p') ∧ p'.run H (f b) = (.ok a, q) := by
  rw [run_bind] at h
  cases hx : p.run H x with
  | mk r p' =>
    rw [hx] at h
    cases r with
    | error e => simp at h
    | ok b => exact ⟨b, p', rfl, h⟩

theorem monitorProg_split {σ : Type} {H : Handle σ} {cfg : Config} {n : Nat} {c : PMap} {o : Option Owner} {p q : Provider σ} {a : Monitor}
    (h : p.run H (monitorProg cfg n c o) = (.ok a, q)) : ∃ m0 pa m1 pb, p.run H (newMonitor cfg n) = (.ok m0, pa) ∧
      pa.run H (Alg.contactMonitor (monitorOf c o m0)) = (.ok m1, pb) ∧ (o = none → m1 = a ∧ pb = q) ∧
      (∀ o', o = some o' → pb.run H (Alg.ownerMonitor m1) = (.ok a, q)) := by
  obtain ⟨m0, pa, h1, h⟩ := run_bind_ok h
  obtain ⟨m1, pb, h2, h⟩ := run_bind_ok h
  refine ⟨m0, pa, m1, pb, h1, h2, ?_, ?_⟩
  · rintro rfl
    have := Prod.mk.inj h
    exact ⟨Except.ok.inj this.1, this.2⟩
  · rintro o' rfl
    exact h

section
variable {env : Env} {cenv : CEnv} {cs : List Change} {us : List AuditorUpdate} {t : Tree} {l : Bytes}

/-- the request to the server -/
def monitorAnswer (env : Env) (now : Nat) (t : Tree) (last : Option Nat) (l : Bytes) (contact : List MonitorMapEntry)
    (owner : Option LabelOwnerState) : G MonitorResponse :=
  match owner with
  | none => Server.contactMonitor env now t ⟨last, l, contact⟩
  | some o => Server.ownerMonitor env now t ⟨last, l, contact, o.starting, greatestVersion o⟩

theorem monitor_core (hcs : env.cs.Good) (hsm : Prefix.Small env.cs) (hruns : ServerSpec.Runs env cs us t) (hne : cs ≠ [])
    (hc : ClientOf env cenv) (hl : l.length ≤ 255) (hkeep : ∀ c ∈ cs, l ∉ c.remove) (hcount : (versionsOf l cs).length < 2 ^ 31 - 1)
    {versions : List RetainedVersion} {contact : List MonitorMapEntry} {owner : Option LabelOwnerState}
    (hret : Retains env cs l versions) (hprep : Prepared versions contact owner)
    (hacc : Acceptable ((versionsOf l cs).map Version.pos) us.length contact)
    (hown : ∀ o, owner = some o → OwnerKnows ((versionsOf l cs).map Version.pos) us.length o.starting o.verAtStarting o.upcomingVers)
    (hd : VrfDistinct env cs l (versions.map (·.version)))
    {state : Option ClientState} (hst : Behind env us state) {aud : Option AuditorTreeHead}
    (haud : ∀ a, aud = some a → 0 < a.treeSize ∧ a.treeSize ≤ us.length)
    {nowS nowC : Nat} (hwS : InWindow env.cfg nowS (entryAt env.cs us (us.length - 1)).timestamp)
    (hwC : InWindow env.cfg nowC (entryAt env.cs us (us.length - 1)).timestamp)
    (hview : ∀ k, getLast state = some k → ∀ f, frontier us.length = .ok f → k - 1 ∉ f) :
    ∃ th proof, t.head = some th ∧ th.treeSize = us.length ∧
      monitorAnswer env nowS { t with auditor := aud } (getLast state) l contact owner = .ok ⟨⟨some th, aud⟩, proof⟩ ∧
      ∃ m v result rootP,
        checkedMonitor cenv nowC state (getLast state) versions contact owner ⟨⟨some th, aud⟩, proof⟩ =
          .ok (m, v, result, LogSpec.rootHash env.cs.H (logLeaves env.cs us), rootP) ∧
        v.state = state ∧ v.fth = ⟨some th, aud⟩ ∧ v.n = us.length ∧
        Keeps env us us.length result.fullSubtrees result.logEntries ∧
        (∀ a, aud = some a → rootP = LogSpec.rootHash env.cs.H ((logLeaves env.cs us).take a.treeSize)) ∧
        (∃ m0 m1 tr, ContactRun m0 (contactMap contact) (fun x => (entryAt env.cs us x).timestamp) tr m1 ∧ m0.cfg = env.cfg ∧
          m0.treeSize = us.length ∧ m0.owner = owner.map ownerOf ∧ m1.contact = m.contact) ∧
        m.owner.isSome = owner.isSome ∧
        ∀ o, owner = some o → ∀ o', m.owner = some o' →
          OwnerKnows ((versionsOf l cs).map Version.pos) us.length o'.starting o'.verAtStarting o'.upcoming ∧
            o.starting ≤ o'.starting ∧ o'.verAtStarting + o'.upcoming.length = o.verAtStarting + o.upcomingVers.length := by
  obtain ⟨htx, hinv⟩ := runs_inv hcs hsm hruns
  have hlen := hinv.len
  have hsize := hinv.size
  have hpos : 0 < us.length := by rw [hlen]; exact List.length_pos_iff.2 hne
  obtain ⟨th, tbs, hhead, hths, -, -⟩ := head_of_inv hinv hne
  rw [← hlen] at hths
  have hh := honest_of_inv hcs hsm hinv hne
  rw [← hlen] at hh
  have hindex : getIndex t.tx l = .ok ((versionsOf l cs).map Version.pos) := by rw [htx]; exact hinv.getIndex l
  obtain ⟨hsorted, hin⟩ := versionsOf_pos l cs
  rw [← hlen] at hin
  have hvrfAll : ∀ v, ∃ o pr, computeVrf env l v = .ok (o, pr) ∧ o.length = env.cs.hashSize := by
    intro v
    obtain ⟨input, -, h2, -⟩ := computeVrf_ok (env := env) hl v
    exact ⟨_, _, h2, hc.vrfLen input⟩
  have hlab := labelTree_of_runs hcs hsm hruns hkeep (fun v _ => hvrfAll v) hd
  rw [← hlen] at hlab
  -- the retained entries
  have hlast : ∀ k, getLast state = some k → 0 < k ∧ k < us.length := by
    intro k hk
    cases state with
    | none => cases hk
    | some s =>
      simp only [getLast, Option.map_some, Option.some.injEq] at hk
      subst hk
      exact ⟨hst.1, hst.2.1⟩
  have hlast' : ∀ k, getLast state = some k → 0 < k ∧ k ≤ us.length := fun k hk => ⟨(hlast k hk).1, (hlast k hk).2.le⟩
  obtain ⟨fk, hfk⟩ := retained_exists (n := us.length) (by omega) hlast'
  have hload := loadRetained_ok (env := env) (st := t.db) (E := entryAt env.cs us) hh.entry hh.times hfk
  obtain ⟨f, hf, -⟩ := frontier_spine hpos (by omega : us.length < 2 ^ 64)
  have hnP : ∀ k, aud.map (·.treeSize) = some k → 0 < k ∧ k ≤ us.length := by
    intro k hk
    cases aud with
    | none => cases hk
    | some a =>
      simp only [Option.map_some, Option.some.injEq] at hk
      subst hk
      exact haud a rfl
  -- what the client has retained
  have hvrfEq : ∀ r ∈ versions, r.vrfOutput = (vrfOf env l r.version).1 := by
    intro r hr
    obtain ⟨pr, h⟩ := hret.vrf r hr
    simp only [vrfOf, h]
  have hcomEq : ∀ r ∈ versions, ∀ c, r.commitment = some c → c = comOf env l (versionsOf l cs) r.version := by
    intro r hr c hrc
    obtain ⟨x, h1, h2⟩ := hret.commitment r hr c hrc
    exact comOf_pair h1 h2
  let known : Versions := (versions.map (fun r => (r.version, (⟨r.vrfOutput, r.commitment⟩ : Known)))).reverse
  have hlook : ∀ r ∈ versions, known.lookup r.version = some ⟨r.vrfOutput, r.commitment⟩ := by
    intro r hr
    have hp : (r.version, (⟨r.vrfOutput, r.commitment⟩ : Known)) ∈ known :=
      List.mem_reverse.2 (List.mem_map.2 ⟨r, hr, rfl⟩)
    have hk : (known.map Prod.fst).Nodup := by
      change ((versions.map (fun r => (r.version, (⟨r.vrfOutput, r.commitment⟩ : Known)))).reverse.map Prod.fst).Nodup
      rw [List.map_reverse, List.map_map, List.nodup_reverse]
      exact hret.once
    exact lookup_of_mem hk hp
  have hlookInv : ∀ v k, known.lookup v = some k → ∃ r ∈ versions, r.version = v ∧ k = ⟨r.vrfOutput, r.commitment⟩ := by
    intro v k h
    obtain ⟨r, hr, e⟩ := List.mem_map.1 (List.mem_reverse.1 (lookup_mem h))
    cases e
    exact ⟨r, hr, rfl, rfl⟩
  have hknown : Table (versions.map (·.version)) (fun v => (vrfOf env l v).1) (comOf env l (versionsOf l cs)) known := by
    refine ⟨?_, ?_⟩
    · intro v hv
      obtain ⟨r, hr, rfl⟩ := List.mem_map.1 hv
      exact ⟨_, hlook r hr⟩
    · intro v k hk
      obtain ⟨r, hr, rfl, rfl⟩ := hlookInv v k hk
      refine ⟨List.mem_map_of_mem hr, hvrfEq r hr, ?_⟩
      cases hrc : r.commitment with
      | none => exact .inl rfl
      | some c => right; rw [← hcomEq r hr c hrc]
  -- the algorithm
  obtain ⟨ck1, ck2, ck3⟩ := contactMap_acceptable hsorted hin (by rw [List.length_map]; exact hcount) hacc
  obtain ⟨gv, hgvn, hgvo⟩ : ∃ gv : Int, (owner = none → gv = 0) ∧ ∀ o, owner = some o → gv = o.verAtStarting + o.upcomingVers.length := by
    cases owner with
    | none => exact ⟨0, fun _ => rfl, fun o h => by cases h⟩
    | some o => exact ⟨_, (fun h => by cases h), fun o' h => by cases h; rfl⟩
  have hgv : gv < 2 ^ 31 - 1 := by
    cases ho : owner with
    | none => rw [hgvn ho]; omega
    | some o =>
      rw [hgvo o ho]
      obtain ⟨k1, k2, k3⟩ := hown o ho
      have h3 := k3.length_le
      have hle := List.countP_le_length (p := fun u => decide (u ≤ o.starting)) (l := (versionsOf l cs).map Version.pos)
      rw [List.length_drop] at h3
      rw [List.length_map] at h3 hle
      omega
  have hsv := fun b => monitorProg_sv (ts := fun x => (entryAt env.cs us x).timestamp) (cfg := env.cfg) (o := owner.map ownerOf)
    (gv := gv) hpos (greatestAt_mono ((versionsOf l cs).map Version.pos)) ck1 ck2 ck3 hgv (by
      intro o' ho'
      cases ho : owner with
      | none => rw [ho] at ho'; cases ho'
      | some o =>
        rw [ho] at ho'
        cases ho'
        rw [hgvo o ho]
        exact ownerInv_of hsorted (hown o ho)) hh.times b
  -- the exchange
  have hneed : ∀ q, MonitorAsks (greatestAt ((versionsOf l cs).map Version.pos)) us.length (contactMap contact) (owner.map ownerOf) gv q →
      ∀ need, q.asks (greatestAt ((versionsOf l cs).map Version.pos)) need → ∀ u ∈ need.2,
        u ∈ versions.map (·.version) ∧ ((u : Int) ≤ greatestAt ((versionsOf l cs).map Version.pos) need.1 →
          ∃ r ∈ versions, r.version = u ∧ r.commitment ≠ none) := by
    intro q hq need hask u hu
    cases q with
    | ts x => exact absurd hask (by simp [Req.asks])
    | stop x v => exact absurd hask (by simp [Req.asks])
    | incl x vers => exact absurd hq (by simp [MonitorAsks])
    | addLadder x om g l => exact absurd hq (by simp [MonitorAsks])
    | monitor y v =>
      obtain ⟨x, hx, -⟩ := hq
      obtain ⟨-, h2⟩ := contactMap_spec (hacc.sorted.imp (fun h => Nat.ne_of_lt h.1))
      obtain ⟨-, hlad⟩ := hask
      obtain ⟨r, h3, h4, h5⟩ := hprep.contact _ ((h2 _).1 hx) _ hlad u hu
      exact ⟨List.mem_map.2 ⟨r, h3, h4⟩, fun _ => ⟨r, h3, h4, h5⟩⟩
    | search x v om =>
      obtain ⟨-, rfl, o', ho', hs1, hs2, hs3⟩ := hq
      cases ho : owner with
      | none => rw [ho] at ho'; cases ho'
      | some o =>
        rw [ho] at ho'
        cases ho'
        obtain ⟨rfl, hneg, hlad⟩ := hask
        by_cases hg0 : greatestAt ((versionsOf l cs).map Version.pos) need.1 < 0
        · rw [hneg hg0, List.mem_singleton] at hu
          subst hu
          obtain ⟨r, h3, h4⟩ := hprep.zero o ho
          exact ⟨List.mem_map.2 ⟨r, h3, h4⟩, fun h => by omega⟩
        · rw [hgvo o ho] at hs3
          have hgo : o.verAtStarting ≤ greatestAt ((versionsOf l cs).map Version.pos) need.1 := by
            rw [(hown o ho).version, ← greatestAt_countP hsorted]
            exact greatestAt_mono _ _ _ (Nat.le_of_lt hs1)
          have hcast : (((greatestAt ((versionsOf l cs).map Version.pos) need.1).toNat : Nat) : Int) =
              greatestAt ((versionsOf l cs).map Version.pos) need.1 := by omega
          obtain ⟨b, hb1, hb2, -, hb0, -⟩ := ladder_self (t := (greatestAt ((versionsOf l cs).map Version.pos) need.1).toNat) (by
            have := hgvo o ho
            omega)
          obtain ⟨r, h3, h4, h5⟩ := hprep.owner o ho _ (by omega) (by omega) b hb1 u (hlad b hb2 hb0 u hu)
          exact ⟨List.mem_map.2 ⟨r, h3, h4⟩, fun h => ⟨r, h3, h4, h5 (by omega)⟩⟩
  obtain ⟨m, st', b', p1, p2, e1, e2, e3, e4, e5, e6⟩ := exchange_stops (nP := aud.map (·.treeSize)) hh
    (by rw [List.length_map]; omega) hlab (by rintro x v ⟨h, -⟩; cases h) (fun x h => h) hneed hsv
    (retainedTables_fresh hh.times hfk.nodup hfk.lt (s := ({} : Produced)) [] rfl rfl rfl) hwS hwC hf hnP hlast' (by
      intro k hk
      refine ⟨hview k hk f hf, fk, ?_, fun x hx => (retainedTables_keys _ _ _ _ x).2 hx⟩
      have := hfk.frontier
      rw [hk] at this
      exact this)
  have hreq : ∀ v ∈ p2.state.required.eraseDups, v ∈ versions.map (·.version) := by
    intro v hv
    rw [List.mem_eraseDups] at hv
    obtain ⟨need, h1, h2⟩ := List.mem_flatMap.1 hv
    exact e5 need h1 v h2
  obtain ⟨proof, p3, o1, o2⟩ := e6 p2.state.required.eraseDups
    (ladderTable (fun v => (vrfOf env l v).1) (fun _ => none) p2.state.required.eraseDups) hreq (by
      intro need hn u hu
      rw [List.mem_eraseDups]
      exact List.mem_flatMap.2 ⟨need, hn, hu⟩) (ladderTable_table (fun v _ => .inl rfl))
  obtain ⟨m0, pa, m1, pb, s1, s2, s3, s4⟩ := monitorProg_split e2
  refine ⟨th, proof, hhead, hths, ?_, ?_⟩
  · -- the server
    have hth : Server.fullTreeHead { t with auditor := aud } (getLast state) =
        .ok ⟨⟨some th, aud⟩, us.length, aud.map (·.treeSize), getLast state⟩ := by
      unfold Server.fullTreeHead
      simp only [hhead]
      cases hgl : getLast state with
      | none => simp only [hths]; rfl
      | some k =>
        have := (hlast k hgl).2
        simp only
        rw [if_neg (by omega), if_neg (by omega), hths]
        rfl
    have huv : Server.updateView env nowS { t with auditor := aud } ((versionsOf l cs).map Version.pos) (getLast state)
        (newProvider {}) = .ok p1 := by
      unfold Server.updateView handleFor
      simp only [hhead, htx, hload, G.ok_bind, hths]
      unfold runOn
      rw [e1]
      rfl
    have hstart : startMonitor env nowS { t with auditor := aud } (getLast state) l =
        .ok ⟨⟨⟨some th, aud⟩, us.length, aud.map (·.treeSize), getLast state⟩, (versionsOf l cs).map Version.pos, m0, pa⟩ := by
      unfold startMonitor
      simp only []
      rw [hth, G.ok_bind, hindex, G.ok_bind, huv, G.ok_bind]
      unfold runOn handleFor
      simp only [htx, s1]
      rfl
    have hver := verifyEntries_ok hin hacc
    have hfin : ∀ mm, finishMonitor env { t with auditor := aud } l
        ⟨⟨⟨some th, aud⟩, us.length, aud.map (·.treeSize), getLast state⟩, (versionsOf l cs).map Version.pos, mm, p2⟩ =
          .ok (⟨some th, aud⟩, proof) := by
      intro mm
      unfold finishMonitor
      simp only []
      rw [addRequired_ok (nodup_eraseDups _ _ (le_refl _)) (fun v _ => hvrfAll v) (by
        intro v _
        rw [e4]
        rfl), G.ok_bind]
      have : p2.state.versions = [] := e4
      rw [this, List.append_nil]
      unfold outputOf
      simp only [htx]
      rw [o1]
      rfl
    cases ho : owner with
    | none =>
      rw [ho] at s2 s3
      obtain ⟨rfl, rfl⟩ := s3 rfl
      unfold monitorAnswer Server.contactMonitor
      simp only []
      rw [hstart, G.ok_bind, hver, G.ok_bind]
      have s2' : pa.run (Produced.handle (serverDB env t.db) ((versionsOf l cs).map Version.pos))
          (Alg.contactMonitor { m0 with contact := some (contactMap contact) }) = (.ok m1, pb) := s2
      have hro : runOn (handleFor env { t with auditor := aud } ((versionsOf l cs).map Version.pos))
          (Alg.contactMonitor { m0 with contact := some (contactMap contact) }) pa = .ok (m1, pb) := by
        unfold runOn handleFor
        simp only [htx, s2']
      simp only []
      rw [hro, G.ok_bind]
      simp only []
      rw [hfin, G.ok_bind]
      rfl
    | some o =>
      rw [ho] at s2 s4
      have s4' := s4 _ rfl
      unfold monitorAnswer Server.ownerMonitor
      simp only []
      rw [hstart, G.ok_bind, hver, G.ok_bind,
        ownerState_ok hsorted (by rw [List.length_map]; exact hcount) (hown o ho), G.ok_bind]
      have s2' : pa.run (Produced.handle (serverDB env t.db) ((versionsOf l cs).map Version.pos))
          (Alg.contactMonitor { m0 with contact := some (contactMap contact), owner := some (ownerOf o) }) = (.ok m1, pb) := s2
      have hro : runOn (handleFor env { t with auditor := aud } ((versionsOf l cs).map Version.pos))
          (Alg.contactMonitor { m0 with contact := some (contactMap contact), owner := some (ownerOf o) }) pa = .ok (m1, pb) := by
        unfold runOn handleFor
        simp only [htx, s2']
      have hro2 : runOn (handleFor env { t with auditor := aud } ((versionsOf l cs).map Version.pos))
          (Alg.ownerMonitor m1) pb = .ok (m, p2) := by
        unfold runOn handleFor
        simp only [htx, s4']
      simp only []
      rw [hro, G.ok_bind]
      simp only []
      rw [hro2, G.ok_bind]
      simp only []
      rw [hfin, G.ok_bind]
      rfl
  · -- the client
    obtain ⟨full, hrp, hfull⟩ := retainedProvider_ok hh.times hst hfk proof
    obtain ⟨q1, q2, c1, c2, result, q3, c3, c4, c5, c6⟩ := o2 full known hknown (by
      rintro u ⟨r, h1, rfl, h2⟩
      refine ⟨_, hlook r h1, ?_⟩
      cases hrc : r.commitment with
      | none => exact absurd hrc h2
      | some c => rw [← hcomEq r h1 c hrc]) (by
      intro k hk
      rw [hfull k hk, leavesOf_entryAt]
      rfl)
    rw [leavesOf_entryAt] at c4 c5
    have hnv := newVerifier_eq (last := getLast state) (th := th) (aud := aud) hrp
    rw [hths] at hnv
    have hadd := addRetainedVersions_ok (env := cenv) (rs := versions)
      (w := ⟨state, ⟨some th, aud⟩, retainedTables ⟨proof, [], {}⟩ (entryAt env.cs us) full fk, us.length, aud.map (·.treeSize),
        getLast state⟩) hret.once (by
        intro r hr
        obtain ⟨o, pr, h1, h2⟩ := hvrfAll r.version
        rw [hvrfEq r hr, hc.cs]
        simp only [vrfOf, h1]
        exact h2) (by
        intro r hr c hrc
        rw [hcomEq r hr c hrc, hc.cs]
        exact comOf_len hcs l _ _) (by intro r _; rfl)
    rw [show (retainedTables (⟨proof, [], {}⟩ : Received) (entryAt env.cs us) full fk).state.versions = [] from rfl, List.append_nil] at hadd
    obtain ⟨m0', qa, m1', qb, d1, d2, d3, d4⟩ := monitorProg_split c2
    have hroot : Log.root env.cs us.length result.fullSubtrees = .ok (LogSpec.rootHash env.cs.H (logLeaves env.cs us)) := by
      have := root_take hcs (us := us) hpos (le_refl _) (by omega)
      rw [List.take_of_length_le (by rw [logLeaves_len])] at this
      rw [c4]
      exact this
    have hkeeps : Keeps env us us.length result.fullSubtrees result.logEntries :=
      ⟨by rw [c4, List.take_of_length_le (by rw [logLeaves_len])]; rfl, f, hf, c6⟩
    have hrootP : ∃ rootP, auditorRoot cenv (aud.map (·.treeSize)) result.additional = .ok rootP ∧
        ∀ a, aud = some a → rootP = LogSpec.rootHash env.cs.H ((logLeaves env.cs us).take a.treeSize) := by
      cases aud with
      | none => exact ⟨[], rfl, by simp⟩
      | some a =>
        obtain ⟨h1, h2⟩ := haud a rfl
        refine ⟨LogSpec.rootHash env.cs.H ((logLeaves env.cs us).take a.treeSize), ?_, ?_⟩
        · simp only [auditorRoot, Option.map_some, hc.cs]
          rw [c5 a.treeSize rfl]
          exact root_take hcs h1 h2 (by omega)
        · intro a' ha'
          cases ha'
          rfl
    obtain ⟨rootP, g1, g2⟩ := hrootP
    obtain ⟨-, -, -, w0, w1, w2⟩ := e3
    refine ⟨m, ⟨state, ⟨some th, aud⟩, q3, us.length, aud.map (·.treeSize), getLast state⟩, result, rootP, ?_, rfl, rfl, rfl, hkeeps, g2, w0,
      by rw [w1]; cases owner <;> rfl, ?_⟩
    · unfold checkedMonitor
      rw [hnv, G.ok_bind, hadd, G.ok_bind]
      unfold Verifier.updateView Verifier.run
      rw [hc.cs, hc.cfg]
      simp only
      have c1' : Provider.run (Received.handle env.cs) (Alg.updateView env.cfg nowC us.length (getLast state))
          { (retainedTables (⟨proof, [], {}⟩ : Received) (entryAt env.cs us) full fk) with
            state := { (retainedTables (⟨proof, [], {}⟩ : Received) (entryAt env.cs us) full fk).state with
              versions := (versions.map (fun r => (r.version, (⟨r.vrfOutput, r.commitment⟩ : Known)))).reverse } } =
          (.ok (), q1) := c1
      rw [c1']
      simp only [G.ok_bind, G.pure_eq]
      rw [d1]
      simp only [G.ok_bind]
      rw [d2]
      simp only [G.ok_bind]
      cases ho : owner with
      | none =>
        obtain ⟨rfl, rfl⟩ := d3 (by rw [ho]; rfl)
        simp only [if_true]
        rw [c3]
        simp only []
        rw [hroot, G.ok_bind, g1, G.ok_bind]
      | some o =>
        have d4' := d4 (ownerOf o) (by rw [ho]; rfl)
        simp only [reduceCtorEq, if_false]
        rw [d4']
        simp only [G.ok_bind]
        rw [c3]
        simp only []
        rw [hroot, G.ok_bind, g1, G.ok_bind]
    · intro o ho o' ho'
      obtain ⟨x1, x2, x3, x4⟩ := w2 (ownerOf o) (by rw [ho]; rfl) o' ho'
      rw [hgvo o ho] at x1
      have x2' : o.starting ≤ o'.starting := x2
      have hk := ownerKnows_set hsorted (hown o ho) (s' := o'.starting) x2' (by
        rcases x3 with h | h
        · rw [h]; exact (hown o ho).start
        · exact h) x1.known
      rw [show (⟨o.starting, o.verAtStarting, o.upcomingVers⟩ : Owner) = ownerOf o from rfl, ← x4] at hk
      exact ⟨hk.1, x2', hk.2⟩

end

end Katie.Server
