import Verif.Spec.Auditor
import Verif.Lemmas.Spine
import Verif.Lemmas.LogAppend
import Verif.Lemmas.PrefixSound

/- Lemmas about the auditor. -/

namespace Katie.Audit
open Katie Katie.Wire Katie.Alg Katie.AuditSpec Katie.SearchTree Katie.SearchSpec Prog

/-! ### the provider without a handle -/

/-- the answer to a request for a timestamp -/
def tsAns (o : Option Nat) : G Nat :=
  match o with
  | some t => .ok t
  | none => goPanic "invalid memory address or nil pointer dereference"

/-- the answers of a provider that has the timestamps `m` and the nil handle -/
def nilAns (m : List (Nat × Nat)) : (q : Req) → G q.Resp
  | .ts x => tsAns (m.lookup x)
  | .search _ _ _ => goPanic "invalid memory address or nil pointer dereference"
  | .monitor _ _ => goPanic "invalid memory address or nil pointer dereference"
  | .incl _ vers => if vers.length = 0 then .ok () else goPanic "invalid memory address or nil pointer dereference"
  | .stop _ _ => .ok false
  | .addLadder _ _ _ _ => .ok ()

theorem getTimestamp_nil (x : Nat) (p : Provider Unit) :
    p.getTimestamp nilHandle x = (tsAns (p.timestamps.lookup x), p) := by
  unfold Provider.getTimestamp
  cases p.timestamps.lookup x <;> rfl

theorem answer_nil (q : Req) (p : Provider Unit) : p.answer nilHandle q = (nilAns p.timestamps q, p) := by
  cases q with
  | ts x => exact getTimestamp_nil x p
  | search x ver om =>
    change p.getSearch nilHandle x ver om = _
    unfold Provider.getSearch
    rw [getTimestamp_nil]
    cases p.timestamps.lookup x <;> rfl
  | monitor x ver =>
    change p.getMonitor nilHandle x ver = _
    unfold Provider.getMonitor
    rw [getTimestamp_nil]
    cases p.timestamps.lookup x <;> rfl
  | incl x vers =>
    change p.getIncl nilHandle x vers = _
    unfold Provider.getIncl
    rw [getTimestamp_nil]
    unfold nilAns
    simp only []
    split
    · rfl
    · cases p.timestamps.lookup x <;> rfl
  | stop x ver => rfl
  | addLadder x om g l => rfl

theorem run_nil {α : Type} (prog : Prog α) (p : Provider Unit) :
    p.run nilHandle prog = (prog.eval (nilAns p.timestamps), p) := by
  induction prog with
  | ret r => rfl
  | op q k ih =>
    unfold Provider.run
    rw [answer_nil]
    exact ih _

theorem newTimes_nil {f : Nat → Nat} (p : Provider Unit) : ∀ (xs : List Nat),
    (∀ x ∈ xs, p.timestamps.lookup x = some (f x)) → newTimes xs p = (.ok (xs.map f), p) := by
  intro xs
  induction xs with
  | nil => intro _; rfl
  | cons x xs ih =>
    intro h
    unfold newTimes
    rw [getTimestamp_nil, h x (by simp)]
    simp only [tsAns]
    rw [ih (fun y hy => h y (by simp [hy]))]
    rfl

/-! ### retaining timestamps -/

theorem retainLoop_ok {σ : Type} {f : Nat → Nat} (hf : ∀ x y, x ≤ y → f x ≤ f y) : ∀ (es : List (Nat × LogEntry)) (p : Provider σ),
    (es.map Prod.fst).Nodup → (∀ e ∈ es, e.2.timestamp = f e.1) → (∀ e ∈ p.timestamps, e.2 = f e.1) →
    (∀ e ∈ es, e.1 ∉ p.timestamps.map Prod.fst) → (∀ e ∈ es, p.prefixTrees.lookup e.1 = none) →
    (Provider.retainLoop es p).1 = .ok () := by
  intro es
  induction es with
  | nil => intro p _ _ _ _ _; rfl
  | cons e es ih =>
    intro p hk he hp hd hr
    obtain ⟨x, l⟩ := e
    rw [List.map_cons, List.nodup_cons] at hk
    unfold Provider.retainLoop
    have h1 : addTimestamp p.timestamps x l.timestamp = .ok ((x, l.timestamp) :: p.timestamps) := by
      unfold addTimestamp
      rw [if_neg, if_neg]
      · rw [List.any_eq_true]
        rintro ⟨g, hg, hc⟩
        have hel : l.timestamp = f x := he (x, l) (by simp)
        rw [decide_eq_true_iff, hp g hg, hel] at hc
        rcases hc with ⟨a, b⟩ | ⟨a, b⟩
        · have := hf x g.1 (by omega); omega
        · have := hf g.1 x (by omega); omega
      · rw [List.any_eq_true]
        rintro ⟨g, hg, hc⟩
        exact hd (x, l) (by simp) (List.mem_map.2 ⟨g, hg, by simpa using (by simpa using hc : x = g.1).symm⟩)
    rw [h1]
    simp only []
    have h2 : addPrefixTree p.prefixTrees x l.prefixTree = .ok ((x, l.prefixTree) :: p.prefixTrees) := by
      unfold addPrefixTree
      rw [hr (x, l) (by simp)]
    rw [h2]
    simp only []
    have hne : ∀ e ∈ es, e.1 ≠ x := by
      intro e hes hc
      exact hk.1 (List.mem_map.2 ⟨e, hes, hc⟩)
    apply ih
    · exact hk.2
    · intro e hes; exact he e (by simp [hes])
    · intro e hes
      rcases List.mem_cons.1 hes with rfl | hes
      · exact he (x, l) (by simp)
      · exact hp e hes
    · intro e hes
      rw [List.map_cons, List.mem_cons]
      rintro (h | h)
      · exact hne e hes h
      · exact hd e (by simp [hes]) h
    · intro e hes
      change List.lookup e.1 ((x, l.prefixTree) :: p.prefixTrees) = none
      rw [List.lookup_cons, beq_false_of_ne (hne e hes)]
      exact hr e (by simp [hes])

theorem addRetained_lookup {f : Nat → Nat} (hf : ∀ x y, x ≤ y → f x ≤ f y) (es : List (Nat × LogEntry))
    (hk : (es.map Prod.fst).Nodup) (he : ∀ e ∈ es, e.2.timestamp = f e.1) :
    ∀ x ∈ es.map Prod.fst, ((newProvider ()).addRetained [] es).2.timestamps.lookup x = some (f x) := by
  intro x hx
  obtain ⟨e, hes, rfl⟩ := List.mem_map.1 hx
  unfold Provider.addRetained
  have hm : TsMap ({ (newProvider () : Provider Unit) with fullSubtrees := [], logEntries := es }).timestamps := TsMap.nil
  obtain ⟨h1, h2, h3, h4⟩ := retainLoop_spec es _ hm
  have hok := retainLoop_ok hf es ({ (newProvider () : Provider Unit) with fullSubtrees := [], logEntries := es }) hk he
    (by intro e h; cases h) (by intro e _ h; cases h) (by intro e _; rfl)
  have := (h4 hok e hes).1
  rw [he e hes] at this
  exact lookup_of_mem h1.keys this

/-! ### times -/

theorem timeOf_lt {W : List LogEntry} {x : Nat} (h : x < W.length) : timeOf W x = W[x].timestamp := by
  unfold timeOf; rw [List.getElem?_eq_getElem h]

theorem timeOf_append {W V : List LogEntry} {x : Nat} (h : x < W.length) : timeOf (W ++ V) x = timeOf W x := by
  unfold timeOf; rw [List.getElem?_append_left h]

theorem timeOf_snoc (W : List LogEntry) (e : LogEntry) : timeOf (W ++ [e]) W.length = e.timestamp := by
  unfold timeOf; simp

theorem goodTimes_snoc {W : List LogEntry} {e : LogEntry} (h : GoodTimes (timeOf W) W.length)
    (h1 : 0 < W.length → timeOf W (W.length - 1) ≤ e.timestamp) (h2 : e.timestamp < 2 ^ 64) :
    GoodTimes (timeOf (W ++ [e])) (W ++ [e]).length := by
  have hl : (W ++ [e]).length = W.length + 1 := by simp
  rw [hl]
  refine ⟨fun i j hij hj => ?_, fun i hi => ?_⟩
  · by_cases hj' : j < W.length
    · rw [timeOf_append hj', timeOf_append (by omega)]; exact h.1 i j hij hj'
    · have : j = W.length := by omega
      subst this
      rw [timeOf_snoc]
      by_cases hi : i < W.length
      · rw [timeOf_append hi]
        exact le_trans (h.1 i (W.length - 1) (by omega) (by omega)) (h1 (by omega))
      · have : i = W.length := by omega
        subst this
        rw [timeOf_snoc]
  · by_cases hi' : i < W.length
    · rw [timeOf_append hi']; exact h.2 i hi'
    · have : i = W.length := by omega
      subst this
      rw [timeOf_snoc]; exact h2

/-- extended to a monotone function -/
def clip (W : List LogEntry) (x : Nat) : Nat := timeOf W (min x (W.length - 1))

theorem clip_mono {W : List LogEntry} (h : GoodTimes (timeOf W) W.length) (h0 : 0 < W.length) :
    ∀ x y, x ≤ y → clip W x ≤ clip W y :=
  fun x y hxy => h.1 _ _ (by omega) (by omega)

theorem clip_eq {W : List LogEntry} {x : Nat} (h : x < W.length) : clip W x = timeOf W x := by
  unfold clip
  rw [Nat.min_eq_left (by omega)]

/-! ### the two algorithms -/

/-- The provider of `previousRightmost` knows the frontier and the new entry. -/
theorem providerFor_spec {cs : Log.Suite} {W : List LogEntry} {a : Option AState} {t : Nat} (hd : DescribesO cs W a)
    (hg : GoodTimes (timeOf (W ++ [⟨t, []⟩])) (W.length + 1)) (hn : W.length < 2 ^ 64) :
    ∃ p, providerFor a t = .ok p ∧ size a = W.length ∧
      p.timestamps.lookup W.length = some t ∧
      ∀ y, 0 < W.length → Spine 0 W.length y → p.timestamps.lookup y = some (timeOf (W ++ [⟨t, []⟩]) y) := by
  have hlen : (W ++ [(⟨t, []⟩ : LogEntry)]).length = W.length + 1 := by simp
  have hg' : GoodTimes (timeOf (W ++ [⟨t, []⟩])) (W ++ [(⟨t, []⟩ : LogEntry)]).length := by rw [hlen]; exact hg
  have hmono := clip_mono hg' (by omega)
  cases a with
  | none =>
    have hW : W = [] := hd
    subst hW
    refine ⟨_, rfl, rfl, rfl, ?_⟩
    intro y h; simp at h
  | some s =>
    obtain ⟨h0, hsz, -, -, -, fr, hfr, hts⟩ := hd
    obtain ⟨fr', hfr', hsp, hpw, hlt, -⟩ := frontier_spine h0 hn
    rw [hfr] at hfr'
    cases hfr'
    have hret : retainedTimes (some s) = .ok (fr.map (fun x => (x, (⟨timeOf W x, []⟩ : LogEntry)))) := by
      unfold retainedTimes
      simp only []
      rw [hsz, hfr, G.ok_bind, if_neg (by rw [hts]; simp), hts, List.map_map, G.pure_eq]
      congr 1
      rw [List.zip_map_right]
      have : fr.zip fr = fr.map (fun x => (x, x)) := by
        clear hfr hts hsp hpw hlt
        induction fr with
        | nil => rfl
        | cons a l ih => simp [ih]
      rw [this, List.map_map]
      rfl
    have hes : ∀ e ∈ fr.map (fun x => (x, (⟨timeOf W x, []⟩ : LogEntry))) ++ [(W.length, (⟨t, []⟩ : LogEntry))],
        e.2.timestamp = clip (W ++ [⟨t, []⟩]) e.1 := by
      intro e he
      rcases List.mem_append.1 he with he | he
      · obtain ⟨x, hx, rfl⟩ := List.mem_map.1 he
        have := hlt x hx
        simp only
        rw [clip_eq (by rw [hlen]; omega), timeOf_append this]
      · rw [List.mem_singleton] at he
        subst he
        simp only
        rw [clip_eq (by rw [hlen]; omega), timeOf_snoc]
    have hkeys : ((fr.map (fun x => (x, (⟨timeOf W x, []⟩ : LogEntry))) ++ [(W.length, (⟨t, []⟩ : LogEntry))]).map Prod.fst) =
        fr ++ [W.length] := by
      rw [List.map_append, List.map_map]
      simp [Function.comp_def]
    have hnd : (fr ++ [W.length]).Nodup := by
      rw [List.nodup_append]
      refine ⟨hpw.imp (fun h => by omega), by simp, ?_⟩
      intro x hx y hy
      rw [List.mem_singleton] at hy
      have := hlt x hx; omega
    have hL := addRetained_lookup hmono _ (by rw [hkeys]; exact hnd) hes
    rw [hkeys] at hL
    have hok : providerFor (some s) t = .ok ((newProvider ()).addRetained []
        (fr.map (fun x => (x, (⟨timeOf W x, []⟩ : LogEntry))) ++ [(W.length, (⟨t, []⟩ : LogEntry))])).2 := by
      unfold providerFor
      rw [hret, G.ok_bind]
      have : size (some s) = W.length := hsz
      rw [this]
      rfl
    refine ⟨_, hok, hsz, ?_, ?_⟩
    · rw [hL W.length (by simp), clip_eq (by rw [hlen]; omega), timeOf_snoc]
    · intro y _ hy
      have hy' := (hsp y).2 hy
      rw [hL y (by simp [hy']), clip_eq]
      have := hlt y hy'
      rw [hlen]; omega

/-- the answers of a provider that knows all timestamps -/
def full (f : Nat → Nat) (m : List (Nat × Nat)) : (q : Req) → G q.Resp
  | .ts x => .ok (f x)
  | q => nilAns m q

theorem previousRightmost_spec {cs : Log.Suite} {cfg : Config} {W : List LogEntry} {a : Option AState} {t : Nat}
    (hd : DescribesO cs W a) (hg : GoodTimes (timeOf (W ++ [⟨t, []⟩])) (W.length + 1)) (hn : W.length + 1 < 2 ^ 64) :
    ∃ r p, previousRightmost cfg a t = .ok (r, p) ∧
      IsGreatest' (fun y => Distinguished (Wide cfg.rmw) (timeOf (W ++ [⟨t, []⟩])) (W.length + 1) y ∧ y < W.length) r ∧
      ∀ y, Spine 0 (W.length + 1) y → p.timestamps.lookup y = some (timeOf (W ++ [⟨t, []⟩]) y) := by
  obtain ⟨p, hp, hsz, h1, h2⟩ := providerFor_spec hd hg (by omega)
  set f := timeOf (W ++ [⟨t, []⟩]) with hf
  have hlast : p.timestamps.lookup W.length = some (f W.length) := by rw [h1, hf, timeOf_snoc]
  have hA : TsOk (full f p.timestamps) f (W.length + 1) := fun x _ => rfl
  obtain ⟨r, hr, hmax⟩ := previousRightmost_eval (cfg := cfg) hA hg
  have hev : eval (nilAns p.timestamps) (Alg.previousRightmost cfg (W.length + 1)) = .ok r := by
    rw [← hr]
    refine (previousRightmost_asks (P := fun x => p.timestamps.lookup x = some (f x)) (fun y h0 hy => h2 y h0 hy) hlast).eval_congr ?_
    intro x hx
    change tsAns (p.timestamps.lookup x) = .ok (f x)
    rw [hx]
    rfl
  refine ⟨r, p, ?_, hmax, ?_⟩
  · unfold previousRightmost
    rw [hp, G.ok_bind, hsz, run_nil]
    simp only []
    rw [hev]
    rfl
  · intro y hy
    rcases Spine.succ W.length 0 (by omega) (by omega) hy with rfl | ⟨h3, h4⟩
    · exact hlast
    · exact h2 y h3 h4

theorem leafHash_len {cs : Log.Suite} (hcs : cs.Good) (e : LogEntry) : (leafHash cs e).length = cs.hashSize := hcs.len _

theorem updateState_spec {cs : Log.Suite} (hcs : cs.Good) {cfg : Config} {W : List LogEntry} {a : Option AState}
    {p : Provider Unit} {e : LogEntry} (added : List Prefix.Entry) (hd : DescribesO cs W a)
    (hg : GoodTimes (timeOf (W ++ [e])) (W.length + 1)) (hn : W.length + 1 < 2 ^ 64)
    (hp : ∀ y, Spine 0 (W.length + 1) y → p.timestamps.lookup y = some (timeOf (W ++ [e]) y)) :
    ∃ r s, updateState cs cfg a p added e = .ok s ∧ Describes cs (W ++ [e]) s ∧ s.signature = none ∧
      IsGreatest' (Distinguished (Wide cfg.rmw) (timeOf (W ++ [e])) (W.length + 1)) r ∧
      s.inserted = mergeInserted [] (added.map (fun e => ⟨W.length, e.vrf⟩)) r := by
  set f := timeOf (W ++ [e]) with hf
  have hsz : size a = W.length := by
    cases a with
    | none => have : W = [] := hd; subst this; rfl
    | some s => exact hd.size
  have hfs : subtreesOf a = LogSpec.heads cs.H (W.map (leafHash cs)) := by
    cases a with
    | none => have : W = [] := hd; subst this; simp [LogSpec.heads, subtreesOf]
    | some s => exact hd.heads
  have hleaf : e.hash cs = .ok (leafHash cs e) := rfl
  have happ : Log.append cs W.length (LogSpec.heads cs.H (W.map (leafHash cs))) (leafHash cs e) =
      .ok (LogSpec.heads cs.H ((W ++ [e]).map (leafHash cs))) := by
    have := Log.append_heads hcs (L := W.map (leafHash cs)) (x := leafHash cs e) (by
      intro v hv
      rcases List.mem_append.1 hv with hv | hv
      · obtain ⟨w, _, rfl⟩ := List.mem_map.1 hv; exact leafHash_len hcs w
      · rw [List.mem_singleton] at hv; rw [hv]; exact leafHash_len hcs e)
    rw [List.length_map] at this
    rw [this, List.map_append]
    rfl
  obtain ⟨fr, hfr, hsp, -, -, -⟩ := frontier_spine (n := W.length + 1) (by omega) hn
  have hlast : Spine 0 (W.length + 1) (W.length + 1 - 1) := n_spine_all _ (by omega)
  have hA : TsOk (full f p.timestamps) f (W.length + 1) := fun x _ => rfl
  obtain ⟨r, hr, hmax⟩ := rightmostDistinguished_eval (cfg := cfg) hA
  have hev : eval (nilAns p.timestamps) (rightmostDistinguished cfg (W.length + 1)) = .ok r := by
    rw [← hr]
    refine (rightmostDistinguished_asks (P := fun x => p.timestamps.lookup x = some (f x)) (by omega) hp (hp _ hlast)).eval_congr ?_
    intro x hx
    change tsAns (p.timestamps.lookup x) = .ok (f x)
    rw [hx]
    rfl
  have hmax' : IsGreatest' (Distinguished (Wide cfg.rmw) f (W.length + 1)) r := by
    cases r with
    | none => exact fun y hy => hmax y ((distinguished_code_iff hg).2 hy)
    | some x => exact ⟨(distinguished_code_iff hg).1 hmax.1, fun y hy => hmax.2 y ((distinguished_code_iff hg).2 hy)⟩
  refine ⟨r, ⟨e.timestamp, W.length + 1, none, LogSpec.heads cs.H ((W ++ [e]).map (leafHash cs)), fr.map f, e.prefixTree,
    mergeInserted [] (added.map (fun e => ⟨W.length, e.vrf⟩)) r⟩, ?_, ?_, rfl, hmax', rfl⟩
  · unfold updateState
    rw [hleaf, hsz, hfs, G.ok_bind, happ, G.ok_bind, hfr, G.ok_bind,
      newTimes_nil (f := f) p fr (fun x hx => hp x ((hsp x).1 hx))]
    simp only [G.ok_bind]
    rw [run_nil, hev]
    rfl
  · refine ⟨by simp, by simp, rfl, ?_, ?_, ⟨fr, by simpa using hfr, rfl⟩⟩
    · simp only [List.length_append, List.length_singleton, Nat.add_sub_cancel]
      rw [timeOf_snoc]
    · intro e' he'
      simp at he'
      rw [← he']
where
  n_spine_all (n : Nat) (h : 0 < n) : Spine 0 n (n - 1) := by
    have gen : ∀ m lo, n - lo ≤ m → lo < n → Spine lo n (n - 1) := by
      intro m
      induction m with
      | zero => intro lo h1 h2; omega
      | succ m ih =>
        intro lo h1 h2
        have hb := rt_bounds h2
        by_cases he : rt lo n = n - 1
        · rw [← he]; exact .here
        · exact .right (by omega) (ih _ (by omega) (by omega))
    exact gen n 0 (by omega) h

end Katie.Audit
