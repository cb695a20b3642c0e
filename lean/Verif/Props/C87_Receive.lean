import Verif.Spec.Receive
import Verif.Lemmas.ReceiveUpdate
import Verif.Lemmas.Sendable
import Verif.Lemmas.UpdateSound
import Verif.Lemmas.Structs
import Verif.Props.C44_C45_Heads

/-
C87: no response makes a client crash or hang.

The claim is false: a response to a search or to an initialization with a version of at least 2^31 - 1 makes the client run
forever (`C87_search_hangs`, `C87_init_hangs`), a response to an update with a short binary ladder makes it panic
(`C87_update_panics`), and so do the honest responses of C42 and C67.  Apart from these, it holds for all bytes
(`C87_search_partial`, …).
-/

namespace Katie.Props
open Katie Katie.Wire Katie.Alg Katie.Client Katie.ReceiveSpec Katie.Prefix Katie.Server Katie.ContactSpec Katie.Ladder

/-! ### the two notions -/

theorem answers_calm {α : Type} {r : G α} : Answers [] r ↔ Calm r := by
  constructor
  · rintro (⟨a, rfl⟩ | ⟨m, rfl⟩ | ⟨m, hm, -⟩)
    · exact .ok
    · exact .err
    · cases hm
  · intro h
    cases r with
    | ok a => exact .inl ⟨a, rfl⟩
    | error f =>
      obtain ⟨m, rfl⟩ := h f rfl
      exact .inr (.inl ⟨m, rfl⟩)

theorem answers_of {α : Type} {r : G α} {ms : List String} (h : ∀ f, r = .error f → IsErr f ∨ ∃ m ∈ ms, f = .panic m) : Answers ms r := by
  cases r with
  | ok a => exact .inl ⟨a, rfl⟩
  | error f =>
    rcases h f rfl with ⟨m, rfl⟩ | ⟨m, hm, rfl⟩
    · exact .inr (.inl ⟨m, rfl⟩)
    · exact .inr (.inr ⟨m, hm, rfl⟩)

/-! ### decoding -/

theorem fullTreeHead_rd {c : Config} : CalmRd (newFullTreeHead c) := by
  unfold newFullTreeHead newTreeHead newAuditorTreeHead
  refine .bind .num (fun _ => .ite .pure (.ite (.bind (.bind .num (fun _ => .bind .bytes (fun _ => .pure))) (fun _ => .ite ?_ .pure)) .err))
  exact .bind (.bind .num (fun _ => .bind .num (fun _ => .bind .bytes (fun _ => .pure)))) (fun _ => .pure)

theorem combined_rd {sz : Sizes} : CalmRd (newCombinedTreeProof sz) := by
  unfold newCombinedTreeProof newPrefixProof newRes
  refine .bind (.slice .num) (fun _ => .bind (.slice (.bind (.slice ?_) (fun _ => .bind (.slice .full) (fun _ => .pure)))) (fun _ =>
    .bind (.slice .full) (fun _ => .bind (.slice .full) (fun _ => .pure))))
  exact .bind .num (fun _ => .ite (.bind .num (fun _ => .pure)) (.ite (.bind .full (fun _ => .bind .full (fun _ => .bind .num (fun _ => .pure))))
    (.ite (.bind .num (fun _ => .pure)) .err)))

theorem step_rd {sz : Sizes} : CalmRd (newBinaryLadderStep sz) := by
  unfold newBinaryLadderStep
  exact .bind .full (fun _ => .bind (.opt .full) (fun _ => .pure))

theorem suffix_rd {c : Config} : CalmRd (newUpdateSuffix c) := by
  unfold newUpdateSuffix
  exact .ite .pure (.bind .bytes (fun _ => .pure))

theorem search_rd {c : Config} {sz : Sizes} {req : SearchRequest} : CalmRd (newSearchResponse c sz req) := by
  unfold newSearchResponse newUpdateValue newRespVersion
  refine .bind fullTreeHead_rd (fun _ => .bind ?_ (fun _ => .bind .full (fun _ => .bind (.bind .bytes (fun _ => .bind suffix_rd (fun _ => .pure)))
    (fun _ => .bind (.slice step_rd) (fun _ => .bind combined_rd (fun _ => .pure))))))
  split
  · exact .bind .num (fun _ => .pure)
  · exact .pure

theorem monitor_rd {c : Config} {sz : Sizes} : CalmRd (newMonitorResponse c sz) := by
  unfold newMonitorResponse
  exact .bind fullTreeHead_rd (fun _ => .bind combined_rd (fun _ => .pure))

theorem init_rd {c : Config} {sz : Sizes} : CalmRd (newOwnerInitResponse c sz) := by
  unfold newOwnerInitResponse
  exact .bind fullTreeHead_rd (fun _ => .bind (.slice .num) (fun _ => .bind (.slice step_rd) (fun _ => .bind combined_rd (fun _ => .pure))))

theorem update_rd {c : Config} {sz : Sizes} : CalmRd (newUpdateResponse c sz) := by
  unfold newUpdateResponse newLabelValue newUpdateInfo
  exact .bind fullTreeHead_rd (fun _ => .bind .num (fun _ => .bind (.slice .bytes) (fun _ => .bind (.slice (.bind .full (fun _ => .bind suffix_rd (fun _ => .pure))))
    (fun _ => .bind (.slice step_rd) (fun _ => .bind combined_rd (fun _ => .pure))))))

/-! ### what is assumed gives what is used -/

theorem keyed_of_newClient {c : Config} (h : newClient c = .ok ()) : Keyed c := by
  unfold newClient at h
  simp only [] at h
  by_cases hc : (if c.maxLifetime > 0 ∧ c.maxLifetime ≤ c.rmw then false else
      if c.mode = contactMonitoring then c.leafKey.isNone && c.auditorKey.isNone
      else if c.mode = thirdPartyManagement then c.leafKey.isSome && c.auditorKey.isNone
      else if c.mode = thirdPartyAuditing then c.leafKey.isNone && c.auditorKey.isSome
      else false) = true
  · split at hc
    · cases hc
    · constructor
      · intro hm hn
        rw [hm, hn] at hc
        revert hc
        simp [thirdPartyManagement, contactMonitoring]
      · intro hm hn
        rw [hm, hn] at hc
        revert hc
        simp [thirdPartyManagement, contactMonitoring, thirdPartyAuditing]
  · rw [if_pos hc] at h
    cases h

theorem _root_.Katie.ReceiveSpec.Ready.equipped {env : CEnv} (h : Ready env) : Equipped env :=
  ⟨⟨by have := h.long; omega, h.hash⟩, fun a b => answers_calm.1 (h.vrf a b), keyed_of_newClient h.accepted⟩

theorem _root_.Katie.ReceiveSpec.Sane.modest {s : ClientState} {ls : ClientLabelState} (h : Sane s ls) : Modest s ls :=
  ⟨h.contact, fun o ho => ⟨(h.owner o ho).1, (h.owner o ho).2.1⟩⟩

theorem formed_of {env : CEnv} (h : 32 ≤ env.cs.hashSize) {fth : FullTreeHead} {proof : CombinedTreeProof} (h1 : fth.Typed env.cfg)
    (h2 : proof.Typed env.sz) : Formed env fth proof := by
  refine ⟨h1.1, fun q hq r hr => ?_⟩
  have := (h2.2.1 q hq).1 r hr
  cases r <;> simp only [ResTyped, Wire.Fits] at this <;> simp only [Prefix.Res.depth] <;> omega

section
variable {env : CEnv} (hr : Ready env) {now : Nat} {s : ClientState} (hs : Seen s) {label : Bytes} {st : CStore}
include hr hs

/-- **C87 for searches**, except for responses about very great versions. -/
theorem C87_search_partial {order : PMap → List (Nat × Nat)} (ho : IsOrder order) {version : Option Nat}
    (hl : ∀ ls, getLabelState env st label = .ok ls → Sane s ls) (raw : Bytes) (hv : SearchInRange env s label version raw) :
    Answers [] (receiveSearch env now order s label version st raw) := by
  rw [answers_calm]
  unfold receiveSearch
  refine .bind (search_rd raw) (fun r hres => ?_)
  obtain ⟨res, rest⟩ := r
  obtain ⟨h1, -, -, -, -, h6⟩ := ((codec_searchResponse _ _ _).canon _ _ _ hres).1
  refine search_receive hr.equipped ⟨hs.1, hs.2⟩ ho rfl (formed_of hr.long h1 h6) (fun t ht => ?_) (fun ls h => (hl ls h).modest)
  unfold targetOf searchRequest at ht
  simp only at ht
  split at ht
  · cases ht
    exact hv.1 _ rfl
  · cases ht
    exact hv.2 _ _ _ hres ‹_›
  · cases ht

/-- **C87 for the initialization of an owner**, except for responses with very great versions. -/
theorem C87_init_partial {ls : ClientLabelState} (hl : Sane s ls) {start : Nat} (raw : Bytes) (hv : InitInRange env raw) :
    Answers [] (receiveInit env now s ls label start st raw) := by
  rw [answers_calm]
  unfold receiveInit
  refine .bind (init_rd raw) (fun r hres => ?_)
  obtain ⟨res, rest⟩ := r
  obtain ⟨h1, -, -, h4⟩ := ((codec_ownerInitResponse _ _).canon _ _ _ hres).1
  exact ownerInit_receive hr.equipped ⟨hs.1, hs.2⟩ rfl (formed_of hr.long h1 h4) (hv _ _ hres) hl.modest

/-- **C87 for the monitoring by a contact**, except for the panic of C67. -/
theorem C87_contact_partial {ls : ClientLabelState} (hl : Sane s ls) (raw : Bytes) :
    Answers ["nil pointer dereference"] (receiveContact env now s ls label st raw) := by
  unfold receiveContact
  refine answers_of (fun f hf => ?_)
  have : NilOnly (newMonitorResponse env.cfg env.sz raw >>= fun r =>
      Client.contactMonitor env now (some s) ls ⟨getLast (some s), label, ls.contact⟩ r.1 st) := by
    refine .bind (P := fun r => ∃ rest, newMonitorResponse env.cfg env.sz raw = .ok (r.1, rest)) ⟨monitor_rd raw, fun a ha => ⟨a.2, ha⟩⟩ ?_
    rintro ⟨res, rest'⟩ ⟨rest, hres⟩
    obtain ⟨h1, h2⟩ := ((codec_monitorResponse _ _).canon _ _ _ hres).1
    exact contactMonitor_receive hr.equipped ⟨hs.1, hs.2⟩ rfl (formed_of hr.long h1 h2) hl.modest
  exact (this f hf).imp id (fun h => ⟨_, by simp, h⟩)

/-- **C87 for the monitoring by the owner**, except for the panic of C67. -/
theorem C87_owner_partial {ls : ClientLabelState} (hl : Sane s ls) {o : LabelOwnerState} (ho : ls.owner = some o) (raw : Bytes) :
    Answers ["nil pointer dereference"] (receiveOwner env now s ls o label st raw) := by
  unfold receiveOwner
  refine answers_of (fun f hf => ?_)
  have : NilOnly (newMonitorResponse env.cfg env.sz raw >>= fun r =>
      Client.ownerMonitor env now (some s) ls o ⟨getLast (some s), label, ls.contact, o.starting, greatestVersion o⟩ r.1 st) := by
    refine .bind (P := fun r => ∃ rest, newMonitorResponse env.cfg env.sz raw = .ok (r.1, rest)) ⟨monitor_rd raw, fun a ha => ⟨a.2, ha⟩⟩ ?_
    rintro ⟨res, rest'⟩ ⟨rest, hres⟩
    obtain ⟨h1, h2⟩ := ((codec_monitorResponse _ _).canon _ _ _ hres).1
    exact ownerMonitor_receive hr.equipped ⟨hs.1, hs.2⟩ ho (hl.owner o ho).2.2 rfl (formed_of hr.long h1 h2) hl.modest
  exact (this f hf).imp id (fun h => ⟨_, by simp, h⟩)

/-- **C87 for updates**, except for the panic of `C87_update_panics`.  A response holds at most 255 new versions, so it is
enough that the label has no more than 2^31 - 257. -/
theorem C87_update_partial {sv : Stream} (hst : sv.state = some s) (hl : Sane s sv.ls) {o : LabelOwnerState} (ho : sv.ls.owner = some o)
    (hfew : o.verAtStarting + o.upcomingVers.length + 255 < tooGreat) (raw : Bytes) :
    Answers ["index out of range"] (receiveUpdate env now sv st raw) := by
  unfold receiveUpdate
  refine answers_of (fun f hf => ?_)
  cases hres : newUpdateResponse env.cfg env.sz raw with
  | error e =>
    rw [hres] at hf
    cases hf
    exact .inl (update_rd raw _ hres)
  | ok r =>
    obtain ⟨res, rest⟩ := r
    rw [hres, G.ok_bind] at hf
    obtain ⟨⟨h1, h2, h3, h4, h5⟩, b, hb, -⟩ := (codec_updateResponse _ _).canon _ _ _ hres
    have hlen : res.info.length ≤ 255 := by
      by_contra hc
      unfold UpdateResponse.marshal at hb
      have hbad : wSlice 1 "update info" UpdateInfo.marshal res.info = goErr ("update info" ++ " list is too long to marshal") := by
        unfold wSlice
        rw [if_pos (by omega)]
      rw [hbad] at hb
      revert hb
      unfold wSeq
      cases res.fullTreeHead.marshal <;> cases wNum 8 res.position <;> cases wSlice 1 "label value" marshalLabelValue res.values <;> simp [goErr]
    unfold tooGreat at hfew
    rcases update_safe hr.equipped hst ⟨hs.1, hs.2⟩ ho (formed_of hr.long h1 h5) (by omega) hl.modest f hf with h | ⟨h, -⟩
    · exact .inl h
    · exact .inr ⟨_, by simp, h⟩

end

/-! ### the responses that make a client run forever or panic -/

/-- the proof with nothing in it -/
def nothing : CombinedTreeProof := ⟨[], [], [], []⟩

theorem nothing_typed {sz : Sizes} : nothing.Typed sz :=
  ⟨by simp [nothing, Each], by simp [nothing, Each], by simp [nothing, Each], by simp [nothing, Each]⟩

theorem nothing_encodes : Encodes nothing.marshal := ⟨_, rfl⟩

theorem sameHead_typed {c : Config} : (⟨none, none⟩ : FullTreeHead).Typed c := ⟨by simp [Maybe], by simp [Maybe], by simp⟩

theorem sameHead_encodes : Encodes (⟨none, none⟩ : FullTreeHead).marshal := ⟨_, rfl⟩

theorem decodes_of {α : Type} {P : α → Prop} {w : α → G Bytes} {r : Rd α} (hc : Codec P w r) {a : α} (hp : P a) (he : Encodes (w a)) :
    ∃ raw, r raw = .ok (a, []) := by
  obtain ⟨b, hb⟩ := he
  exact ⟨b, by simpa using hc.rt a b [] hp hb⟩

theorem retained_verifier {s : ClientState} (h : Retained s) (proof : CombinedTreeProof) (fth : FullTreeHead) (hf : fth.treeHead = none) :
    ∃ v, newVerifier (some s) (getLast (some s)) fth proof = .ok v := by
  obtain ⟨n, E, f, h1, h2, h3, h4⟩ := h
  unfold newVerifier retainedProvider treeSizeOf
  simp only
  rw [h4, addRetained_tables h1 h2 h3, hf]
  exact ⟨_, rfl⟩

theorem great_ladder {t : Nat} (h1 : tooGreat ≤ t) (h2 : t < 2 ^ 32) : searchBinaryLadder t t [] [] = .error .diverge := by
  unfold searchBinaryLadder baseBinaryLadder
  rw [base_diverges h1 h2]
  rfl

/-- **A response to a search for the greatest version makes the client run forever**, whatever it has stored and whatever
the label is: it says that the greatest version is `2^31 - 1` or more.  The ladder is computed before anything of the proof
is verified.  (In the third-party management mode the signature of the manager is checked first.) -/
theorem C87_search_hangs {env : CEnv} {now : Nat} {s : ClientState} {label : Bytes} {st : CStore} {order : PMap → List (Nat × Nat)}
    (hm : env.cfg.mode ≠ thirdPartyManagement) (hs : Retained s) {v : Nat} (hv : tooGreat ≤ v) (hv' : v < 2 ^ 32) :
    ∃ raw, receiveSearch env now order s label none st raw = .error .diverge := by
  obtain ⟨raw, hraw⟩ := decodes_of (codec_searchResponse env.cfg env.sz (searchRequest (some s) label none))
    (a := ⟨⟨none, none⟩, some v, List.replicate env.sz.opening 0, ⟨[], none⟩, [], nothing⟩)
    ⟨sameHead_typed, ⟨by rintro a ⟨⟩; simp only [Wire.Fits]; omega, by simp [searchRequest]⟩, by simp, by simpa [UpdateValue.Typed, SuffixTyped] using hm,
      by simp [Each], nothing_typed⟩
    (.seq sameHead_encodes (.seq ⟨_, rfl⟩ (.seq ⟨_, rfl⟩ (.seq ⟨_, rfl⟩ (.seq ⟨_, rfl⟩ nothing_encodes)))))
  refine ⟨raw, ?_⟩
  unfold receiveSearch
  rw [hraw, G.ok_bind]
  obtain ⟨w, hw⟩ := retained_verifier hs nothing ⟨none, none⟩ rfl
  unfold Client.search verifySearch
  simp only [searchRequest, targetOf, verifyUpdateValue]
  rw [hw]
  simp only [G.pure_eq, G.ok_bind]
  rw [if_pos hm, great_ladder hv hv']
  rfl

/-- **A response to the initialization of an owner makes the client run forever**, in all modes. -/
theorem C87_init_hangs {env : CEnv} {now : Nat} {s : ClientState} {ls : ClientLabelState} {label : Bytes} {st : CStore} {start : Nat}
    (hs : Retained s) {v : Nat} (hv : tooGreat ≤ v) (hv' : v < 2 ^ 32) :
    ∃ raw, receiveInit env now s ls label start st raw = .error .diverge := by
  obtain ⟨raw, hraw⟩ := decodes_of (codec_ownerInitResponse env.cfg env.sz) (a := ⟨⟨none, none⟩, [v], [], nothing⟩)
    ⟨sameHead_typed, by simp only [Each, List.mem_singleton, forall_eq, Wire.Fits]; omega, by simp [Each], nothing_typed⟩
    (.seq sameHead_encodes (.seq ⟨_, rfl⟩ (.seq ⟨_, rfl⟩ nothing_encodes)))
  refine ⟨raw, ?_⟩
  unfold receiveInit
  rw [hraw, G.ok_bind]
  obtain ⟨w, hw⟩ := retained_verifier hs nothing ⟨none, none⟩ rfl
  unfold Client.ownerInit allLadderVersions ladders
  simp only
  rw [hw, great_ladder hv hv']
  rfl

theorem empty_ladder_panics {startVer : Nat} : ∀ {l : List Nat}, (∃ v ∈ l, startVer ≤ v) → noNewCommitments startVer l [] = goPanic "index out of range"
  | [], ⟨v, hv, _⟩ => by cases hv
  | a :: l, ⟨v, hv, h⟩ => by
    unfold noNewCommitments
    by_cases ha : a ≥ startVer
    · rw [if_pos ha]
    · rw [if_neg ha]
      rcases List.mem_cons.1 hv with rfl | hv
      · exact absurd h ha
      · exact empty_ladder_panics ⟨v, hv, h⟩

theorem commitments_ok {env : CEnv} {label : Bytes} (hlab : label.length ≤ 255) (hm : env.cfg.mode ≠ thirdPartyManagement) {start : Nat}
    {info : UpdateInfo} (hi : info.signature = none) : ∀ (k i : Nat), ∃ c, updateCommitments env label start i (List.replicate k ([], info)) = .ok c
  | 0, _ => ⟨_, rfl⟩
  | k + 1, i => by
    obtain ⟨c, hc⟩ := commitments_ok hlab hm hi k (i + 1)
    rw [List.replicate_succ]
    unfold updateCommitments verifyUpdateValue computeCommitment commitmentValue wBytes
    simp only [hi]
    rw [if_pos hm, if_neg (by simp), hc, if_neg (by omega)]
    exact ⟨_, rfl⟩

/-- some of 254 consecutive numbers is not in a list of 62 -/
theorem gap {l : List Nat} (h : l.length ≤ 62) (s : Nat) : ∃ v, s ≤ v ∧ v < s + 254 ∧ v ∉ l := by
  by_contra hc
  push Not at hc
  have hsub : List.map (s + ·) (List.range 254) ⊆ l := by
    intro v hv
    obtain ⟨i, hi, rfl⟩ := List.mem_map.1 hv
    exact hc _ (by omega) (by have := List.mem_range.1 hi; omega)
  have hn : (List.map (s + ·) (List.range 254)).Nodup := List.nodup_range.map (fun a b h => by simpa using h)
  have := (hn.subperm hsub).length_le
  simp at this
  omega

theorem search_ladder_short {t : Nat} (h : t < 2 ^ 31 - 1) : ∃ l, searchBinaryLadder t t [] [] = .ok l ∧ l.length ≤ 62 := by
  obtain ⟨b, h1, h2, -⟩ := ladder_self h
  obtain ⟨l, h3, -, h4, -⟩ := baseBinaryLadder_ok h
  rw [h2] at h3
  cases h3
  exact ⟨_, h1, h4⟩

/-- **A response to an update makes the owner panic**, whatever they have stored, whatever the label is, and whatever they
asked for: it holds 255 new versions and an empty ladder.  The number of the steps is checked after they are used. -/
theorem C87_update_panics {env : CEnv} {now : Nat} {st : CStore} {sv : Stream} (hm : env.cfg.mode ≠ thirdPartyManagement)
    (hlab : sv.req.label.length ≤ 255) {o : LabelOwnerState} (ho : sv.ls.owner = some o) (h1 : -1 ≤ o.verAtStarting)
    (h2 : o.verAtStarting + o.upcomingVers.length + 255 < tooGreat) :
    ∃ raw, receiveUpdate env now sv st raw = .error (.panic "index out of range") := by
  let info : UpdateInfo := ⟨List.replicate env.sz.opening 0, none⟩
  obtain ⟨raw, hraw⟩ := decodes_of (codec_updateResponse env.cfg env.sz)
    (a := ⟨⟨none, none⟩, 0, List.replicate 255 [], List.replicate 255 info, [], nothing⟩)
    ⟨sameHead_typed, by simp [Wire.Fits], by
      intro i hi
      rw [(List.mem_replicate.1 hi).2]
      exact ⟨by simp [info], by simpa [SuffixTyped, info] using hm⟩, by simp [Each], nothing_typed⟩
    (.seq sameHead_encodes (.seq ⟨_, rfl⟩ (.seq (wSlice_encodes (by rw [List.length_replicate]; omega) (fun a ha => by rw [(List.mem_replicate.1 ha).2]; exact ⟨_, rfl⟩))
      (.seq (wSlice_encodes (by rw [List.length_replicate]; omega) (fun a ha => by rw [(List.mem_replicate.1 ha).2]; exact ⟨_, rfl⟩)) (.seq ⟨_, rfl⟩ nothing_encodes)))))
  refine ⟨raw, ?_⟩
  unfold receiveUpdate
  rw [hraw, G.ok_bind]
  unfold tooGreat at h2
  have hfn : firstNew o + 254 < 2 ^ 31 - 1 := by unfold firstNew; omega
  have hg : greatestVersion o = if firstNew o = 0 then none else some (firstNew o - 1) := by
    unfold greatestVersion firstNew
    simp only
    by_cases hg : o.verAtStarting + o.upcomingVers.length ≥ 0
    · rw [if_pos hg, if_neg (by omega), Nat.mod_eq_of_lt (by omega)]
      congr 1
      omega
    · rw [if_neg hg, if_pos (by omega)]
  obtain ⟨c, hc⟩ := commitments_ok (env := env) (start := firstNew o) (info := info) hlab hm rfl 255 0
  have hladder : ∃ l, updateLadderVersions (firstNew o) (firstNew o + 254) = .ok l := by
    obtain ⟨le, hle, -⟩ := search_ladder_short (t := firstNew o + 254) hfn
    unfold updateLadderVersions
    rw [hle]
    simp only [G.ok_bind]
    by_cases h0 : firstNew o = 0
    · rw [if_pos h0]; exact ⟨_, rfl⟩
    · rw [if_neg h0]
      obtain ⟨d, hd, -⟩ := search_ladder_short (t := firstNew o - 1) (by omega)
      rw [hd]
      exact ⟨_, rfl⟩
  obtain ⟨l, hl⟩ := hladder
  have hbig : ∃ v ∈ l, firstNew o ≤ v := by
    obtain ⟨le, drop, -, hd, hmem⟩ := updateLadderVersions_mem hl
    have hshort : drop.length ≤ 62 := by
      by_cases h0 : firstNew o = 0
      · rw [if_pos h0] at hd; simp [hd]
      · rw [if_neg h0] at hd
        obtain ⟨d, hd', hlen⟩ := search_ladder_short (t := firstNew o - 1) (by omega)
        rw [hd] at hd'
        cases hd'
        exact hlen
    obtain ⟨v, hv1, hv2, hv3⟩ := gap hshort (firstNew o)
    exact ⟨v, (hmem v).2 ⟨.inr ⟨hv1, hv2⟩, hv3⟩, hv1⟩
  have hvals : verifyValues env sv (List.replicate 255 []) ⟨⟨none, none⟩, 0, List.replicate 255 [], List.replicate 255 info, [], nothing⟩
      = .ok (firstNew o, c) := by
    unfold verifyValues
    rw [if_neg (by simp only [List.length_replicate]; omega), ho]
    simp only [hg]
    rw [List.zip_replicate, Nat.min_self]
    by_cases h0 : firstNew o = 0
    · rw [if_pos h0]
      rw [h0] at hc
      simp only [hc, h0]
      rfl
    · rw [if_neg h0]
      simp only
      rw [show (firstNew o - 1 + 1) % 2 ^ 32 = firstNew o by rw [Nat.mod_eq_of_lt (by omega)]; omega, hc]
      rfl
  unfold Stream.verify
  simp only [List.length_replicate]
  rw [if_neg (by omega), hvals, G.ok_bind]
  simp only
  rw [Nat.mod_eq_of_lt (by omega), hl, G.ok_bind, empty_ladder_panics hbig]
  rfl

/-! ### the theorems are about something -/

/-- a hash function with 32 bytes of output -/
def wideSuite : Log.Suite := ⟨fun b => List.replicate 32 (b.foldl (fun a x => 3 * a + x) 7), 32⟩

/-- a client with it -/
def wideClient : CEnv := { toyClient with cs := wideSuite, sz := ⟨32, 1, 1⟩ }

/-- what it has stored -/
def wideState : ClientState := ⟨⟨2, [244]⟩, some ⟨6, 2, [0]⟩, [List.replicate 32 46], [(1, ⟨6, List.replicate 32 168⟩)]⟩

/-- what it has stored about a label that it owns -/
def wideLabel : ClientLabelState := { contact := [⟨1, 3⟩], owner := some ⟨0, 0, [1]⟩, versions := [] }

theorem wideReady : Ready wideClient :=
  ⟨by decide, by decide, fun _ => by simp [wideClient, wideSuite], fun _ _ => .inl ⟨_, rfl⟩⟩

theorem wideSeen : Seen wideState := by unfold Seen wideState; decide

theorem wideSane : Sane wideState wideLabel := by
  refine ⟨fun e he => ?_, fun o ho => ?_⟩
  · simp only [wideLabel, List.mem_singleton] at he
    subst he
    decide
  · cases ho
    decide

theorem wideRetained : Retained wideState :=
  ⟨2, fun _ => ⟨6, List.replicate 32 168⟩, [1], ⟨fun _ _ _ _ => le_refl _, fun _ _ => by simp⟩, by decide, by decide, rfl⟩

example (raw : Bytes) : Answers ["nil pointer dereference"] (receiveOwner wideClient 7 wideState wideLabel ⟨0, 0, [1]⟩ [10] {} raw) :=
  C87_owner_partial wideReady wideSeen wideSane rfl raw

example (raw : Bytes) (h : InitInRange wideClient raw) : Answers [] (receiveInit wideClient 7 wideState wideLabel [10] 0 {} raw) :=
  C87_init_partial wideReady wideSeen wideSane raw h

example (raw : Bytes) (h : SearchInRange wideClient wideState [10] none raw) : Answers [] (receiveSearch wideClient 7 id wideState [10] none {} raw) :=
  C87_search_partial wideReady wideSeen (fun _ => .refl _) (fun ls hl => by
    have : ls = { contact := [], owner := none, versions := [] } := by
      revert hl
      unfold getLabelState parseLabelState
      intro hl
      exact (Except.ok.inj hl).symm
    subst this
    exact ⟨fun e he => (by cases he), fun o ho => (by cases ho)⟩) raw h

example : ∃ raw, receiveSearch wideClient 7 id wideState [10] none {} raw = .error .diverge :=
  C87_search_hangs (by decide) wideRetained (v := 2 ^ 31) (by decide) (by decide)

example : ∃ raw, receiveUpdate wideClient 7 ⟨some wideState, wideLabel, ⟨some 2, [10], some 1, [[1]]⟩⟩ {} raw = .error (.panic "index out of range") :=
  C87_update_panics (o := ⟨0, 0, [1]⟩) (by decide) (by decide) rfl (by decide) (by decide)

end Katie.Props
