import Verif.Lemmas.Structs

/-
C48: the byte strings that are signed, committed to, hashed into the log, or given to the VRF are unambiguous.

Each theorem takes two inputs whose encodings are equal and concludes that the inputs are equal.
-/

namespace Katie.Props
open Katie Katie.Wire

/-- The fields of a configuration that its mode uses are in the range of their Go types. -/
structure ConfigTyped (c : Config) : Prop where
  suite : c.suite < 2 ^ 16
  mode : c.mode < 2 ^ 8
  maxAuditorLag : c.maxAuditorLag < 2 ^ 64
  auditorStartPos : c.auditorStartPos < 2 ^ 64
  maxAhead : c.maxAhead < 2 ^ 64
  maxBehind : c.maxBehind < 2 ^ 64
  rmw : c.rmw < 2 ^ 64
  maxLifetime : c.maxLifetime < 2 ^ 64

/-- The two configurations agree in everything that matters in their mode. -/
structure SameConfig (c d : Config) : Prop where
  suite : c.suite = d.suite
  mode : c.mode = d.mode
  sigKey : c.sigKey = d.sigKey
  vrfKey : c.vrfKey = d.vrfKey
  leafKey : c.mode = 2 → c.leafKey = d.leafKey
  maxAuditorLag : c.mode = 3 → c.maxAuditorLag = d.maxAuditorLag
  auditorStartPos : c.mode = 3 → c.auditorStartPos = d.auditorStartPos
  auditorKey : c.mode = 3 → c.auditorKey = d.auditorKey
  maxAhead : c.maxAhead = d.maxAhead
  maxBehind : c.maxBehind = d.maxBehind
  rmw : c.rmw = d.rmw
  maxLifetime : c.maxLifetime = d.maxLifetime

theorem fits64 {n : Nat} (h : n < 2 ^ 64) : Fits 8 n := by unfold Fits; omega

/-- **The encoding of the configuration is unambiguous** and cannot be confused with one followed by other
bytes. -/
theorem C48_config (c d : Config) (hc : ConfigTyped c) (hd : ConfigTyped d) (b b' s s' : Bytes)
    (hb : marshalConfig c = .ok b) (hb' : marshalConfig d = .ok b') (h : b ++ s = b' ++ s') :
    SameConfig c d ∧ s = s' := by
  unfold marshalConfig at hb hb'
  obtain ⟨hsuite, b, b', hb, hb', h⟩ := seq_sep (codec_num 2) (by unfold Fits; have := hc.suite; omega)
    (by unfold Fits; have := hd.suite; omega) hb hb' h
  obtain ⟨hmode, b, b', hb, hb', h⟩ := seq_sep (codec_num 1) (by unfold Fits; have := hc.mode; omega)
    (by unfold Fits; have := hd.mode; omega) hb hb' h
  obtain ⟨hsig, b, b', hb, hb', h⟩ := seq_sep (codec_bytes 2 _) trivial trivial hb hb' h
  obtain ⟨hvrf, b, b', hb, hb', h⟩ := seq_sep (codec_bytes 2 _) trivial trivial hb hb' h
  obtain ⟨x, e, hx, he, rfl⟩ := wSeq_ok.1 hb
  obtain ⟨x', e', hx', he', rfl⟩ := wSeq_ok.1 hb'
  rw [List.append_assoc, List.append_assoc] at h
  have hmid : (c.mode = 2 → c.leafKey = d.leafKey) ∧ (c.mode = 3 → c.maxAuditorLag = d.maxAuditorLag) ∧
      (c.mode = 3 → c.auditorStartPos = d.auditorStartPos) ∧ (c.mode = 3 → c.auditorKey = d.auditorKey) ∧
      e ++ s = e' ++ s' := by
    unfold modePart at hx hx'
    rw [← hmode] at hx'
    by_cases h2 : c.mode = thirdPartyManagement
    · rw [if_pos h2] at hx hx'
      have h3 : c.mode ≠ 3 := by rw [h2]; decide
      obtain ⟨k, hk, hx⟩ := G.bind_eq_ok.1 hx
      obtain ⟨k', hk', hx'⟩ := G.bind_eq_ok.1 hx'
      obtain ⟨hkk, h⟩ := codec_sep (codec_bytes 2 _) trivial trivial hx hx' h
      refine ⟨fun _ => ?_, fun h => absurd h h3, fun h => absurd h h3, fun h => absurd h h3, h⟩
      rcases hl : c.leafKey with _ | l <;> rw [hl] at hk <;> cases hk
      rcases hl' : d.leafKey with _ | l' <;> rw [hl'] at hk' <;> cases hk'
      rw [hkk]
    · rw [if_neg h2] at hx hx'
      have h2' : c.mode ≠ 2 := h2
      by_cases h3 : c.mode = thirdPartyAuditing
      · rw [if_pos h3] at hx hx'
        obtain ⟨e1, y, y', hy, hy', h⟩ := seq_sep (codec_num 8) (fits64 hc.maxAuditorLag) (fits64 hd.maxAuditorLag)
          hx hx' h
        obtain ⟨e2, y, y', hy, hy', h⟩ := seq_sep (codec_num 8) (fits64 hc.auditorStartPos)
          (fits64 hd.auditorStartPos) hy hy' h
        obtain ⟨k, hk, hy⟩ := G.bind_eq_ok.1 hy
        obtain ⟨k', hk', hy'⟩ := G.bind_eq_ok.1 hy'
        obtain ⟨hkk, h⟩ := codec_sep (codec_bytes 2 _) trivial trivial hy hy' h
        refine ⟨fun h => absurd h h2', fun _ => e1, fun _ => e2, fun _ => ?_, h⟩
        rcases hl : c.auditorKey with _ | l <;> rw [hl] at hk <;> cases hk
        rcases hl' : d.auditorKey with _ | l' <;> rw [hl'] at hk' <;> cases hk'
        rw [hkk]
      · rw [if_neg h3] at hx hx'
        have h3' : c.mode ≠ 3 := h3
        cases hx; cases hx'
        exact ⟨fun h => absurd h h2', fun h => absurd h h3', fun h => absurd h h3', fun h => absurd h h3', h⟩
  obtain ⟨m1, m2, m3, m4, h⟩ := hmid
  obtain ⟨ha, b, b', hb, hb', h⟩ := seq_sep (codec_num 8) (fits64 hc.maxAhead) (fits64 hd.maxAhead) he he' h
  obtain ⟨hbe, b, b', hb, hb', h⟩ := seq_sep (codec_num 8) (fits64 hc.maxBehind) (fits64 hd.maxBehind) hb hb' h
  obtain ⟨hr, b, b', hb, hb', h⟩ := seq_sep (codec_num 8) (fits64 hc.rmw) (fits64 hd.rmw) hb hb' h
  obtain ⟨hl, h⟩ := codec_sep codec_mayWNum8 (fits64 hc.maxLifetime) (fits64 hd.maxLifetime) hb hb' h
  exact ⟨⟨hsuite, hmode, hsig, hvrf, m1, m2, m3, m4, ha, hbe, hr, hl⟩, h⟩

/-- comparing two encodings that begin with a configuration -/
theorem config_sep {c d : Config} (hc : ConfigTyped c) (hd : ConfigTyped d) {v v' : G Bytes} {b : Bytes}
    (hb : (marshalConfig c +> v) = .ok b) (hb' : (marshalConfig d +> v') = .ok b) :
    SameConfig c d ∧ ∃ y, v = .ok y ∧ v' = .ok y := by
  obtain ⟨x, y, hx, hy, rfl⟩ := wSeq_ok.1 hb
  obtain ⟨x', y', hx', hy', he⟩ := wSeq_ok.1 hb'
  obtain ⟨h1, rfl⟩ := C48_config c d hc hd x x' y y' hx hx' he
  exact ⟨h1, y, hy, hy'⟩

/-- A signed tree head determines the configuration, the tree size and the root. -/
theorem C48_tree_head (c d : Config) (hc : ConfigTyped c) (hd : ConfigTyped d) (n n' : Nat) (hn : n < 2 ^ 64)
    (hn' : n' < 2 ^ 64) (root root' b : Bytes) (hb : treeHeadTBS c n root = .ok b)
    (hb' : treeHeadTBS d n' root' = .ok b) : SameConfig c d ∧ n = n' ∧ root = root' := by
  obtain ⟨h1, y, hy, hy'⟩ := config_sep hc hd hb hb'
  obtain ⟨h2, z, z', hz, hz', he⟩ := seq_sep (codec_num 8) (fits64 hn) (fits64 hn') (s := []) (s' := []) hy hy' rfl
  cases hz; cases hz'
  exact ⟨h1, h2, by simpa using he⟩

/-- A head signed by the auditor determines the configuration, the timestamp, the tree size and the root. -/
theorem C48_auditor_tree_head (c d : Config) (hc : ConfigTyped c) (hd : ConfigTyped d) (t t' n n' : Nat)
    (ht : t < 2 ^ 64) (ht' : t' < 2 ^ 64) (hn : n < 2 ^ 64) (hn' : n' < 2 ^ 64) (root root' b : Bytes)
    (hb : auditorTreeHeadTBS c t n root = .ok b) (hb' : auditorTreeHeadTBS d t' n' root' = .ok b) :
    SameConfig c d ∧ t = t' ∧ n = n' ∧ root = root' := by
  obtain ⟨h1, y, hy, hy'⟩ := config_sep hc hd hb hb'
  obtain ⟨h2, z, z', hz, hz', he⟩ := seq_sep (codec_num 8) (fits64 ht) (fits64 ht') (s := []) (s' := []) hy hy' rfl
  obtain ⟨h3, w, w', hw, hw', he⟩ := seq_sep (codec_num 8) (fits64 hn) (fits64 hn') hz hz' he
  cases hw; cases hw'
  exact ⟨h1, h2, h3, by simpa using he⟩

/-- A signed update determines the configuration, the label, the version and the value. -/
theorem C48_update (c d : Config) (hc : ConfigTyped c) (hd : ConfigTyped d) (label label' : Bytes) (ver ver' : Nat)
    (hv : ver < 2 ^ 32) (hv' : ver' < 2 ^ 32) (value value' b : Bytes) (hb : updateTBS c label ver value = .ok b)
    (hb' : updateTBS d label' ver' value' = .ok b) :
    SameConfig c d ∧ label = label' ∧ ver = ver' ∧ value = value' := by
  obtain ⟨h1, y, hy, hy'⟩ := config_sep hc hd hb hb'
  obtain ⟨h2, z, z', hz, hz', he⟩ := seq_sep (codec_bytes 1 _) trivial trivial (s := []) (s' := []) hy hy' rfl
  obtain ⟨h3, w, w', hw, hw', he⟩ := seq_sep (codec_num 4) (by unfold Fits; omega) (by unfold Fits; omega) hz hz' he
  obtain ⟨h4, _⟩ := codec_sep (codec_bytes 4 _) trivial trivial hw hw' he
  exact ⟨h1, h2, h3, h4⟩

/-- A committed value determines the label, the version, the value and (in third-party management mode) the
signature. -/
theorem C48_commitment (c : Config) (label label' : Bytes) (ver ver' : Nat) (hv : ver < 2 ^ 32) (hv' : ver' < 2 ^ 32)
    (u u' : UpdateValue) (hu : u.Typed c) (hu' : u'.Typed c) (b : Bytes) (hb : commitmentValue label ver u = .ok b)
    (hb' : commitmentValue label' ver' u' = .ok b) : label = label' ∧ ver = ver' ∧ u = u' := by
  obtain ⟨h2, z, z', hz, hz', he⟩ := seq_sep (codec_bytes 1 _) trivial trivial (s := []) (s' := []) hb hb' rfl
  obtain ⟨h3, w, w', hw, hw', he⟩ := seq_sep (codec_num 4) (by unfold Fits; omega) (by unfold Fits; omega) hz hz' he
  obtain ⟨h4, _⟩ := codec_sep (codec_updateValue c) hu hu' hw hw' he
  exact ⟨h2, h3, h4⟩

/-- The input of the VRF determines the label and the version. -/
theorem C48_vrf_input (label label' : Bytes) (ver ver' : Nat) (hv : ver < 2 ^ 32) (hv' : ver' < 2 ^ 32) (b : Bytes)
    (hb : vrfInput label ver = .ok b) (hb' : vrfInput label' ver' = .ok b) : label = label' ∧ ver = ver' := by
  obtain ⟨h2, z, z', hz, hz', he⟩ := seq_sep (codec_bytes 1 _) trivial trivial (s := []) (s' := []) hb hb' rfl
  obtain ⟨h3, _⟩ := codec_sep (codec_num 4) (by unfold Fits; omega) (by unfold Fits; omega) hz hz' he
  exact ⟨h2, h3⟩

/-- The hashed form of a log entry determines the timestamp and the root of the prefix tree. -/
theorem C48_log_entry (e e' : LogEntry) (he : e.timestamp < 2 ^ 64) (he' : e'.timestamp < 2 ^ 64) (b : Bytes)
    (hb : e.marshal = .ok b) (hb' : e'.marshal = .ok b) : e = e' := by
  obtain ⟨h2, z, z', hz, hz', h⟩ := seq_sep (codec_num 8) (fits64 he) (fits64 he') (s := []) (s' := []) hb hb' rfl
  cases hz; cases hz'
  obtain ⟨t, p⟩ := e
  obtain ⟨t', p'⟩ := e'
  simp only [List.append_nil] at h h2
  rw [h2, h]

/-- A head signed by the service cannot be passed off as one signed by the auditor, whatever the keys. -/
theorem C48_head_kinds (c d : Config) (hc : ConfigTyped c) (hd : ConfigTyped d) (n t n' : Nat) (root root' b : Bytes)
    (hlen : root.length = root'.length) (hb : treeHeadTBS c n root = .ok b) :
    auditorTreeHeadTBS d t n' root' ≠ .ok b := by
  intro hb'
  obtain ⟨_, y, hy, hy'⟩ := config_sep hc hd hb hb'
  cases hy
  have := congrArg List.length (Except.ok.inj hy')
  simp only [List.length_append, putBE_length] at this
  omega

/-- There is no separation between tree heads and updates: with a tree size whose three low-order bytes are zero
(the first such tree has 2^24 entries) and a root whose first byte is 31, the signed head has the bytes of a
signed update for the empty label.  This matters only if the service uses one key for both. -/
theorem C48_no_domain_separation :
    let c : Config := { mode := thirdPartyManagement, leafKey := some [7] }
    ∃ (root value : Bytes) (b : Bytes), root.length = 32 ∧
      treeHeadTBS c (2 ^ 24) root = .ok b ∧ updateTBS c [] 1 value = .ok b :=
  ⟨31 :: List.replicate 31 5, List.replicate 31 5, _, rfl, rfl, by decide +kernel⟩

/-- two configurations that encode -/
example : (∃ b, marshalConfig { mode := thirdPartyAuditing, auditorKey := some [1, 2], rmw := 10 } = .ok b) ∧
    (∃ b, marshalConfig { mode := thirdPartyManagement, leafKey := some [3], maxLifetime := 10 } = .ok b) ∧
    ConfigTyped { mode := thirdPartyAuditing, auditorKey := some [1, 2], rmw := 10 } :=
  ⟨⟨_, rfl⟩, ⟨_, rfl⟩, ⟨by decide, by decide, by decide, by decide, by decide, by decide, by decide, by decide⟩⟩

/-- the kind of confusion excluded: moving a byte between label and version changes the VRF input -/
example : vrfInput [1, 0] 1 = .ok [2, 1, 0, 0, 0, 0, 1] ∧ vrfInput [1] 1 = .ok [1, 1, 0, 0, 0, 1] := by decide

end Katie.Props
