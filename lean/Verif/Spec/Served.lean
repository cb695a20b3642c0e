import Verif.Spec.Server
import Verif.Model.Client

/-
What it means that a client and a server belong together, for the theorems on honest responses.
-/

namespace Katie.ServedSpec
open Katie Katie.Wire Katie.Alg Katie.Ladder Katie.Server Katie.Client Katie.ServerSpec Katie.AuditSpec

/-- The client is configured for this server, and the public keys belong to the private ones: proofs of the VRF verify
and give the output, signatures verify. -/
structure ClientOf (env : Env) (cenv : CEnv) : Prop where
  cs : cenv.cs = env.cs
  cfg : cenv.cfg = env.cfg
  vrf : ∀ input, cenv.vrfVerify input (env.prove input).2 = .ok (env.prove input).1
  vrfLen : ∀ input, (env.prove input).1.length = env.cs.hashSize
  sig : ∀ tbs sig, env.sign tbs = .ok sig → cenv.sigVerify tbs sig = true

/-- The VRF outputs of the versions `V` of the label are different from each other, and from those of all versions of
labels that were ever in the log. -/
def VrfDistinct (env : Env) (cs : List Change) (l : Bytes) (V : List Nat) : Prop :=
  ∀ v ∈ V, ∀ l' v' o pr pr', (l' = l ∧ v' ∈ V ∨ ∃ k, v' < (versionsOf l' (cs.take k)).length) →
    computeVrf env l v = .ok (o, pr) → computeVrf env l' v' = .ok (o, pr') → l' = l ∧ v' = v

/-- entry `x` of the log -/
def entryAt (cs : Log.Suite) (us : List AuditorUpdate) (x : Nat) : LogEntry := (logOf cs us).getD x ⟨0, []⟩

/-- the leaves of the log tree -/
def logLeaves (cs : Log.Suite) (us : List AuditorUpdate) : List Bytes := (logOf cs us).map (leafHash cs)

/-- What a client keeps of a log of size `k`: the heads of the full subtrees and the entries of the frontier. -/
structure Keeps (env : Env) (us : List AuditorUpdate) (k : Nat) (full : List Bytes) (entries : List (Nat × LogEntry)) : Prop where
  full : full = LogSpec.heads env.cs.H ((logLeaves env.cs us).take k)
  entries : ∃ f, SearchTree.frontier k = .ok f ∧ entries = f.map (fun x => (x, entryAt env.cs us x))

/-- The client has no state, or one of an earlier size of the log. -/
def Behind (env : Env) (us : List AuditorUpdate) : Option ClientState → Prop
  | none => True
  | some s => 0 < s.treeHead.treeSize ∧ s.treeHead.treeSize < us.length ∧
      Keeps env us s.treeHead.treeSize s.fullSubtrees s.logEntries

/-- the clock agrees with the timestamp of the last entry -/
def InWindow (cfg : Config) (now ts : Nat) : Prop :=
  ¬ (now < ts ∧ ts - now > cfg.maxAhead) ∧ ¬ (now > ts ∧ now - ts > cfg.maxBehind)

/-- what the server has stored for a version: zeros and the empty value, if the version does not exist -/
def storedOf (env : Env) (vs : List Version) (v : Nat) : OpeningAndValue :=
  match vs[v]? with
  | some x => ⟨x.opening, x.value⟩
  | none => ⟨List.replicate env.sz.opening 0, ⟨[], none⟩⟩

/-- In third-party management mode, the operator's signature on the value verifies. -/
def LeafSigned (cenv : CEnv) (l : Bytes) (v : Nat) (val : UpdateValue) : Prop :=
  cenv.cfg.mode = thirdPartyManagement → verifyUpdateValue cenv l v val = .ok ()

/-- The steps of `verifySearch` (client.go:151-200, client_crypto.go:205-224) before the tree head is checked:
the terminal position, the verifier, what is to be retained, the root hash, and the root hash at the auditor's size. -/
def checkedSearch (env : CEnv) (now : Nat) (state : Option ClientState) (req : SearchRequest) (res : SearchResponse) :
    G (Nat × Verifier × Provider.Result × Bytes × Bytes) := do
  let v ← newVerifier state req.last res.fullTreeHead res.search
  let target ← targetOf req res
  verifyUpdateValue env req.label target res.value
  let ladder ← searchBinaryLadder target target [] []
  let commitment ← computeCommitment env res.opening req.label target res.value
  let v ← processLadder env req.label res.binaryLadder ladder [(target, commitment)] v
  let v ← v.updateView env now
  let (terminal, v) ← v.run env
    (if req.version = none then greatestVersionSearch env.cfg target v.n else fixedVersionSearch env.cfg target v.n)
  match v.p.finish env.cs (Received.handle env.cs) v.n v.nP v.m with
  | (.error e, _) => .error e
  | (.ok result, p) => do
    let root ← Log.root env.cs v.n result.fullSubtrees
    let rootP ← auditorRoot env v.nP result.additional
    pure (terminal, { v with p := p }, result, root, rootP)

/-- `verifySearch` is these steps, the check of the tree head, and the new state. -/
theorem verifySearch_eq (env : CEnv) (now : Nat) (state : Option ClientState) (req : SearchRequest) (res : SearchResponse) :
    verifySearch env now state req res = (do
      let (terminal, v, result, root, rootP) ← checkedSearch env now state req res
      let v ← verifyTreeHead env v root rootP
      let updated ← newState v result
      pure (terminal, updated, v)) := by
  unfold verifySearch checkedSearch
  cases newVerifier state req.last res.fullTreeHead res.search with
  | error e => rfl
  | ok v =>
  cases targetOf req res with
  | error e => rfl
  | ok target =>
  cases h3 : verifyUpdateValue env req.label target res.value with
  | error e => simp only [G.ok_bind, h3]; rfl
  | ok u =>
  cases h4 : searchBinaryLadder target target [] [] with
  | error e => simp only [G.ok_bind, h3, h4]; rfl
  | ok ladder =>
  cases h5 : computeCommitment env res.opening req.label target res.value with
  | error e => simp only [G.ok_bind, h3, h4, h5]; rfl
  | ok com =>
  cases h6 : processLadder env req.label res.binaryLadder ladder [(target, com)] v with
  | error e => simp only [G.ok_bind, h3, h4, h5, h6]; rfl
  | ok v =>
  cases h7 : v.updateView env now with
  | error e => simp only [G.ok_bind, h3, h4, h5, h6, h7]; rfl
  | ok v =>
  simp only [G.ok_bind, h3, h4, h5, h6, h7]
  cases h8 : v.run env
      (if req.version = none then greatestVersionSearch env.cfg target v.n else fixedVersionSearch env.cfg target v.n) with
  | error e => rfl
  | ok r =>
  obtain ⟨terminal, v⟩ := r
  simp only [G.ok_bind]
  unfold Verifier.finish
  cases h9 : v.p.finish env.cs (Received.handle env.cs) v.n v.nP v.m with
  | mk r p =>
  cases r with
  | error e => rfl
  | ok result =>
  simp only
  cases Log.root env.cs v.n result.fullSubtrees with
  | error e => rfl
  | ok root =>
  simp only [G.ok_bind]
  cases auditorRoot env v.nP result.additional with
  | error e => rfl
  | ok rootP =>
  simp only [G.ok_bind, G.pure_eq]
  cases verifyTreeHead env { v with p := p } root rootP with
  | error e => rfl
  | ok w =>
  simp only [G.ok_bind]
  cases newState w result with
  | error e => rfl
  | ok s => rfl

end Katie.ServedSpec
