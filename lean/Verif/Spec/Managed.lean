import Verif.Model.Managed

/-
Specification for C41: what a service operator submits over a sequence of update requests.
-/

namespace Katie.ManagedSpec
open Katie Katie.Wire Katie.Managed

/-- serve the requests one after the other, all successfully: what was submitted to the manager -/
def serveAll (cfg : Config) (sign : Bytes → G Bytes) : List UpdateRequest → Counters → G (List ManagerUpdateRequest)
  | [], _ => pure []
  | req :: reqs, data =>
    match update cfg sign data req with
    | (.error e, _) => .error e
    | (.ok r, data) => do
      let rs ← serveAll cfg sign reqs data
      pure (r :: rs)

/-- the versions of label `l` that these submissions carry, in order -/
def versionsOf (l : Bytes) (rs : List ManagerUpdateRequest) : List Nat :=
  (rs.filter (fun r => r.label = l)).flatMap (fun r => (List.range r.values.length).map (r.signedVersion + ·))

/-- the number of values submitted for label `l` in each request -/
def batches (l : Bytes) (reqs : List UpdateRequest) : List Nat :=
  (reqs.filter (fun r => r.label = l)).map (fun r => r.values.length)

/-- every value of a submission carries the operator's signature over its label, version and value -/
def Signed (cfg : Config) (sign : Bytes → G Bytes) (r : ManagerUpdateRequest) : Prop :=
  ∀ i v, r.values[i]? = some v → ∃ tbs sig,
    updateTBS cfg r.label (r.signedVersion + i) v.value = .ok tbs ∧ sign tbs = .ok sig ∧ v.signature = some sig

/-- every value of a submission has a valid signature over its label, version and value; `verify` is the verification with
the operator's public key -/
def Verified (cfg : Config) (verify : Bytes → Bytes → Bool) (label : Bytes) (signed : Nat) (vs : List UpdateValue) : Prop :=
  ∀ i v, vs[i]? = some v → ∃ tbs, updateTBS cfg label ((signed + i) % 2 ^ 32) v.value = .ok tbs ∧ verify tbs (v.signature.getD []) = true

end Katie.ManagedSpec
