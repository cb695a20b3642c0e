import Verif.Model.Handles
import Verif.Spec.Collision
import Verif.Spec.Prefix
import Verif.Spec.Search
import Verif.Lemmas.ClientRun
import Verif.Props.C10_C13_PrefixSound

/-
The log that a tree head commits to, as mathematics: a list of timestamps and finite maps.  And the strings that are
hashed, by whoever computes the tree head and by a client that checks a proof: the security theorems say "or two of
these strings are a collision".
-/

namespace Katie.CommittedSpec
open Katie Katie.Wire Katie.Alg

/-- the content of a log entry: its timestamp, and the map from VRF outputs to commitments in its prefix tree -/
structure Content where
  time : Nat
  map : List PrefixSpec.Pair
  deriving DecidableEq, Repr

/-- the log entry: the timestamp and the root of the prefix tree -/
def Content.entry (cs : Log.Suite) (c : Content) : LogEntry := ⟨c.time, PrefixSpec.rootHash cs.H cs.hashSize c.map⟩

/-- the string whose hash is the leaf of the log tree -/
def leafString (e : LogEntry) : Bytes := putBE 8 e.timestamp ++ e.prefixTree

/-- the leaves of the log tree -/
def leaves (cs : Log.Suite) (W : List Content) : List Bytes := W.map (fun c => cs.H (leafString (c.entry cs)))

/-- the root of the log tree, which a tree head signs -/
def logRoot (cs : Log.Suite) (W : List Content) : Bytes := LogSpec.rootHash cs.H (leaves cs W)

/-- Something that can be hashed as a log: timestamps are 64-bit numbers, and every prefix tree is that of a map. -/
structure WellFormed (cs : Log.Suite) (W : List Content) : Prop where
  maps : ∀ c ∈ W, PrefixSpec.IsMap cs.hashSize c.map
  times : ∀ c ∈ W, c.time < 2 ^ 64

/-- A log: it is well-formed, and timestamps do not decrease. -/
structure IsLog (cs : Log.Suite) (W : List Content) : Prop extends WellFormed cs W where
  mono : ∀ (i j : Nat) (a b : Content), i ≤ j → W[i]? = some a → W[j]? = some b → a.time ≤ b.time

/-- The versions of one label: `out v` is the VRF output of version `v`; entry `x` of the log contains the versions up
to `g x` and no others, and versions are not removed. -/
structure LabelIn (W : List Content) (out : Nat → Bytes) (g : Nat → Int) : Prop where
  versions : ∀ x c, W[x]? = some c → ∀ v, v < 2 ^ 32 → (out v ∈ c.map.map Prod.fst ↔ (v : Int) ≤ g x)
  grows : SearchSpec.Grows g W.length

/-- the strings hashed to compute the root of the log -/
def logStrings (cs : Log.Suite) (W : List Content) : List Bytes :=
  LogSpec.inputs cs.H (leaves cs W) ++ W.map (fun c => leafString (c.entry cs)) ++
    W.flatMap (fun c => PrefixSpec.rootInputs cs.H cs.hashSize c.map)

/-- the strings a client hashes in `Finish`: the leaves it has inspected, and the nodes of the log tree -/
def finishStrings (cs : Log.Suite) (n : Nat) (nP m : Option Nat) (p : Provider Received) : List Bytes :=
  match p.inspectedLeaves (Received.handle cs) with
  | (.error _, _) => []
  | (.ok ls, p) =>
    ls.map (fun e => leafString e.2) ++
    match (do
      let values ← Provider.leafHashes cs ls
      let v ← Provider.verifierFor cs m p.fullSubtrees
      Log.evaluate cs v (ls.map (·.1)) n nP values p.state.inner.inclusion : G Log.EvalResult) with
    | .ok res => LogSpec.evalInputs n res.nodes ++ LogSpec.rootInputs cs.H n res.fullSubtrees
    | .error _ => []

/-- the strings a client hashes when it evaluates prefix proofs -/
def proofStrings (cs : Log.Suite) (E : List (List Prefix.Entry × Prefix.Proof)) : List Bytes :=
  E.flatMap (fun e => Props.verifierInputs cs e.1 e.2)

/-- What the verifier of a prefix proof does not check (C10, C11), for one proof `pf` evaluated for the entries `es`: the
absence of a search key is not shown by naming its own leaf, and the leaf of a key that is shown present is not named
with another commitment.  The proofs of an honest server are like that. -/
def Consistent (es : List Prefix.Entry) (pf : Prefix.Proof) : Prop :=
  ∀ e r, (e, r) ∈ es.zip pf.results →
    if r.isInclusion then ∀ c d, Prefix.Res.nonInclusionLeaf e.vrf c d ∈ pf.results → c = e.com
    else ∀ c d, r ≠ .nonInclusionLeaf e.vrf c d

/-- the hash function is broken by these strings: two different ones, one from each list, have the same digest, or one
has the digest 0 -/
def HashBroken (cs : Log.Suite) (A B : List Bytes) : Prop :=
  LogSpec.Collides cs.H A B ∨ PrefixSpec.ZeroDigest cs.H cs.hashSize (A ++ B)

end Katie.CommittedSpec
