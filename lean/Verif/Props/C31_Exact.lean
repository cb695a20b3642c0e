import Verif.Props.C12_Exact
import Verif.Props.C31_C35_Auditor

/-
C31: exactly for which updates the auditor computes the right root.
-/

namespace Katie.Props
open Katie Katie.Wire Katie.Audit Katie.AuditSpec Katie.SearchSpec Katie.PrefixSpec

/-- **C31**, the new root, exactly: when the last root the auditor computed is that of the map `S`, the root it computes for
an accepted update is that of `S` with the listed removals and additions applied if and only if the update is `Resolved`,
or hash inputs collide or have an all-zero digest. -/
theorem C31_root_exact {cs : Log.Suite} (hcs : cs.Good) {cfg : Config} {key : Bytes} {sign : Bytes → G Bytes}
    {P : (Bytes → G Unit) → Prop} {us kept : List AuditorUpdate} {hs : List AuditorTreeHead} {a : Auditor}
    (h : Exec cs cfg key sign (UpdateOk cs) P us kept hs a) (u : AuditorUpdate) (hu : UpdateOk cs u)
    (hn : size a.state + 1 < 2 ^ 64) (hok : (process cs cfg u a).1 = .ok ()) (s s' : AState) (hs : a.state = some s)
    (hs' : (process cs cfg u a).2.state = some s')
    (S : List Pair) (hS : IsMap cs.hashSize S) (hroot : s.prefixTree = rootHash cs.H cs.hashSize S) :
    (s'.prefixTree = rootHash cs.H cs.hashSize ((batchOf u).apply S) ↔ (batchOf u).Resolved S) ∨
    Broken cs (verifierInputs cs (u.added ++ u.removed) u.proof) (rootInputs cs.H cs.hashSize S) ∨
    Broken cs (afterInputs cs u.added u.removed u.proof) (rootInputs cs.H cs.hashSize ((batchOf u).apply S)) := by
  obtain ⟨W, s'', before, h1, -, -, -, h5, h6, -⟩ := C31_accepted hcs h u hu hn hok
  rw [h1] at hs'
  cases hs'
  rw [h6 s hs, hroot] at h5
  obtain ⟨e1, e2⟩ := batch_entries u
  have hadd : ∀ e ∈ (batchOf u).add, e.2.length = cs.hashSize := by
    intro e he
    obtain ⟨x, hx, rfl⟩ := List.mem_map.1 he
    exact (hu.2.1 x hx).2
  have := C12_exact hcs S hS (batchOf u) (u.removed.map (fun e => e.com)) (by simp [batchOf]) u.proof (wireProof_of hu)
    _ hadd (by rw [e1, e2]; exact h5)
  rwa [e1, e2] at this

end Katie.Props
