import Verif.Spec.Linear

/-!
# Choosing another node as ground
-/

namespace SQ.Spec
open SQ

/-- all nodes 0, …, n, ground included, are renumbered by `π` -/
def renameAll {n : ℕ} (π : Equiv.Perm (Fin (n + 1))) (a : ℕ) : ℕ := if h : a < n + 1 then π ⟨a, h⟩ else a

/-- the second dictionary holds the same elements on the renumbered edges, where another node may have become node 0; edges may
be written in either direction, edges and elements may come in any order -/
def Regrounded {n : ℕ} (π : Equiv.Perm (Fin (n + 1))) (els els' : Elements) : Prop :=
  ∃ l, (placements els').Perm l ∧ List.Forall₂ (fun q q' => q'.2 = q.2 ∧
    (q'.1 = (renameAll π q.1.1, renameAll π q.1.2) ∨ q'.1 = (renameAll π q.1.2, renameAll π q.1.1)))
    (placements els) l

end SQ.Spec
