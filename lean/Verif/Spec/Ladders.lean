import Verif.Model.CircuitPhys

/-!
# C136: modes without junctions
-/

namespace SQ.Spec
open SQ

/-- no junction sees mode `j` -/
def Untouched (b : Build) (j : Fin b.M.keep.length) : Prop := ∀ i, b.M.w i j = 0

/-- the energies of a system with levels `ws` next to independent oscillators of angular frequencies `omega j` with
`m j` states each: one level of the system plus any numbers of quanta in the oscillators -/
def withLadders {R : Type} [Fintype R] [DecidableEq R] (ws : List ℝ) (omega : R → ℝ) (m : R → ℕ) : Multiset ℝ :=
  (Finset.univ : Finset (Fin ws.length × ∀ j, Fin (m j))).val.map fun p => ws.get p.1 + ∑ j, omega j * (p.2 j : ℕ)

/-- no external flux falls on an inductor -/
def NoInductorFlux (b : Build) (flux : LoopId → ℝ) : Prop := ∀ key ∈ b.inds, b.fluxes flux key.bId = 0

end SQ.Spec
