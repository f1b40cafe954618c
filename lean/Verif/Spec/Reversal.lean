import Verif.Spec.Levels
import Verif.Model.State

/-! # Specification of the reversal of fluxes and charge offsets -/

namespace SQ.Spec
open SQ

/-- `loop.set_flux(f loop)` for every loop of a list -/
def fluxCalls (loops : List LoopId) (f : LoopId → ℝ) : List Act := loops.map fun l => .setFlux l (f l)

/-- `set_charge_offset(i + 1, g i)` for every mode of a list -/
def offsetCalls (modes : List ℕ) (g : ℕ → ℝ) : List Act := modes.map fun i : ℕ => .setChargeOffset (some ((i : ℤ) + 1)) (g i)

/-- Every loop flux `φ l` is a multiple of half a flux quantum, and zero unless one flux quantum more in the loop is
a whole number of flux quanta at every junction and none at any inductor. -/
def HalfQuanta {b nl nJ : ℕ} (B : Matrix (Fin b) (Fin nl) ℝ) (inds : List (IndKey b)) (juns : List (JunKey b nJ))
    (φ : Fin nl → ℝ) : Prop :=
  ∀ l, ∃ z : ℤ, φ l = z * Real.pi ∧
    (z = 0 ∨ (∀ key ∈ inds, B key.bId l = 0) ∧ ∀ key ∈ juns, ∃ q : ℤ, B key.bId l = q)

end SQ.Spec
