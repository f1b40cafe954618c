import Verif.Model.Coupling
import Verif.Spec.Graph

/-!
# What the coupling operators are supposed to be
-/

namespace SQ.Spec
open SQ Matrix

/-- Node voltages (over √ħ) produced by the charge of mode `j`, or node fluxes produced by the flux
of mode `j`: column `j` of the matrix that maps mode coordinates to node coordinates. -/
noncomputable def modeColumn {nJ n : ℕ} (ctype : String) (C : Matrix (Fin n) (Fin n) ℝ)
    (M : Modes nJ n) (j : Fin n) : Fin n → ℝ :=
  fun a => if ctype = "capacitive" then (C⁻¹ * M.R) a j else M.S a j

/-- coefficient with which a mode with node pattern `x` enters the coupling at a pair of nodes:
the value at the node that is not ground, or the difference (flux: first minus second node;
voltage: second minus first) -/
noncomputable def coupleAt {n : ℕ} (ctype : String) (x : Fin n → ℝ) (e : Edge) : ℝ :=
  if e.1 = 0 ∨ e.2 = 0 then pot x (max e.1 e.2)
  else if ctype = "capacitive" then pot x e.2 - pot x e.1 else pot x e.1 - pot x e.2

/-- the retained modes are the first ones: mode number and original index agree -/
def Aligned {nJ n : ℕ} (M : Modes nJ n) : Prop := ∀ i, (M.keep.get i : ℕ) = i

end SQ.Spec
