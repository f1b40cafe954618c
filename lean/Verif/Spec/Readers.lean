import Verif.Spec.Symbolic
import Verif.Spec.Grad
import Verif.Model.Readers

/-! # Mode operators -/

namespace SQ.Spec
open SQ Matrix

/-- charge of mode `i` over √ħ: `2e (n - n_g)` for a charge mode with offset `ng i`,
`-i √(1/2Z) (a - a†)` for a harmonic mode of impedance Z -/
noncomputable def modeChargeOp {nJ k : ℕ} (D : ModeData nJ k) (m : Fin k → ℕ) (ng : Fin k → ℝ) (i : Fin k) :
    Op m :=
  open Classical in
  onMode m i (if D.omega i = 0 then
      ((2 * eCharge / √hbar : ℝ) : ℂ) • (qCharge (m i) - ((ng i : ℝ) : ℂ) • 1)
    else (-Complex.I * ((√(1 / (2 * √(D.cInv i i / D.l i i))) : ℝ) : ℂ)) • (qDestroy (m i) - qCreate (m i)))

end SQ.Spec
