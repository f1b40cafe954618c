import Verif.Spec.Globals

/-!
# What a number with a unit means physically

`h = 2πħ` is Planck's constant.
-/

namespace SQ.Spec
open Real SQ

/-- "`v` in unit `u`" denotes the capacitance `C` (in farad): directly, or through the charging
energy `e²/(2C) = h·f`. -/
inductive CapMeans : ℝ → String → ℝ → Prop
  | farad {v x : ℝ} {u : String} : FaradUnit u x → CapMeans v u (v * x)
  | energy {v x C : ℝ} {u : String} : FreqUnit u x → C ≠ 0 →
      eCharge ^ 2 / (2 * C) = (2 * π * hbar) * (v * x) → CapMeans v u C

/-- "`v` in unit `u`" denotes the inductance `L` (in henry): directly, or through the inductive
energy `(Φ₀/2π)²/L = h·f`. -/
inductive IndMeans : ℝ → String → ℝ → Prop
  | henry {v x : ℝ} {u : String} : HenryUnit u x → IndMeans v u (v * x)
  | energy {v x L : ℝ} {u : String} : FreqUnit u x → L ≠ 0 →
      (Phi0 / (2 * π)) ^ 2 / L = (2 * π * hbar) * (v * x) → IndMeans v u L

end SQ.Spec
