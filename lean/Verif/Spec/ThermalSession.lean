import Verif.Spec.Reported
import Verif.Model.SweepLoss

/-!
# C142: energy of a transition compared with the temperature
-/

namespace SQ.Spec
open SQ

/-- `h f / (k_B T)` for a transition of reported frequency `f`, in units of `unit` (Hz), at temperature `T` -/
noncomputable def photonOverHeat (T unit f : ℝ) : ℝ := hbar * (2 * Real.pi * (unit * |f|)) / (kB * T)

/-- quality factors, admittances are positive where they are defined -/
structure PositiveNoise (noise : ObjNoise) (T : ℝ) : Prop where
  capQ : ∀ i Q, noise.capQ i = some Q → ∀ w, 0 < Q w
  indQ : ∀ i w q, noise.indQ i w T = some q → 0 < q
  junY : ∀ i w y, noise.junY i w T = some y → 0 ≤ y

end SQ.Spec
