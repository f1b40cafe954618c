import Verif.Spec.Grad
import Mathlib.Analysis.Calculus.FDeriv.Basic
import Mathlib.Analysis.Calculus.FDeriv.Prod
import Mathlib.Analysis.Complex.Basic

/-!
# Gradients of losses

A loss is any real function of the eigenfrequencies and the eigenvectors returned by `diag`.
PyTorch hands to `backward` the gradient of the loss: for a real entry the partial derivative, for a
complex entry `∂/∂Re + i ∂/∂Im`.
-/

namespace SQ.Spec
open SQ

/-- frequencies and vectors of `q` states -/
abbrev Spectrum (q : ℕ) (ι : Type*) := (Fin q → ℝ) × (Fin q → ι → ℂ)

variable {q : ℕ} {ι : Type*} [Fintype ι] [DecidableEq ι]

/-- gradient with respect to the frequencies -/
noncomputable def gradW (D : Spectrum q ι →L[ℝ] ℝ) (e : Fin q) : ℂ :=
  ((D (Pi.single e 1, 0) : ℝ) : ℂ)

/-- gradient with respect to the components of the eigenvectors -/
noncomputable def gradV (D : Spectrum q ι →L[ℝ] ℝ) (e : Fin q) (a : ι) : ℂ :=
  ((D (0, Pi.single e (Pi.single a 1)) : ℝ) : ℂ) +
    Complex.I * ((D (0, Pi.single e (Pi.single a Complex.I)) : ℝ) : ℂ)

/-- The loss depends only on the states, not on the phases of the vectors that represent them. -/
def PhaseInvariant (L : Spectrum q ι → ℝ) : Prop :=
  ∀ w v (u : Fin q → ℂ), (∀ e, ‖u e‖ = 1) → L (w, fun e => u e • v e) = L (w, v)

end SQ.Spec
