import Verif.Model.Globals
import Mathlib.Analysis.SpecialFunctions.Pow.Real
import Mathlib.Analysis.SpecialFunctions.Trigonometric.DerivHyp
import Mathlib.MeasureTheory.Integral.IntegralEqImproper
import Mathlib.Analysis.Calculus.ParametricIntegral

/-!
# functions.py: scalar helpers; elements.py: default loss functions

SciPy's `kve(n, x)` and PyTorch's `scaled_modified_bessel_k0` are external: they are modelled by the
functions they are documented to compute, eˣ Kₙ(x), with Kₙ given by its integral representation
(DLMF 10.32.9). Arithmetic is exact; NaN and infinities are not modelled.
-/

namespace SQ
open MeasureTheory Set

/-- modified Bessel function of the second kind, order 0 or 1 -/
noncomputable def besselK (n : Bool) (x : ℝ) : ℝ :=
  ∫ t in Ioi (0 : ℝ), Real.exp (-x * Real.cosh t) * (if n then Real.cosh t else 1)

/-- `scipy.special.kve(n, x)` -/
noncomputable def kve (n : Bool) (x : ℝ) : ℝ := Real.exp x * besselK n x

/-- `torch.special.scaled_modified_bessel_k0` -/
noncomputable def torchK0e (x : ℝ) : ℝ := Real.exp x * besselK false x

/-- functions.py:52-56 `log_sinh` (both branches). -/
noncomputable def logSinh (x : ℝ) : ℝ := x + Real.log (1 - Real.exp (-2 * x)) - Real.log 2

/-- functions.py:59-65 `maximum`; `tensor` says whether the first argument is a tensor. -/
noncomputable def maximum (tensor : Bool) (a b : ℝ) : ℝ :=
  if tensor then (if a > b then 0 * b + a else b) else max a b

/-- functions.py:68-74 `minimum`. -/
noncomputable def minimum (tensor : Bool) (a b : ℝ) : ℝ :=
  if tensor then (if a > b then 0 * a + b else a) else min a b

/-- functions.py:129-132, 141-148 `k0e` and the forward pass of `K0eSolver`. -/
noncomputable def k0e (tensor : Bool) (x : ℝ) : ℝ := if tensor then torchK0e x else kve false x

/-- functions.py:150-157: factor of `grad_output` in the backward pass of `K0eSolver`. -/
noncomputable def k0eBackward (x : ℝ) : ℝ := kve false x - kve true x

/-- functions.py:170-172 `LogK0Solver.log_kv`. -/
noncomputable def logKv (n : Bool) (x : ℝ) : ℝ := Real.log (kve n x) - x

/-- functions.py:135-138, 160-168 `log_k0` and the forward pass of `LogK0Solver`. -/
noncomputable def logK0 (tensor : Bool) (x : ℝ) : ℝ :=
  if tensor then logKv false x else Real.log (k0e false x) - x

/-- functions.py:174-183: factor of `grad_output` in the backward pass of `LogK0Solver`. -/
noncomputable def logK0Backward (x : ℝ) : ℝ := -1 * Real.exp (logKv true x - logKv false x)

/-- elements.py:228-232 `Capacitor._default_q_cap`. -/
noncomputable def defaultQCap (omega : ℝ) : ℝ := 1e6 * (2 * Real.pi * 6e9 / |omega|) ^ (0.7 : ℝ)

/-- elements.py:379-391 `Inductor._default_q_ind`. -/
noncomputable def defaultQInd (tensor : Bool) (omega T : ℝ) : ℝ :=
  let alpha := hbar * 2 * Real.pi * 0.5e9 / (2 * kB * T)
  let beta := hbar * omega / (2 * kB * T)
  500e6 * Real.exp (logK0 false alpha + logSinh alpha - logK0 tensor beta - logSinh beta)

/-- elements.py:573-596 `Junction._get_default_y_func(delta, x)`. -/
noncomputable def defaultY (tensor : Bool) (delta x omega T : ℝ) : ℝ :=
  let alpha := hbar * omega / (2 * kB * T)
  √(2 / Real.pi) * (8 / (delta * 1.6e-19) / (hbar * 2 * Real.pi / eCharge ^ 2))
    * (2 * (delta * 1.6e-19) / hbar / omega) ^ (1.5 : ℝ)
    * x * √alpha * k0e tensor alpha * (1 - Real.exp (-2 * alpha)) / 2

end SQ
