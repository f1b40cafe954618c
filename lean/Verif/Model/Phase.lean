import Verif.Model.Index
import Mathlib.RingTheory.Polynomial.Hermite.Basic
import Mathlib.Analysis.SpecialFunctions.Log.Basic
import Mathlib.Data.Real.Sign

/-!
# circuit.py: phase-coordinate wave functions (`eig_phase_coord`)

SciPy's `eval_hermitenorm(n, x)` is modelled by Mathlib's (probabilists') Hermite polynomial; SciPy's
`hyperu` is a parameter. In exact arithmetic every logarithm taken is finite, so the mpmath fallback
(circuit.py:2283-2296), which is entered only when one is not, is not modelled.
-/

namespace SQ
open Complex

variable {nJ k : ℕ}

/-- circuit.py:2256-2257: oscillator length of mode `i`. -/
noncomputable def ModeData.x0 (D : ModeData nJ k) (i : Fin k) : ℝ :=
  √(hbar * √(D.cInv i i / D.l i i))

/-- circuit.py:2250-2252: charge-mode factor, `n` being the index in the basis. -/
noncomputable def planeWave (n : ℕ) (phi : ℝ) : ℂ :=
  ((1 / √(2 * Real.pi) : ℝ) : ℂ) * Complex.exp (I * phi * n)

/-- circuit.py:2259-2264: `coeff_log`. -/
noncomputable def coeffLog (x0 : ℝ) (n : ℕ) : ℝ :=
  -0.25 * Real.log Real.pi
    - 0.5 * ((List.range n).map fun j => Real.log ((j + 1 : ℕ) : ℝ)).sum
    - 0.5 * Real.log x0 + 0.5 * Real.log Phi0

/-- circuit.py:2266-2269: sign and logarithm of the Hermite polynomial, below order 250. -/
noncomputable def hermiteLow (x0 : ℝ) (n : ℕ) (phi : ℝ) : ℝ × ℝ :=
  open Classical in
  let h := Polynomial.aeval (√2 * phi * Phi0 / x0) (Polynomial.hermite n)
  (if h ≠ 0 then Real.sign h else 0, if h ≠ 0 then Real.log |h| else 0)

/-- circuit.py:2271-2275: the same from order 250 on. -/
noncomputable def hermiteHigh (hyperu : ℝ → ℝ → ℝ → ℝ) (x0 : ℝ) (n : ℕ) (phi : ℝ) : ℝ × ℝ :=
  open Classical in
  let h := hyperu (-0.5 * n) (-0.5) ((phi * Phi0 / x0) ^ 2)
  (if h ≠ 0 then Real.sign phi ^ n else 0,
   if h ≠ 0 then -((n : ℝ) / 2) * Real.log 2 * Real.log |h| else 0)

/-- circuit.py:2254-2304: harmonic-mode factor. -/
noncomputable def oscWave (hyperu : ℝ → ℝ → ℝ → ℝ) (x0 : ℝ) (n : ℕ) (phi : ℝ) : ℝ :=
  let h := if n < 250 then hermiteLow x0 n phi else hermiteHigh hyperu x0 n phi
  h.1 * Real.exp (coeffLog x0 n + (-(phi * Phi0 / x0) ^ 2 / 2) + h.2)

/-- circuit.py:2244-2299: the factor of one mode. -/
noncomputable def modeWave (hyperu : ℝ → ℝ → ℝ → ℝ) (D : ModeData nJ k) (i : Fin k) (n : ℕ) (phi : ℝ) : ℂ :=
  open Classical in
  if D.omega i = 0 then planeWave n phi else (oscWave hyperu (D.x0 i) n phi : ℂ)

/-- circuit.py:2234-2301: value of `state` at one grid point; `v` are the entries of the eigenvector.
The layout of the array over all grid points is `eigPhaseCoordGrid` (Model/PhaseGrid.lean). -/
noncomputable def eigPhaseCoord (hyperu : ℝ → ℝ → ℝ → ℝ) (D : ModeData nJ k) (m : Fin k → ℕ) (v : ℕ → ℂ)
    (phi : Fin k → ℝ) : ℂ :=
  ((List.range (List.ofFn m).prod).map fun i =>
    let ind := tensorToModes (List.ofFn m) i
    (List.finRange k).foldl (fun term mode => term * modeWave hyperu D mode (ind.getD mode 0) (phi mode)) (v i)).sum

end SQ
