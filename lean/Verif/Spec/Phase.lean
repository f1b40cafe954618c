import Verif.Model.Ops
import Verif.Spec.Index
import Mathlib.RingTheory.Polynomial.Hermite.Basic
import Mathlib.MeasureTheory.Constructions.Pi
import Mathlib.MeasureTheory.Measure.Lebesgue.Basic

/-! # Wave functions of oscillator and charge states -/

namespace SQ.Spec
open Complex MeasureTheory

/-- n-th oscillator state of length x0 as a function of the flux -/
noncomputable def oscState (x0 : ℝ) (n : ℕ) (Phi : ℝ) : ℝ :=
  1 / √(√Real.pi * n.factorial * x0) * Polynomial.aeval (√2 * Phi / x0) (Polynomial.hermite n)
    * Real.exp (-(Phi / x0) ^ 2 / 2)

/-- state of charge q as a function of the phase -/
noncomputable def chargeState (q phi : ℝ) : ℂ := ((1 / √(2 * Real.pi) : ℝ) : ℂ) * Complex.exp (I * (q * phi : ℝ))

/-- a mode with positive inverse capacitance and susceptance, oscillating at its frequency -/
def Harmonic {nJ k : ℕ} (D : ModeData nJ k) (i : Fin k) : Prop :=
  0 < D.cInv i i ∧ 0 < D.l i i ∧ D.omega i = √(D.cInv i i * D.l i i)

/-- basis state `x` of the circuit: product of charge states of charge x_i - (m_i - 1)/2 and oscillator
states number x_i of length √(ħZ_i) (normalised as functions of Φ/Φ₀) -/
noncomputable def basisState {nJ k : ℕ} (D : ModeData nJ k) (m : Fin k → ℕ) (x : Idx m) (phi : Fin k → ℝ) : ℂ :=
  open Classical in
  ∏ i, if D.omega i = 0 then chargeState ((x i : ℕ) - ((m i : ℝ) - 1) / 2) (phi i)
    else ((√Phi0 * oscState (√(hbar * √(D.cInv i i / D.l i i))) (x i) (Phi0 * phi i) : ℝ) : ℂ)

/-- the phases of charge modes range over one period, those of harmonic modes over the line -/
noncomputable def phaseMeasure {nJ k : ℕ} (D : ModeData nJ k) : Measure (Fin k → ℝ) :=
  open Classical in
  Measure.pi fun i => if D.omega i = 0 then volume.restrict (Set.Ioc 0 (2 * Real.pi)) else volume

/-- entry of a flattened vector at basis state `x` -/
def entry {k : ℕ} {m : Fin k → ℕ} (v : ℕ → ℂ) (x : Idx m) : ℂ :=
  v (rowMajor (List.ofFn m) (List.ofFn fun i => (x i : ℕ)))

end SQ.Spec
