import Verif.Model.Phase
import Mathlib.Analysis.SpecialFunctions.Gaussian.GaussianIntegral
import Mathlib.MeasureTheory.Integral.IntegralEqImproper
import Mathlib.Analysis.Calculus.Deriv.Polynomial

/-! # Hermite polynomials: derivative, recurrence, orthogonality -/

namespace SQ
open MeasureTheory Polynomial

theorem hermite_derivative (n : ℕ) : derivative (hermite (n + 1)) = ((n + 1 : ℕ) : ℤ[X]) * hermite n := by
  induction n with
  | zero => simp
  | succ n ih =>
    rw [hermite_succ (n + 1), derivative_sub, derivative_mul, derivative_X, one_mul, ih, derivative_mul,
      derivative_natCast, hermite_succ n]
    push_cast
    ring

/-- value of the Hermite polynomial -/
noncomputable abbrev He (n : ℕ) (x : ℝ) : ℝ := aeval x (hermite n)

theorem He_hasDerivAt (n : ℕ) (x : ℝ) : HasDerivAt (He n) (aeval x (derivative (hermite n))) x :=
  Polynomial.hasDerivAt_aeval _ _

theorem He_succ (n : ℕ) (x : ℝ) : He (n + 1) x = x * He n x - aeval x (derivative (hermite n)) := by
  simp [He, hermite_succ]

theorem He_deriv (n : ℕ) (x : ℝ) : aeval x (derivative (hermite (n + 1))) = ((n + 1 : ℕ) : ℝ) * He n x := by
  rw [hermite_derivative]
  simp [He]

theorem He_zero (x : ℝ) : He 0 x = 1 := by simp [He]

/-- y He_n = He_{n+1} + n He_{n-1} -/
theorem He_rec (n : ℕ) (x : ℝ) : x * He n x = He (n + 1) x + n * He (n - 1) x := by
  rw [He_succ]
  cases n with
  | zero => simp
  | succ n => rw [He_deriv]; simp

theorem pow_gauss_integrable (n : ℕ) : Integrable (fun x : ℝ => x ^ n * Real.exp (-(1 / 2) * x ^ 2)) := by
  have := integrable_rpow_mul_exp_neg_mul_sq (b := 1 / 2) (by norm_num) (s := n) (by
    have : (0 : ℝ) ≤ n := Nat.cast_nonneg n
    linarith)
  simpa using this

theorem poly_gauss_integrable (p : ℝ[X]) : Integrable (fun x : ℝ => p.eval x * Real.exp (-(1 / 2) * x ^ 2)) := by
  induction p using Polynomial.induction_on' with
  | add p q hp hq =>
    simp only [eval_add, add_mul]
    exact hp.add hq
  | monomial n a =>
    simp only [eval_monomial, mul_assoc]
    exact (pow_gauss_integrable n).const_mul a

/-- Hermite polynomial over ℝ -/
noncomputable abbrev HeR (n : ℕ) : ℝ[X] := (hermite n).map (Int.castRingHom ℝ)

theorem HeR_eval (n : ℕ) (x : ℝ) : (HeR n).eval x = He n x := by
  rw [HeR, eval_map, He, aeval_def]
  rfl

/-- integration by parts -/
theorem gauss_parts (p : ℝ[X]) (n : ℕ) :
    ∫ x : ℝ, (p * HeR (n + 1)).eval x * Real.exp (-(1 / 2) * x ^ 2)
      = ∫ x : ℝ, (derivative p * HeR n).eval x * Real.exp (-(1 / 2) * x ^ 2) := by
  have key := integral_mul_deriv_eq_deriv_mul_of_integrable
    (u := fun x => p.eval x) (u' := fun x => (derivative p).eval x)
    (v := fun x => (HeR n).eval x * Real.exp (-(1 / 2) * x ^ 2))
    (v' := fun x => -((HeR (n + 1)).eval x * Real.exp (-(1 / 2) * x ^ 2)))
    (fun x _ => p.hasDerivAt x) ?_ ?_ ?_ ?_
  · have e1 : (fun x : ℝ => (p * HeR (n + 1)).eval x * Real.exp (-(1 / 2) * x ^ 2))
        = fun x => -(p.eval x * -((HeR (n + 1)).eval x * Real.exp (-(1 / 2) * x ^ 2))) := by
      funext x; rw [eval_mul]; ring
    have e2 : (fun x : ℝ => (derivative p * HeR n).eval x * Real.exp (-(1 / 2) * x ^ 2))
        = fun x => (derivative p).eval x * ((HeR n).eval x * Real.exp (-(1 / 2) * x ^ 2)) := by
      funext x; rw [eval_mul]; ring
    rw [e1, e2, integral_neg, key, neg_neg]
  · intro x _
    have h1 := (HeR n).hasDerivAt x
    have h2 : HasDerivAt (fun x : ℝ => Real.exp (-(1 / 2) * x ^ 2))
        (Real.exp (-(1 / 2) * x ^ 2) * (-(1 / 2) * (2 * x))) x := by
      have := ((hasDerivAt_pow 2 x).const_mul (-(1 / 2) : ℝ)).exp
      simpa using this
    have h3 := h1.mul h2
    have e : -((HeR (n + 1)).eval x * Real.exp (-(1 / 2) * x ^ 2))
        = (derivative (HeR n)).eval x * Real.exp (-(1 / 2) * x ^ 2)
          + (HeR n).eval x * (Real.exp (-(1 / 2) * x ^ 2) * (-(1 / 2) * (2 * x))) := by
      have : HeR (n + 1) = X * HeR n - derivative (HeR n) := by
        simp [HeR, hermite_succ]
      rw [this, eval_sub, eval_mul, eval_X]
      ring
    rw [e]
    exact h3
  · have := (poly_gauss_integrable (p * HeR (n + 1))).neg
    refine this.congr (Filter.Eventually.of_forall fun x => ?_)
    simp only [Pi.neg_apply, Pi.mul_apply, eval_mul]
    ring
  · refine (poly_gauss_integrable (derivative p * HeR n)).congr (Filter.Eventually.of_forall fun x => ?_)
    simp only [Pi.mul_apply, eval_mul]
    ring
  · refine (poly_gauss_integrable (p * HeR n)).congr (Filter.Eventually.of_forall fun x => ?_)
    simp only [Pi.mul_apply, eval_mul]
    ring

theorem HeR_derivative (n : ℕ) : derivative (HeR (n + 1)) = C ((n + 1 : ℕ) : ℝ) * HeR n := by
  rw [HeR, derivative_map, hermite_derivative]
  simp [HeR]

/-- orthogonality for the Gaussian weight -/
theorem He_orthogonal (a b : ℕ) :
    ∫ x : ℝ, He a x * He b x * Real.exp (-(1 / 2) * x ^ 2)
      = if a = b then √(2 * Real.pi) * (b.factorial : ℝ) else 0 := by
  have conv : ∀ a b, ∫ x : ℝ, He a x * He b x * Real.exp (-(1 / 2) * x ^ 2)
      = ∫ x : ℝ, (HeR a * HeR b).eval x * Real.exp (-(1 / 2) * x ^ 2) := by
    intro a b
    congr 1
    funext x
    rw [eval_mul, HeR_eval, HeR_eval]
  induction b generalizing a with
  | zero =>
    cases a with
    | zero =>
      simp only [He_zero, one_mul, if_true, Nat.factorial_zero, Nat.cast_one, mul_one]
      rw [integral_gaussian]
      congr 1
      field_simp
    | succ a =>
      rw [conv, mul_comm, gauss_parts]
      simp
  | succ b ih =>
    cases a with
    | zero =>
      rw [conv, gauss_parts]
      simp
    | succ a =>
      rw [conv, gauss_parts, HeR_derivative]
      have : (fun x : ℝ => (C ((a + 1 : ℕ) : ℝ) * HeR a * HeR b).eval x * Real.exp (-(1 / 2) * x ^ 2))
          = fun x => ((a + 1 : ℕ) : ℝ) * ((HeR a * HeR b).eval x * Real.exp (-(1 / 2) * x ^ 2)) := by
        funext x
        rw [eval_mul, eval_mul, eval_C, eval_mul]
        ring
      rw [this, integral_const_mul, ← conv, ih]
      by_cases h : a = b
      · subst h
        simp only [if_true, Nat.factorial_succ, Nat.cast_mul]
        ring
      · simp [h]

theorem He_gauss_integrable (a b : ℕ) :
    Integrable fun x : ℝ => He a x * He b x * Real.exp (-(1 / 2) * x ^ 2) := by
  refine (poly_gauss_integrable (HeR a * HeR b)).congr (Filter.Eventually.of_forall fun x => ?_)
  simp only [eval_mul, HeR_eval]

end SQ
