import Verif.Lemmas.Hermite
import Verif.Spec.Phase
import Verif.Props.Index
import Mathlib.MeasureTheory.Integral.Pi
import Mathlib.Analysis.SpecialFunctions.Integrals.Basic

/-! # Lemmas on phase-coordinate wave functions -/

namespace SQ
open MeasureTheory Polynomial Spec Complex

variable {nJ k : ℕ}

theorem Phi0_pos : 0 < Phi0 := by unfold Phi0; norm_num

/-! ### oscillator states -/

theorem sum_log_factorial (n : ℕ) :
    ((List.range n).map fun j => Real.log ((j + 1 : ℕ) : ℝ)).sum = Real.log (n.factorial : ℝ) := by
  induction n with
  | zero => simp
  | succ n ih =>
    rw [List.range_succ, List.map_append, List.sum_append, ih, Nat.factorial_succ, Nat.cast_mul,
      Real.log_mul (by positivity) (by positivity)]
    simp
    ring

theorem exp_coeffLog {x0 : ℝ} (hx : 0 < x0) (n : ℕ) :
    Real.exp (coeffLog x0 n) = √Phi0 * (1 / √(√Real.pi * n.factorial * x0)) := by
  have hP := Phi0_pos
  have hpi := Real.pi_pos
  have hf : (0 : ℝ) < n.factorial := by positivity
  have e : coeffLog x0 n = Real.log (√Phi0) - Real.log (√(√Real.pi * n.factorial * x0)) := by
    unfold coeffLog
    rw [sum_log_factorial, Real.log_sqrt hP.le, Real.log_sqrt (by positivity), Real.log_mul (by positivity) hx.ne',
      Real.log_mul (by positivity) hf.ne', Real.log_sqrt hpi.le]
    ring
  rw [e, Real.exp_sub, Real.exp_log (by positivity), Real.exp_log (by positivity)]
  ring

/-- below order 250 the code computes the oscillator state -/
theorem oscWave_eq (hyperu : ℝ → ℝ → ℝ → ℝ) {x0 : ℝ} (hx : 0 < x0) {n : ℕ} (hn : n < 250) (phi : ℝ) :
    oscWave hyperu x0 n phi = √Phi0 * oscState x0 n (Phi0 * phi) := by
  unfold oscWave oscState
  simp only [if_pos hn, hermiteLow]
  have e1 : √2 * phi * Phi0 / x0 = √2 * (Phi0 * phi) / x0 := by ring
  have e2 : phi * Phi0 / x0 = Phi0 * phi / x0 := by ring
  rw [e1, e2]
  generalize aeval (√2 * (Phi0 * phi) / x0) (hermite n) = h
  rw [Real.exp_add, Real.exp_add, exp_coeffLog hx]
  by_cases h0 : h = 0
  · simp [h0]
  · rw [if_pos h0, if_pos h0, Real.exp_log (abs_pos.2 h0)]
    have : Real.sign h * |h| = h := by
      rcases lt_or_gt_of_ne h0 with hh | hh
      · rw [Real.sign_of_neg hh, abs_of_neg hh]; ring
      · rw [Real.sign_of_pos hh, abs_of_pos hh]; ring
    calc _ = √Phi0 * (1 / √(√Real.pi * n.factorial * x0)) * Real.exp (-(Phi0 * phi / x0) ^ 2 / 2)
          * (Real.sign h * |h|) := by ring
      _ = _ := by rw [this]; ring

theorem osc_norm_const {x0 : ℝ} (hx : 0 < x0) (a b : ℕ) :
    1 / √(√Real.pi * a.factorial * x0) * (1 / √(√Real.pi * b.factorial * x0))
      = 1 / (√Real.pi * x0 * (√(a.factorial : ℝ) * √(b.factorial : ℝ))) := by
  have h : ∀ c : ℕ, √(√Real.pi * c.factorial * x0) = √(√Real.pi * x0) * √(c.factorial : ℝ) := by
    intro c
    rw [← Real.sqrt_mul (by positivity)]
    congr 1; ring
  have e : √(√Real.pi * x0) * √(a.factorial : ℝ) * (√(√Real.pi * x0) * √(b.factorial : ℝ))
      = √(√Real.pi * x0) * √(√Real.pi * x0) * (√(a.factorial : ℝ) * √(b.factorial : ℝ)) := by ring
  rw [h, h, div_mul_div_comm, one_mul, e, Real.mul_self_sqrt (by positivity)]

theorem osc_product {x0 : ℝ} (hx : 0 < x0) (a b : ℕ) (Phi : ℝ) :
    oscState x0 a Phi * oscState x0 b Phi
      = 1 / (√Real.pi * x0 * (√(a.factorial : ℝ) * √(b.factorial : ℝ))) *
        (He a (√2 / x0 * Phi) * He b (√2 / x0 * Phi) * Real.exp (-(1 / 2) * (√2 / x0 * Phi) ^ 2)) := by
  rw [← osc_norm_const hx]
  unfold oscState
  have e1 : √2 * Phi / x0 = √2 / x0 * Phi := by ring
  have e2 : Real.exp (-(1 / 2) * (√2 / x0 * Phi) ^ 2)
      = Real.exp (-(Phi / x0) ^ 2 / 2) * Real.exp (-(Phi / x0) ^ 2 / 2) := by
    rw [← Real.exp_add]
    congr 1
    have h2 : √2 ^ 2 = 2 := Real.sq_sqrt (by norm_num)
    have : (√2 / x0 * Phi) ^ 2 = √2 ^ 2 * (Phi / x0) ^ 2 := by ring
    rw [this, h2]
    ring
  rw [e1, e2]
  ring

theorem osc_integrable {x0 : ℝ} (hx : 0 < x0) (a b : ℕ) :
    Integrable fun Phi => oscState x0 a Phi * oscState x0 b Phi := by
  have h : √2 / x0 ≠ 0 := by positivity
  refine (((He_gauss_integrable a b).comp_mul_left' h).const_mul
    (1 / (√Real.pi * x0 * (√(a.factorial : ℝ) * √(b.factorial : ℝ))))).congr (Filter.Eventually.of_forall fun Phi => ?_)
  exact (osc_product hx a b Phi).symm

theorem osc_orthonormal {x0 : ℝ} (hx : 0 < x0) (a b : ℕ) :
    ∫ Phi, oscState x0 a Phi * oscState x0 b Phi = if a = b then 1 else 0 := by
  have h : (0 : ℝ) < √2 / x0 := by positivity
  simp only [osc_product hx]
  rw [integral_const_mul, Measure.integral_comp_mul_left
    (fun y => He a y * He b y * Real.exp (-(1 / 2) * y ^ 2)), He_orthogonal]
  by_cases hab : a = b
  · subst hab
    simp only [if_true, smul_eq_mul]
    rw [abs_of_pos (by positivity), Real.mul_self_sqrt (by positivity), Real.sqrt_mul (by norm_num)]
    have h2 : (0 : ℝ) < √2 := by positivity
    have h3 : (0 : ℝ) < √Real.pi := Real.sqrt_pos.2 Real.pi_pos
    have h4 : (0 : ℝ) < a.factorial := by positivity
    field_simp
  · simp [hab]

/-! ### charge states -/

theorem charge_product (a b phi : ℝ) :
    starRingEnd ℂ (chargeState a phi) * chargeState b phi
      = ((1 / (2 * Real.pi) : ℝ) : ℂ) * Complex.exp ((I * ((b - a : ℝ) : ℂ)) * phi) := by
  unfold chargeState
  rw [map_mul, Complex.conj_ofReal, ← Complex.exp_conj, map_mul, Complex.conj_I, Complex.conj_ofReal]
  have : ∀ x y z w : ℂ, x * y * (z * w) = (x * z) * (y * w) := by intros; ring
  rw [this, ← Complex.ofReal_mul, ← Complex.exp_add, div_mul_div_comm, Real.mul_self_sqrt (by positivity), one_mul]
  congr 2
  push_cast
  ring

theorem charge_orthonormal (c : ℝ) (a b : ℕ) :
    ∫ phi in Set.Ioc 0 (2 * Real.pi), starRingEnd ℂ (chargeState ((a : ℝ) - c) phi) * chargeState ((b : ℝ) - c) phi
      = if a = b then 1 else 0 := by
  simp only [charge_product]
  rw [integral_const_mul]
  have e : ((b : ℝ) - c - (a - c)) = ((b : ℤ) - (a : ℤ) : ℤ) := by push_cast; ring
  rw [e]
  have hpi : (Real.pi : ℂ) ≠ 0 := Complex.ofReal_ne_zero.2 Real.pi_ne_zero
  rw [← intervalIntegral.integral_of_le (by positivity)]
  by_cases hab : a = b
  · subst hab
    simp
    field_simp
  · have hz : ((b : ℤ) - (a : ℤ) : ℤ) ≠ 0 := by omega
    have hz' : (I * (((((b : ℤ) - (a : ℤ) : ℤ) : ℝ)) : ℂ)) ≠ 0 := by
      refine mul_ne_zero I_ne_zero ?_
      exact_mod_cast hz
    rw [integral_exp_mul_complex hz', if_neg hab]
    have h1 : Complex.exp (I * (((((b : ℤ) - (a : ℤ) : ℤ) : ℝ)) : ℂ) * ((2 * Real.pi : ℝ) : ℂ)) = 1 := by
      rw [Complex.exp_eq_one_iff]
      refine ⟨(b : ℤ) - a, ?_⟩
      push_cast
      ring
    rw [h1]
    simp

/-! ### sum over the flattened basis -/

theorem foldl_mul_prod {ι : Type} (l : List ι) (f : ι → ℂ) (a : ℂ) :
    l.foldl (fun t i => t * f i) a = a * (l.map f).prod := by
  induction l generalizing a with
  | nil => simp
  | cons i l ih => simp [ih, mul_assoc]

/-- the flattened index of a basis state, as a bijection -/
theorem sum_flat (m : Fin k → ℕ) (F : ℕ → List ℕ → ℂ) :
    ((List.range (List.ofFn m).prod).map fun i => F i (tensorToModes (List.ofFn m) i)).sum
      = ∑ x : Idx m, F (rowMajor (List.ofFn m) (List.ofFn fun i => (x i : ℕ))) (List.ofFn fun i => (x i : ℕ)) := by
  obtain ⟨h1, h2, h3⟩ := C44_bijection (List.ofFn m)
  have hlt : ∀ x : Idx m, List.Forall₂ (· < ·) (List.ofFn fun i => (x i : ℕ)) (List.ofFn m) := by
    intro x
    rw [List.forall₂_iff_get]
    refine ⟨by simp, fun i hi hi' => ?_⟩
    simp
  rw [← List.sum_toFinset _ List.nodup_range]
  symm
  refine Finset.sum_bij (fun x _ => rowMajor (List.ofFn m) (List.ofFn fun i => (x i : ℕ))) ?_ ?_ ?_ ?_
  · intro x _
    simp [(h2 _ (hlt x)).1]
  · intro x _ y _ hxy
    have := congrArg (tensorToModes (List.ofFn m)) hxy
    simp only [(h2 _ (hlt x)).2, (h2 _ (hlt y)).2] at this
    have := List.ofFn_injective this
    funext i
    exact Fin.ext (congrFun this i)
  · intro i hi
    have hi' : i < (List.ofFn m).prod := by simpa using hi
    obtain ⟨hf, hr⟩ := h1 i hi'
    rw [List.forall₂_iff_get] at hf
    obtain ⟨hl, hg⟩ := hf
    have hl' : (tensorToModes (List.ofFn m) i).length = k := by simpa using hl
    refine ⟨fun j => ⟨(tensorToModes (List.ofFn m) i).get ⟨j, by rw [hl']; exact j.2⟩, ?_⟩, Finset.mem_univ _, ?_⟩
    · have := hg j (by rw [hl']; exact j.2) (by simp)
      simpa using this
    · have : (List.ofFn fun j : Fin k => (tensorToModes (List.ofFn m) i).get ⟨j, by rw [hl']; exact j.2⟩)
          = tensorToModes (List.ofFn m) i := by
        apply List.ext_get
        · simp [hl']
        · intro n h1 h2
          simp
      show rowMajor _ (List.ofFn fun j : Fin k => (tensorToModes (List.ofFn m) i).get ⟨j, by rw [hl']; exact j.2⟩) = i
      rw [this, hr]
  · intro x _
    rw [(h2 _ (hlt x)).2]

theorem eigPhaseCoord_sum (hyperu : ℝ → ℝ → ℝ → ℝ) (D : ModeData nJ k) (m : Fin k → ℕ) (v : ℕ → ℂ)
    (phi : Fin k → ℝ) :
    eigPhaseCoord hyperu D m v phi = ∑ x : Idx m, entry v x * ∏ i, modeWave hyperu D i (x i) (phi i) := by
  unfold eigPhaseCoord
  have := sum_flat m (fun i ind =>
    (List.finRange k).foldl (fun term mode => term * modeWave hyperu D mode (ind.getD mode 0) (phi mode)) (v i))
  simp only at this ⊢
  rw [this]
  refine Finset.sum_congr rfl fun x _ => ?_
  have e : ∏ i, modeWave hyperu D i (x i) (phi i)
      = ((List.finRange k).map fun i => modeWave hyperu D i (x i) (phi i)).prod := by
    rw [← List.prod_ofFn, List.ofFn_eq_map]
  rw [foldl_mul_prod, e]
  simp [entry]

end SQ
