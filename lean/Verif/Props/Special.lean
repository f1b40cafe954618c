import Verif.Model.Special

/-!
# Property C73: scalar helpers and default loss functions
-/

namespace SQ
open MeasureTheory Set Filter Topology

/-! ### the Bessel integrals -/

theorem tendsto_sinh_top : Tendsto Real.sinh atTop atTop :=
  tendsto_atTop_mono' _ (by filter_upwards [eventually_ge_atTop 0] with t ht using Real.self_le_sinh_iff.2 ht)
    tendsto_id

/-- e^{-x sinh t} cosh t is integrable on (0, ∞) for x > 0 -/
theorem bound_integrable {x : ℝ} (hx : 0 < x) :
    IntegrableOn (fun t => Real.exp (-x * Real.sinh t) * Real.cosh t) (Ioi 0) := by
  refine integrableOn_Ioi_deriv_of_nonneg' (g := fun t => -Real.exp (-x * Real.sinh t) / x) (l := -0 / x) ?_ ?_ ?_
  · intro t _
    have h1 : HasDerivAt (fun t => -x * Real.sinh t) (-x * Real.cosh t) t := (Real.hasDerivAt_sinh t).const_mul _
    have h2 := (h1.exp.neg).div_const x
    have e : Real.exp (-x * Real.sinh t) * Real.cosh t
        = -(Real.exp (-x * Real.sinh t) * (-x * Real.cosh t)) / x := by
      field_simp
    rw [e]
    exact h2
  · intro t _
    positivity
  · refine ((Real.tendsto_exp_atBot.comp ?_).neg).div_const x
    exact tendsto_sinh_top.const_mul_atTop_of_neg (by linarith)

theorem bessel_le {x y t : ℝ} (hx : 0 < x) (hxy : x ≤ y) (ht : 0 < t) (n : Bool) :
    Real.exp (-y * Real.cosh t) * (if n then Real.cosh t else 1) ≤ Real.exp (-x * Real.sinh t) * Real.cosh t := by
  have hc := Real.one_le_cosh t
  have hs : 0 < Real.sinh t := Real.sinh_pos_iff.2 ht
  have hsc := Real.sinh_lt_cosh t
  have h1 : -y * Real.cosh t ≤ -x * Real.sinh t := by nlinarith
  refine mul_le_mul (Real.exp_le_exp.2 h1) ?_ ?_ (Real.exp_pos _).le
  · cases n <;> simp [hc]
  · cases n <;> simp <;> positivity

theorem bessel_integrable {x : ℝ} (hx : 0 < x) (n : Bool) :
    IntegrableOn (fun t => Real.exp (-x * Real.cosh t) * (if n then Real.cosh t else 1)) (Ioi 0) := by
  refine Integrable.mono' (bound_integrable hx) ?_ ?_
  · apply Continuous.aestronglyMeasurable
    cases n <;> simp <;> fun_prop
  · refine (ae_restrict_iff' measurableSet_Ioi).2 (Eventually.of_forall fun t ht => ?_)
    rw [Real.norm_of_nonneg]
    · exact bessel_le hx le_rfl ht n
    · cases n <;> simp <;> positivity

theorem besselK_pos {x : ℝ} (hx : 0 < x) (n : Bool) : 0 < besselK n x := by
  unfold besselK
  have hp : ∀ t : ℝ, 0 < Real.exp (-x * Real.cosh t) * (if n then Real.cosh t else 1) := by
    intro t
    have := Real.cosh_pos t
    cases n <;> simp <;> positivity
  rw [setIntegral_pos_iff_support_of_nonneg_ae (Eventually.of_forall fun t => (hp t).le) (bessel_integrable hx n)]
  have : Function.support (fun t => Real.exp (-x * Real.cosh t) * (if n then Real.cosh t else 1)) = univ :=
    Set.eq_univ_of_forall fun t => (hp t).ne'
  rw [this]
  simp

/-- K₀' = -K₁ -/
theorem hasDerivAt_besselK {x : ℝ} (hx : 0 < x) : HasDerivAt (besselK false) (-besselK true x) x := by
  have hx2 : 0 < x / 2 := by linarith
  have := hasDerivAt_integral_of_dominated_loc_of_deriv_le
    (μ := volume.restrict (Ioi (0 : ℝ))) (s := Ioi (x / 2)) (x₀ := x)
    (F := fun x t => Real.exp (-x * Real.cosh t) * 1)
    (F' := fun x t => -(Real.exp (-x * Real.cosh t) * Real.cosh t))
    (bound := fun t => Real.exp (-(x / 2) * Real.sinh t) * Real.cosh t)
    (Ioi_mem_nhds (by linarith)) (Eventually.of_forall fun y => ?_) ?_ ?_ ?_ (bound_integrable hx2) ?_
  · have h2 := this.2
    unfold besselK
    rw [integral_neg] at h2
    simpa using h2
  · apply Continuous.aestronglyMeasurable; fun_prop
  · have h3 : Integrable _ (volume.restrict (Ioi (0 : ℝ))) := bessel_integrable hx false
    simpa using h3
  · apply Continuous.aestronglyMeasurable; fun_prop
  · refine (ae_restrict_iff' measurableSet_Ioi).2 (Eventually.of_forall fun t ht y hy => ?_)
    have := bessel_le hx2 (le_of_lt hy) ht true
    rw [norm_neg, Real.norm_of_nonneg (by positivity)]
    simpa using this
  · refine Eventually.of_forall fun t y _ => ?_
    have h1 : HasDerivAt (fun y => -y * Real.cosh t) (-1 * Real.cosh t) y :=
      ((hasDerivAt_id' y).neg).mul_const _
    have h2 := (h1.exp).mul_const 1
    have e : -(Real.exp (-y * Real.cosh t) * Real.cosh t)
        = Real.exp (-y * Real.cosh t) * (-1 * Real.cosh t) * 1 := by ring
    rw [e]
    exact h2

/-! ### C73 -/

/-- C73: `log_sinh(x)` is log sinh x, for x > 0. -/
theorem C73_log_sinh {x : ℝ} (hx : 0 < x) : logSinh x = Real.log (Real.sinh x) := by
  unfold logSinh
  have h1 : 0 < 1 - Real.exp (-2 * x) := by
    have : Real.exp (-2 * x) < 1 := by rw [Real.exp_lt_one_iff]; linarith
    linarith
  have h2 : Real.sinh x = Real.exp x * (1 - Real.exp (-2 * x)) / 2 := by
    rw [Real.sinh_eq, mul_sub, mul_one, ← Real.exp_add]
    congr 3
    ring
  rw [h2, Real.log_div (by positivity) (by norm_num), Real.log_mul (by positivity) h1.ne', Real.log_exp]

/-- C73: `maximum` and `minimum` return the larger and the smaller argument, for numbers and tensors. -/
theorem C73_maximum (tensor : Bool) (a b : ℝ) :
    (maximum tensor a b = a ∨ maximum tensor a b = b) ∧ a ≤ maximum tensor a b ∧ b ≤ maximum tensor a b ∧
    (minimum tensor a b = a ∨ minimum tensor a b = b) ∧ minimum tensor a b ≤ a ∧ minimum tensor a b ≤ b := by
  unfold maximum minimum
  cases tensor
  · simp only [Bool.false_eq_true, if_false]
    exact ⟨max_choice a b, le_max_left _ _, le_max_right _ _, min_choice a b, min_le_left _ _, min_le_right _ _⟩
  · simp only [if_true]
    by_cases h : a > b
    · rw [if_pos h, if_pos h]
      refine ⟨Or.inl (by ring), ?_, ?_, Or.inr (by ring), ?_, ?_⟩ <;> linarith
    · rw [if_neg h, if_neg h]
      refine ⟨Or.inr rfl, ?_, le_rfl, Or.inl rfl, le_rfl, ?_⟩ <;> linarith

/-- C73: `log_k0` is log K₀, for numbers and tensors. -/
theorem C73_log_k0 (tensor : Bool) {x : ℝ} (hx : 0 < x) : logK0 tensor x = Real.log (besselK false x) := by
  have h : Real.log (Real.exp x * besselK false x) - x = Real.log (besselK false x) := by
    rw [Real.log_mul (by positivity) (besselK_pos hx _).ne', Real.log_exp]
    ring
  cases tensor <;> simpa [logK0, logKv, kve, k0e] using h

/-- C73: the backward pass of `k0e` is the derivative of its forward value. -/
theorem C73_k0e_backward {x : ℝ} (hx : 0 < x) : HasDerivAt (k0e true) (k0eBackward x) x := by
  have h := (Real.hasDerivAt_exp x).mul (hasDerivAt_besselK hx)
  have e : k0eBackward x = Real.exp x * besselK false x + Real.exp x * -besselK true x := by
    unfold k0eBackward kve
    ring
  rw [e]
  exact h

/-- C73: the backward pass of `log_k0` is the derivative of its forward value. -/
theorem C73_log_k0_backward {x : ℝ} (hx : 0 < x) : HasDerivAt (logK0 true) (logK0Backward x) x := by
  have h := (hasDerivAt_besselK hx).log (besselK_pos hx false).ne'
  have hlog : ∀ n, logKv n x = Real.log (besselK n x) := by
    intro n
    unfold logKv kve
    rw [Real.log_mul (by positivity) (besselK_pos hx _).ne', Real.log_exp]
    ring
  have e : logK0Backward x = -besselK true x / besselK false x := by
    unfold logK0Backward
    rw [hlog, hlog, Real.exp_sub, Real.exp_log (besselK_pos hx _), Real.exp_log (besselK_pos hx _)]
    ring
  rw [e]
  refine h.congr_of_eventuallyEq ?_
  filter_upwards [Ioi_mem_nhds hx] with y hy
  exact C73_log_k0 true hy

/-- C73: the default quality factor of inductors, at positive frequency and temperature. -/
theorem C73_q_ind (tensor : Bool) {omega T : ℝ} (ho : 0 < omega) (hT : 0 < T) :
    let a := hbar * (2 * Real.pi * 0.5e9) / (2 * kB * T)
    let b := hbar * omega / (2 * kB * T)
    defaultQInd tensor omega T
      = 500e6 * (besselK false a * Real.sinh a) / (besselK false b * Real.sinh b) := by
  intro a b
  have hh : 0 < hbar := by unfold hbar; norm_num
  have hk : 0 < kB := by unfold kB; norm_num
  have ha : 0 < a := by simp only [a]; positivity
  have hb : 0 < b := by simp only [b]; positivity
  have hae : hbar * 2 * Real.pi * 0.5e9 / (2 * kB * T) = a := by simp only [a]; ring
  simp only [defaultQInd, hae]
  rw [C73_log_k0 false ha, C73_log_k0 tensor hb, C73_log_sinh ha, C73_log_sinh hb]
  rw [Real.exp_sub, Real.exp_sub, Real.exp_add, Real.exp_log (besselK_pos ha _), Real.exp_log (besselK_pos hb _),
    Real.exp_log (Real.sinh_pos_iff.2 ha), Real.exp_log (Real.sinh_pos_iff.2 hb), div_div, mul_div_assoc, mul_div_assoc, mul_div_assoc]

/-- C73: the default capacitive quality factor is 10⁶ at 6 GHz, does not depend on the sign of the frequency and
falls as its power 0.7. -/
theorem C73_q_cap : defaultQCap (2 * Real.pi * 6e9) = 1e6 ∧ (∀ omega, defaultQCap (-omega) = defaultQCap omega) ∧
    ∀ s omega : ℝ, 0 < s → defaultQCap (s * omega) = s ^ (-0.7 : ℝ) * defaultQCap omega := by
  have hpos : 0 < 2 * Real.pi * 6e9 := by have := Real.pi_pos; positivity
  refine ⟨?_, fun omega => ?_, fun s omega hs => ?_⟩
  · unfold defaultQCap
    rw [abs_of_pos hpos, div_self hpos.ne', Real.one_rpow, mul_one]
  · unfold defaultQCap
    rw [abs_neg]
  · unfold defaultQCap
    rw [abs_mul, abs_of_pos hs, mul_comm s, ← div_div, div_eq_mul_inv _ s,
      Real.mul_rpow (div_nonneg hpos.le (abs_nonneg _)) (inv_nonneg.2 hs.le), Real.inv_rpow hs.le,
      Real.rpow_neg hs.le]
    ring

/-- The default admittance of junctions: √(2/π) · 8/(R_K Δ) · (2Δ/ħω)^{3/2} · x √α K₀(α) sinh α with
α = ħω/(2 k_B T), R_K = h/e². -/
theorem C73_default_admittance (tensor : Bool) (delta x omega T : ℝ) :
    let alpha := hbar * omega / (2 * kB * T)
    let D := delta * 1.6e-19
    defaultY tensor delta x omega T
      = √(2 / Real.pi) * (8 / ((2 * Real.pi * hbar / eCharge ^ 2) * D)) * (2 * D / (hbar * omega)) ^ (1.5 : ℝ)
        * x * √alpha * besselK false alpha * Real.sinh alpha := by
  intro alpha D
  have hk : k0e tensor alpha = Real.exp alpha * besselK false alpha := by cases tensor <;> rfl
  have hs : Real.exp alpha * (1 - Real.exp (-2 * alpha)) / 2 = Real.sinh alpha := by
    rw [Real.sinh_eq, mul_sub, mul_one, ← Real.exp_add]
    congr 3
    ring
  have e1 : 8 / D / (hbar * 2 * Real.pi / eCharge ^ 2) = 8 / ((2 * Real.pi * hbar / eCharge ^ 2) * D) := by
    rw [div_div]; congr 1; ring
  have e2 : 2 * D / hbar / omega = 2 * D / (hbar * omega) := by rw [div_div]
  show √(2 / Real.pi) * (8 / D / (hbar * 2 * Real.pi / eCharge ^ 2)) * (2 * D / hbar / omega) ^ (1.5 : ℝ)
    * x * √alpha * k0e tensor alpha * (1 - Real.exp (-2 * alpha)) / 2 = _
  rw [e1, e2, hk, ← hs]
  ring

/-- The default loss functions are positive at positive frequency and temperature: rates computed from
them are finite and positive. -/
theorem C73_positive (tensor : Bool) {delta x omega T : ℝ} (ho : 0 < omega) (hT : 0 < T) (hd : 0 < delta)
    (hx : 0 < x) :
    0 < defaultQCap omega ∧ 0 < defaultQInd tensor omega T ∧ 0 < defaultY tensor delta x omega T := by
  have hh : 0 < hbar := by unfold hbar; norm_num
  have hk : 0 < kB := by unfold kB; norm_num
  have he : 0 < eCharge := by unfold eCharge; norm_num
  have ha : 0 < hbar * omega / (2 * kB * T) := by positivity
  have hK := besselK_pos ha false
  have hs := Real.sinh_pos_iff.2 ha
  refine ⟨?_, ?_, ?_⟩
  · unfold defaultQCap
    have : 0 < |omega| := abs_pos.2 ho.ne'
    positivity
  · unfold defaultQInd
    positivity
  · rw [C73_default_admittance]
    positivity

/-- a 5 GHz transition at 15 mK -/
example : (0 : ℝ) < 2 * Real.pi * 5e9 ∧ (0 : ℝ) < 0.015 := ⟨by positivity, by norm_num⟩

end SQ
