import Verif.Lemmas.Phase

/-!
# Properties C74, C76, C77: phase-coordinate wave functions
-/

namespace SQ
open MeasureTheory Polynomial Spec Complex

variable {nJ k : ℕ}

/-- the truncated circuits for which every harmonic mode stays below the 250th level -/
def LowModes (D : ModeData nJ k) (m : Fin k → ℕ) : Prop :=
  ∀ i, D.omega i ≠ 0 → Harmonic D i ∧ m i ≤ 250

theorem x0_pos {D : ModeData nJ k} {i : Fin k} (h : Harmonic D i) : 0 < D.x0 i := by
  have hh : 0 < hbar := by unfold hbar; norm_num
  obtain ⟨h1, h2, _⟩ := h
  unfold ModeData.x0
  positivity

/-- global phase between index-based and charge-based plane waves -/
noncomputable def idxPhase (D : ModeData nJ k) (m : Fin k → ℕ) (phi : Fin k → ℝ) : ℂ :=
  open Classical in
  ∏ i, if D.omega i = 0 then Complex.exp ((((m i : ℝ) - 1) / 2 * phi i : ℝ) * I) else 1

theorem idxPhase_norm (D : ModeData nJ k) (m : Fin k → ℕ) (phi : Fin k → ℝ) : ‖idxPhase D m phi‖ = 1 := by
  unfold idxPhase
  rw [norm_prod]
  refine Finset.prod_eq_one fun i _ => ?_
  split_ifs
  · exact Complex.norm_exp_ofReal_mul_I _
  · simp

theorem eigPhaseCoord_eq (hyperu : ℝ → ℝ → ℝ → ℝ) {D : ModeData nJ k} {m : Fin k → ℕ} (hD : LowModes D m)
    (v : ℕ → ℂ) (phi : Fin k → ℝ) :
    eigPhaseCoord hyperu D m v phi = idxPhase D m phi * ∑ x : Idx m, entry v x * basisState D m x phi := by
  rw [eigPhaseCoord_sum, Finset.mul_sum]
  refine Finset.sum_congr rfl fun x _ => ?_
  have : ∏ i, modeWave hyperu D i (x i) (phi i) = idxPhase D m phi * basisState D m x phi := by
    unfold idxPhase basisState
    rw [← Finset.prod_mul_distrib]
    refine Finset.prod_congr rfl fun i _ => ?_
    unfold modeWave
    split_ifs with h
    · unfold planeWave chargeState
      rw [mul_left_comm, ← Complex.exp_add]
      congr 2
      push_cast
      ring
    · obtain ⟨h1, h2⟩ := hD i h
      rw [one_mul, oscWave_eq hyperu (x0_pos h1) (by have := (x i).2; omega)]
      rfl
  rw [this]
  ring

/-- C74: the squared modulus of the wave function computed by `eig_phase_coord` is that of the
superposition of the basis states with their true charge numbers, for all circuits, in particular those
with charge modes only. -/
theorem C74_modulus (hyperu : ℝ → ℝ → ℝ → ℝ) {D : ModeData nJ k} {m : Fin k → ℕ} (hD : LowModes D m)
    (v : ℕ → ℂ) (phi : Fin k → ℝ) :
    ‖eigPhaseCoord hyperu D m v phi‖ ^ 2 = ‖∑ x : Idx m, entry v x * basisState D m x phi‖ ^ 2 := by
  rw [eigPhaseCoord_eq hyperu hD, norm_mul, idxPhase_norm, one_mul]

/-- C74 for circuits of charge modes, written out. -/
theorem C74_charge_modes (hyperu : ℝ → ℝ → ℝ → ℝ) (D : ModeData nJ k) (m : Fin k → ℕ) (hD : ∀ i, D.omega i = 0)
    (v : ℕ → ℂ) (phi : Fin k → ℝ) :
    ‖eigPhaseCoord hyperu D m v phi‖ ^ 2
      = ‖∑ x : Idx m, entry v x * ∏ i, chargeState ((x i : ℕ) - ((m i : ℝ) - 1) / 2) (phi i)‖ ^ 2 := by
  rw [C74_modulus hyperu (m := m) (fun i hi => absurd (hD i) hi)]
  have : ∀ x : Idx m, basisState D m x phi = ∏ i, chargeState ((x i : ℕ) - ((m i : ℝ) - 1) / 2) (phi i) := by
    intro x
    unfold basisState
    exact Finset.prod_congr rfl fun i _ => if_pos (hD i)
  simp only [this]

/-! ### C76: inner products -/

theorem basis_integrable {D : ModeData nJ k} {m : Fin k → ℕ} (hD : LowModes D m) (x y : Idx m) :
    Integrable (fun phi => starRingEnd ℂ (basisState D m x phi) * basisState D m y phi) (phaseMeasure D) ∧
    ∫ phi, starRingEnd ℂ (basisState D m x phi) * basisState D m y phi ∂(phaseMeasure D)
      = if x = y then 1 else 0 := by
  classical
  let f : (i : Fin k) → ℕ → ℝ → ℂ := fun i n p =>
    if D.omega i = 0 then chargeState ((n : ℕ) - ((m i : ℝ) - 1) / 2) p
    else ((√Phi0 * oscState (√(hbar * √(D.cInv i i / D.l i i))) n (Phi0 * p) : ℝ) : ℂ)
  let μ : Fin k → Measure ℝ := fun i => if D.omega i = 0 then volume.restrict (Set.Ioc 0 (2 * Real.pi)) else volume
  have hμ : ∀ i, SigmaFinite (μ i) := by
    intro i
    by_cases h : D.omega i = 0
    · simp only [μ, if_pos h]; infer_instance
    · simp only [μ, if_neg h]; infer_instance
  have hsplit : (fun phi : Fin k → ℝ => starRingEnd ℂ (basisState D m x phi) * basisState D m y phi)
      = fun phi => ∏ i, (fun i p => starRingEnd ℂ (f i (x i) p) * f i (y i) p) i (phi i) := by
    funext phi
    unfold basisState
    rw [map_prod, ← Finset.prod_mul_distrib]
  have hP := Phi0_pos
  have hone : ∀ i (a b : ℕ), Integrable (fun p => starRingEnd ℂ (f i a p) * f i b p) (μ i) ∧
      ∫ p, starRingEnd ℂ (f i a p) * f i b p ∂(μ i) = if a = b then 1 else 0 := by
    intro i a b
    by_cases h : D.omega i = 0
    · simp only [f, μ, if_pos h]
      refine ⟨?_, charge_orthonormal _ a b⟩
      simp only [charge_product]
      refine (Continuous.integrableOn_Ioc ?_)
      fun_prop
    · simp only [f, μ, if_neg h]
      have hx := x0_pos (hD i h).1
      change 0 < √(hbar * √(D.cInv i i / D.l i i)) at hx
      have hint := (osc_integrable hx a b).comp_mul_left' hP.ne'
      have heq : ∀ p : ℝ, starRingEnd ℂ ((√Phi0 * oscState (√(hbar * √(D.cInv i i / D.l i i))) a (Phi0 * p) : ℝ) : ℂ)
          * ((√Phi0 * oscState (√(hbar * √(D.cInv i i / D.l i i))) b (Phi0 * p) : ℝ) : ℂ)
          = ((Phi0 * (oscState (√(hbar * √(D.cInv i i / D.l i i))) a (Phi0 * p)
            * oscState (√(hbar * √(D.cInv i i / D.l i i))) b (Phi0 * p)) : ℝ) : ℂ) := by
        intro p
        rw [Complex.conj_ofReal, ← Complex.ofReal_mul]
        congr 1
        have h2 : √Phi0 * √Phi0 = Phi0 := Real.mul_self_sqrt hP.le
        rw [mul_mul_mul_comm, h2]
      simp only [heq]
      refine ⟨(hint.const_mul Phi0).ofReal, ?_⟩
      rw [integral_complex_ofReal, integral_const_mul, Measure.integral_comp_mul_left
        (fun P => oscState (√(hbar * √(D.cInv i i / D.l i i))) a P * oscState (√(hbar * √(D.cInv i i / D.l i i))) b P),
        osc_orthonormal hx]
      rw [abs_of_pos (by positivity), smul_eq_mul, ← mul_assoc, mul_inv_cancel₀ hP.ne', one_mul]
      split_ifs <;> simp
  have hmeas : phaseMeasure D = Measure.pi μ := by
    unfold phaseMeasure
    congr 1
  rw [hsplit, hmeas]
  refine ⟨Integrable.fintype_prod_dep fun i => (hone i (x i) (y i)).1, ?_⟩
  rw [integral_fintype_prod_eq_prod (fun i p => starRingEnd ℂ (f i (x i) p) * f i (y i) p)]
  simp only [fun i => (hone i (x i) (y i)).2]
  by_cases hxy : x = y
  · subst hxy; simp
  · rw [if_neg hxy]
    obtain ⟨i, hi⟩ := Function.ne_iff.1 hxy
    exact Finset.prod_eq_zero (Finset.mem_univ i) (if_neg fun h => hi (Fin.ext h))

/-- C76: inner products of the wave functions returned by `eig_phase_coord` are those of the vectors: in
particular the wave function of a normalised eigenvector is normalised, and those of orthogonal
eigenvectors are orthogonal. The harmonic modes must not exceed 250 levels. -/
theorem C76_inner_partial (hyperu : ℝ → ℝ → ℝ → ℝ) {D : ModeData nJ k} {m : Fin k → ℕ} (hD : LowModes D m)
    (u v : ℕ → ℂ) :
    ∫ phi, starRingEnd ℂ (eigPhaseCoord hyperu D m u phi) * eigPhaseCoord hyperu D m v phi ∂(phaseMeasure D)
      = ∑ x : Idx m, starRingEnd ℂ (entry u x) * entry v x := by
  have h1 : ∀ phi, starRingEnd ℂ (eigPhaseCoord hyperu D m u phi) * eigPhaseCoord hyperu D m v phi
      = ∑ x : Idx m, ∑ y : Idx m, (starRingEnd ℂ (entry u x) * entry v y)
        * (starRingEnd ℂ (basisState D m x phi) * basisState D m y phi) := by
    intro phi
    have hn : starRingEnd ℂ (idxPhase D m phi) * idxPhase D m phi = 1 := by
      rw [← Complex.normSq_eq_conj_mul_self, Complex.normSq_eq_norm_sq, idxPhase_norm]
      simp
    rw [eigPhaseCoord_eq hyperu hD, eigPhaseCoord_eq hyperu hD, map_mul]
    rw [show ∀ a b c d : ℂ, a * b * (c * d) = (a * c) * (b * d) by intros; ring, hn, one_mul, map_sum,
      Finset.sum_mul_sum]
    refine Finset.sum_congr rfl fun x _ => Finset.sum_congr rfl fun y _ => ?_
    rw [map_mul]
    ring
  simp only [h1]
  rw [integral_finsetSum _ fun x _ => integrable_finsetSum _ fun y _ => (basis_integrable hD x y).1.const_mul _]
  refine Finset.sum_congr rfl fun x _ => ?_
  rw [integral_finsetSum _ fun y _ => (basis_integrable hD x y).1.const_mul _]
  simp only [integral_const_mul, (basis_integrable hD x _).2]
  simp

/-- C76: normalisation. -/
theorem C76_normalised_partial (hyperu : ℝ → ℝ → ℝ → ℝ) {D : ModeData nJ k} {m : Fin k → ℕ} (hD : LowModes D m)
    (v : ℕ → ℂ) (hv : ∑ x : Idx m, ‖entry v x‖ ^ 2 = 1) :
    ∫ phi, ‖eigPhaseCoord hyperu D m v phi‖ ^ 2 ∂(phaseMeasure D) = 1 := by
  have h := C76_inner_partial hyperu hD v v
  have e : ∀ z : ℂ, starRingEnd ℂ z * z = ((‖z‖ ^ 2 : ℝ) : ℂ) := by
    intro z
    rw [← Complex.normSq_eq_conj_mul_self, Complex.normSq_eq_norm_sq]
  simp only [e] at h
  rw [integral_complex_ofReal, ← Complex.ofReal_sum, hv] at h
  exact_mod_cast h

/-- a circuit with one charge mode (3 states) and one harmonic mode (5 states) -/
example : ∃ D : ModeData 0 2, LowModes D ![3, 5] ∧ (∃ i, D.omega i = 0) ∧ (∃ i, D.omega i ≠ 0) := by
  refine ⟨⟨1, Matrix.diagonal ![0, 1], 0, ![0, 1]⟩, ?_, ⟨0, rfl⟩, ⟨1, by simp⟩⟩
  intro i hi
  match i with
  | 0 => exact absurd rfl hi
  | 1 => exact ⟨⟨by simp, by simp, by simp⟩, by simp⟩

theorem osc_250 (hyperu : ℝ → ℝ → ℝ → ℝ) {x0 : ℝ} (hx : 0 < x0) :
    oscWave hyperu x0 250 0 = 0 ∧ √Phi0 * oscState x0 250 (Phi0 * 0) ≠ 0 := by
  constructor
  · unfold oscWave hermiteHigh
    simp
  · unfold oscState
    have hP := Phi0_pos
    have hc : aeval (0 : ℝ) (hermite 250) ≠ 0 := by
      have h1 : aeval (0 : ℝ) (hermite 250) = ((coeff (hermite 250) 0 : ℤ) : ℝ) := by
        rw [aeval_def, eval₂_at_zero]
        rfl
      rw [h1, coeff_hermite_of_even_add (by decide)]
      have : ((-1 : ℤ) ^ ((250 - 0) / 2) * ((250 - 0 - 1).doubleFactorial : ℤ) * (Nat.choose 250 0 : ℤ)) ≠ 0 := by
        refine mul_ne_zero (mul_ne_zero (pow_ne_zero _ (by norm_num)) ?_) (by rw [Nat.choose_zero_right]; norm_num)
        exact_mod_cast (Nat.doubleFactorial_pos _).ne'
      exact_mod_cast this
    have h3 : √2 * (Phi0 * 0) / x0 = 0 := by simp
    rw [h3]
    have : (0 : ℝ) < (Nat.factorial 250 : ℝ) := by exact_mod_cast Nat.factorial_pos 250
    refine mul_ne_zero (by positivity) (mul_ne_zero (mul_ne_zero ?_ hc) (Real.exp_pos _).ne')
    have hpi := Real.pi_pos
    positivity

/-- one harmonic mode truncated at 251 levels -/
noncomputable abbrev oneMode : ModeData 0 1 := ⟨1, 1, 0, fun _ => 1⟩

/-- C74 and C76 fail from the 250th level on: the wave function returned for the (even) 250th level of a
harmonic mode vanishes at phase zero, whatever `hyperu` returns, while the oscillator state does not. -/
theorem C76_refuted (hyperu : ℝ → ℝ → ℝ → ℝ) :
    Harmonic oneMode 0 ∧ ∃ v : ℕ → ℂ, ∃ phi : Fin 1 → ℝ,
      ∑ x : Idx (fun _ : Fin 1 => 251), ‖entry v x‖ ^ 2 = 1 ∧
      eigPhaseCoord hyperu oneMode (fun _ => 251) v phi = 0 ∧
      ∑ x : Idx (fun _ : Fin 1 => 251), entry v x * basisState oneMode _ x phi ≠ 0 := by
  have hH : Harmonic oneMode 0 := ⟨by simp, by simp, by simp⟩
  let top : Idx (fun _ : Fin 1 => 251) := fun _ => ⟨250, by norm_num⟩
  let v : ℕ → ℂ := fun i => if i = 250 then 1 else 0
  have hent : ∀ x : Idx (fun _ : Fin 1 => 251), entry v x = if x = top then 1 else 0 := by
    intro x
    have e : rowMajor (List.ofFn (fun _ : Fin 1 => 251)) (List.ofFn fun i => (x i : ℕ)) = (x 0 : ℕ) := by
      simp [rowMajor]
    unfold entry
    rw [e]
    simp only [v]
    by_cases h : (x 0 : ℕ) = 250
    · have : x = top := by
        funext i
        rw [Subsingleton.elim i 0]
        exact Fin.ext h
      rw [if_pos h, if_pos this]
    · have : x ≠ top := fun hx => h (by rw [hx])
      rw [if_neg h, if_neg this]
  have hom : oneMode.omega 0 ≠ 0 := one_ne_zero
  refine ⟨hH, v, fun _ => 0, ?_, ?_, ?_⟩
  · simp only [hent]
    rw [Finset.sum_eq_single top]
    · simp
    · intro x _ hx; simp [hx]
    · intro h; exact absurd (Finset.mem_univ _) h
  · rw [eigPhaseCoord_sum]
    refine Finset.sum_eq_zero fun x _ => ?_
    rw [hent]
    split_ifs with h
    · subst h
      rw [one_mul, Fin.prod_univ_one]
      unfold modeWave
      rw [if_neg hom, (osc_250 hyperu (x0_pos hH)).1]
      rfl
    · rw [zero_mul]
  · rw [Finset.sum_eq_single top]
    · rw [hent, if_pos rfl, one_mul]
      unfold basisState
      rw [Fin.prod_univ_one, if_neg hom]
      exact Complex.ofReal_ne_zero.2 (osc_250 hyperu (x0_pos hH)).2
    · intro x _ hx
      rw [hent, if_neg hx, zero_mul]
    · intro h; exact absurd (Finset.mem_univ _) h

end SQ
