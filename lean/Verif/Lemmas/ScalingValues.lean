import Verif.Lemmas.Scaling
import Verif.Props.Fluxonium

/-!
# Admissible values stay admissible under scaling
-/

namespace SQ
open Matrix Spec

theorem inv_smul_any {q : ℕ} {lam : ℝ} (hl : 0 < lam) (G : Matrix (Fin q) (Fin q) ℝ) : (lam • G)⁻¹ = lam⁻¹ • G⁻¹ := by
  by_cases hu : IsUnit G.det
  · refine Matrix.inv_eq_left_inv ?_
    rw [smul_mul_smul_comm, nonsing_inv_mul _ hu, inv_mul_cancel₀ hl.ne', one_smul]
  · have h0 : G.det = 0 := by
      by_contra h
      exact hu (isUnit_iff_ne_zero.2 h)
    rw [nonsing_inv_apply_not_isUnit _ hu, smul_zero, nonsing_inv_apply_not_isUnit]
    rw [det_smul, h0, mul_zero]
    simp

theorem wellConditioned_scaled {q : ℕ} (n : ℕ) {lam : ℝ} (hl : 1 ≤ lam) {G : Matrix (Fin q) (Fin q) ℝ} (h : WellConditioned n G) :
    WellConditioned n (lam • G) := by
  have hl0 : 0 < lam := lt_of_lt_of_le one_pos hl
  intro i
  refine lt_of_le_of_lt ?_ (h i)
  rw [inv_smul_any hl0, Matrix.smul_apply, Matrix.smul_apply, smul_eq_mul, smul_eq_mul, Real.sqrt_mul hl0.le,
    Real.sqrt_mul (inv_pos.2 hl0).le, Real.sqrt_inv]
  have h1 : 1 ≤ √lam := Real.one_le_sqrt.2 hl
  have h2 : √lam * (√lam)⁻¹ = 1 := mul_inv_cancel₀ (by positivity)
  have h3 : (√lam)⁻¹ ≤ 1 := inv_le_one_of_one_le₀ h1
  have e : 1e-6 * (√lam * √(G i i) + 1e-9) * (√n * ((√lam)⁻¹ * √(G⁻¹ i i))) =
      1e-6 * ((√lam * (√lam)⁻¹) * √(G i i) + 1e-9 * (√lam)⁻¹) * (√n * √(G⁻¹ i i)) := by ring
  rw [e, h2, one_mul]
  gcongr
  nlinarith

/-- raising all energies keeps the values of an island circuit admissible -/
theorem islandValues_scaled {c : CircSpec} (hcaps : CapsOK c.O) {n : ℕ} {v v' : ElemId → ℝ} {lam : ℝ} (hl : 1 ≤ lam)
    (h : ScaledEnergies c.O lam v v') (hC : (capacitances (c.O.withVals v) c.els n).PosDef) (hv : IslandValues c n v) :
    IslandValues c n v' := by
  have hl0 : 0 < lam := lt_of_lt_of_le one_pos hl
  refine ⟨?_, ?_⟩
  · intro q hq
    rw [placedCap_scaled hcaps h]
    exact mul_pos (inv_pos.2 hl0) (hv.1 q hq)
  · rw [invCap_scaled hcaps hl0 h c.els n hC]
    exact wellConditioned_scaled n hl hv.2

theorem fluxoniumValues_scaled {v v' : ElemId → ℝ} {lam : ℝ} (hl : 0 < lam) (h : ScaledEnergies fluxoniumObjs lam v v')
    (hv : FluxoniumValues v) : FluxoniumValues v' := by
  have e0 : v' 0 = v 0 / lam := h.2 0 (by simp [fluxoniumObjs])
  have e1 : v' 1 = v 1 / lam := h.2 1 (by simp [fluxoniumObjs])
  have e3 : v' 3 = v 3 / lam := h.2 3 (by simp [fluxoniumObjs])
  unfold FluxoniumValues
  rw [e0, e1, e3, ← add_div, lcPhaseZp_scaled hl]
  exact ⟨div_pos hv.1 hl, div_pos hv.2.1 hl, div_pos hv.2.2.1 hl, hv.2.2.2⟩

end SQ
