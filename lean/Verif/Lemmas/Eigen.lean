import Verif.Lemmas.Grad
import Mathlib.LinearAlgebra.Matrix.NonsingularInverse

/-! # Lemmas on eigenvector derivatives -/

namespace SQ
open Matrix Complex SQ.Spec Filter Topology

variable {ι : Type*} [Fintype ι]

theorem pyGet_nat {α : Type*} {l : List α} {i : ℕ} (h : i < l.length) : pyGet l (i : ℤ) = .ok l[i] := by
  unfold pyGet
  rw [pyIdx_ofNat h]
  rfl

theorem pyGet_mem {α : Type*} {l : List α} {i : ℤ} {x : α} (h : pyGet l i = .ok x) : l.length ≠ 0 := by
  intro h0
  have : l = [] := List.length_eq_zero_iff.1 h0
  subst this
  unfold pyGet pyIdx at h
  simp only [List.length_nil] at h
  split at h
  · cases h
  · rename_i j _; exact j.elim0

theorem braket_right (u : ι → ℂ) (A : Matrix ι ι ℂ) (v : ι → ℂ) : braket u A v = overlap u (A *ᵥ v) := by
  rw [← innerOp_eq]; rfl

theorem overlap_smul (u v : ι → ℂ) (z : ℂ) : overlap u (z • v) = z * overlap u v := by
  unfold overlap
  rw [Finset.mul_sum]
  exact Finset.sum_congr rfl fun a _ => by simp only [Pi.smul_apply, smul_eq_mul]; ring

theorem overlap_add (u v w : ι → ℂ) : overlap u (v + w) = overlap u v + overlap u w := by
  unfold overlap
  rw [← Finset.sum_add_distrib]
  exact Finset.sum_congr rfl fun a _ => by simp only [Pi.add_apply]; ring

theorem overlap_zero (u : ι → ℂ) : overlap u 0 = 0 := by simp [overlap]

theorem overlap_conj (u v : ι → ℂ) : (starRingEnd ℂ) (overlap u v) = overlap v u := by
  unfold overlap
  rw [map_sum]
  exact Finset.sum_congr rfl fun a _ => by rw [map_mul, conj_conj]; ring

theorem overlap_smul_left (u v : ι → ℂ) (z : ℂ) :
    overlap (z • u) v = (starRingEnd ℂ) z * overlap u v := by
  rw [← overlap_conj, overlap_smul, map_mul, overlap_conj]

theorem overlap_sum {κ : Type*} (s : Finset κ) (u : ι → ℂ) (f : κ → ι → ℂ) :
    overlap u (∑ i ∈ s, f i) = ∑ i ∈ s, overlap u (f i) := by
  unfold overlap
  rw [Finset.sum_comm]
  exact Finset.sum_congr rfl fun a _ => by rw [Finset.sum_apply, Finset.mul_sum]

/-- an eigenvector from the left -/
theorem braket_eigen_left {H : Matrix ι ι ℂ} (hH : H.IsHermitian) {u : ι → ℂ} {l : ℝ}
    (h : H *ᵥ u = (l : ℂ) • u) (v : ι → ℂ) : braket u H v = l * overlap u v := by
  rw [← braket_conj hH, braket_right, h, overlap_smul, map_mul, overlap_conj, conj_ofReal]

theorem braket_eigen_right {H : Matrix ι ι ℂ} {u : ι → ℂ} {l : ℝ}
    (h : H *ᵥ u = (l : ℂ) • u) (v : ι → ℂ) : braket v H u = l * overlap v u := by
  rw [braket_right, h, overlap_smul]

theorem overlap_deriv {u v : ℝ → ι → ℂ} {du dv : ι → ℂ} {x : ℝ}
    (hu : HasDerivVec u du x) (hv : HasDerivVec v dv x) :
    HasDerivAt (fun t => overlap (u t) (v t)) (overlap du (v x) + overlap (u x) dv) x := by
  have h : HasDerivAt (fun t => overlap (u t) (v t))
      (∑ a, ((starRingEnd ℂ) (du a) * v x a + (starRingEnd ℂ) (u x a) * dv a)) x := by
    unfold overlap
    exact HasDerivAt.fun_sum fun a _ => ((hu a).star.mul (hv a))
  refine h.congr_deriv ?_
  unfold overlap
  rw [← Finset.sum_add_distrib]

/-- the derivative of a normalised state is orthogonal to it up to a phase -/
theorem branch_phase {H : ℝ → Matrix ι ι ℂ} {lam : ℝ → ℝ} {psi : ℝ → ι → ℂ} {dpsi : ι → ℂ} {x : ℝ}
    (h : EigenBranch H lam psi dpsi x) : overlap dpsi (psi x) + overlap (psi x) dpsi = 0 := by
  have h1 := overlap_deriv h.deriv h.deriv
  have h2 : HasDerivAt (fun t => overlap (psi t) (psi t)) 0 x :=
    (hasDerivAt_const x (1 : ℂ)).congr_of_eventuallyEq h.norm
  exact h1.unique h2

theorem hellmann {H : ℝ → Matrix ι ι ℂ} {lam : ℝ → ℝ} {psi : ℝ → ι → ℂ} {dpsi : ι → ℂ} {x : ℝ}
    {dH : Matrix ι ι ℂ} (h : EigenBranch H lam psi dpsi x) (hH : (H x).IsHermitian)
    (hd : HasDerivOp H dH x) : HasDerivAt (fun t => (lam t : ℂ)) (braket (psi x) dH (psi x)) x := by
  have h1 := braket_deriv hd h.deriv h.deriv
  have hl : ∀ᶠ t in 𝓝 x, (lam t : ℂ) = braket (psi t) (H t) (psi t) := by
    filter_upwards [h.eigen, h.norm] with t h1 h2
    rw [braket_eigen_right h1]
    have : overlap (psi t) (psi t) = 1 := h2
    rw [this, mul_one]
  have h2 := h1.congr_of_eventuallyEq hl
  refine h2.congr_deriv ?_
  have he := h.eigen.self_of_nhds
  rw [braket_eigen_left hH he, braket_eigen_right he]
  have := branch_phase h
  linear_combination (lam x : ℂ) * this

theorem hasDerivAt_re {f : ℝ → ℝ} {z : ℂ} {x : ℝ} (h : HasDerivAt (fun t => (f t : ℂ)) z x) :
    HasDerivAt f z.re x := by
  have := (Complex.reCLM.hasFDerivAt (x := (f x : ℂ))).comp_hasDerivAt x h
  exact this

theorem hasDerivAt_re' {f : ℝ → ℂ} {z : ℂ} {x : ℝ} (h : HasDerivAt f z x) :
    HasDerivAt (fun t => (f t).re) z.re x :=
  (Complex.reCLM.hasFDerivAt (x := f x)).comp_hasDerivAt x h

/-- completeness of an orthonormal set with as many elements as the dimension -/
theorem complete {vs : List (ι → ℂ)} (hc : vs.length = Fintype.card ι) (ho : OrthonormalStates vs)
    (v : ι → ℂ) : ∑ i : Fin vs.length, overlap (vs.get i) v • vs.get i = v := by
  classical
  let V : Matrix (Fin vs.length) ι ℂ := Matrix.of fun i a => (starRingEnd ℂ) (vs.get i a)
  let U : Matrix ι (Fin vs.length) ℂ := Matrix.of fun a i => vs.get i a
  have h1 : V * U = 1 := by
    ext i j
    rw [Matrix.mul_apply, Matrix.one_apply]
    exact ho i j
  have h2 : U * V = 1 := (Matrix.mul_eq_one_comm_of_equiv
    ((Fintype.equivFinOfCardEq hc.symm).symm)).1 h1
  funext a
  have h3 : (U * V) *ᵥ v = v := by rw [h2, Matrix.one_mulVec]
  have h4 := congrFun h3 a
  rw [← Matrix.mulVec_mulVec] at h4
  rw [← h4]
  simp only [Finset.sum_apply, Pi.smul_apply, smul_eq_mul, mulVec, dotProduct, U, V, overlap,
    Matrix.of_apply]
  exact Finset.sum_congr rfl fun i _ => by ring

/-- the sum in `get_partial_vec` for a non-negative state number -/
theorem partialVecSum_eq {evecs : List (ι → ℂ)} {efreqs : List ℝ} (hlen : efreqs.length = evecs.length)
    (dH : Matrix ι ι ℂ) (psiM : ι → ℂ) (m : Fin evecs.length) (wM eps : ℝ) :
    partialVecSum evecs efreqs dH psiM (m : ℕ) wM eps = ∑ n : Fin evecs.length, if n = m then 0 else
      (braket (evecs.get n) dH psiM / ((wM - efreqs.get (n.cast hlen.symm) + eps : ℝ) : ℂ)) •
        evecs.get n := by
  unfold partialVecSum
  have hif : ∀ (acc : ι → ℂ) (n : ℕ), (if (n : ℤ) = ((m : ℕ) : ℤ) then acc else acc +
      (innerOp (evecs.getD n 0) dH psiM / ((wM - efreqs.getD n 0 + eps : ℝ) : ℂ)) • evecs.getD n 0)
      = acc + (if n = (m : ℕ) then 0 else
        (innerOp (evecs.getD n 0) dH psiM / ((wM - efreqs.getD n 0 + eps : ℝ) : ℂ)) • evecs.getD n 0) := by
    intro acc n
    by_cases h : n = (m : ℕ)
    · simp [h]
    · have : ¬ ((n : ℤ) = ((m : ℕ) : ℤ)) := by exact_mod_cast h
      simp [h, this]
  simp only [hif]
  rw [foldl_add_sum, zero_add]
  rw [show List.range evecs.length = (List.finRange evecs.length).map Fin.val by
    exact List.map_coe_finRange_eq_range.symm, List.map_map]
  rw [finRange_map_sum]
  refine Finset.sum_congr rfl fun n _ => ?_
  have h2 : efreqs.getD (n : ℕ) 0 = efreqs.get (n.cast hlen.symm) := by
    rw [List.getD_eq_getElem?_getD, List.getElem?_eq_getElem (by rw [hlen]; exact n.isLt)]
    rfl
  have h1 : evecs.getD (n : ℕ) 0 = evecs.get n := by
    rw [List.getD_eq_getElem?_getD, List.getElem?_eq_getElem n.isLt]
    rfl
  simp only [Function.comp, h1, h2, innerOp_eq, Fin.ext_iff]

end SQ
