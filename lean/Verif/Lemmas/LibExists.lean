import Verif.Spec.Transform
import Mathlib.Analysis.Matrix.Order
import Mathlib.Analysis.Matrix.Spectrum
import Mathlib.Data.Fin.Tuple.Sort

/-!
# The assumptions on the numerical routines can be met

A library satisfying `LibSpec` exists for all capacitance and susceptance matrices at once.
-/

namespace SQ
open Matrix Spec

variable {n : ℕ}

/-- singular value decomposition with descending singular values -/
theorem exists_svd (M : Matrix (Fin n) (Fin n) ℝ) :
    ∃ (U Vh : Matrix (Fin n) (Fin n) ℝ) (D : Fin n → ℝ), U * Uᵀ = 1 ∧ Vh * Vhᵀ = 1 ∧
      M = U * diagonal D * Vh ∧ (∀ i j, i ≤ j → D j ≤ D i) ∧ ∀ i, 0 ≤ D i := by
  classical
  have hA : (Mᵀ * M).PosSemidef := by
    have := posSemidef_conjTranspose_mul_self M
    rwa [conjTranspose_eq_transpose_of_trivial] at this
  set lam := hA.isHermitian.eigenvalues with hlam
  let σ : Equiv.Perm (Fin n) := Tuple.sort (fun i => - lam i)
  have hmono : Monotone ((fun i => - lam i) ∘ σ) := Tuple.monotone_sort _
  let v : OrthonormalBasis (Fin n) ℝ (EuclideanSpace ℝ (Fin n)) :=
    (hA.isHermitian.eigenvectorBasis).reindex σ.symm
  have hv : ∀ i, (Mᵀ * M) *ᵥ (v i).ofLp = lam (σ i) • (v i).ofLp := by
    intro i
    have := hA.isHermitian.mulVec_eigenvectorBasis (σ i)
    simpa [v] using this
  have hnn : ∀ i, 0 ≤ lam i := hA.eigenvalues_nonneg
  have hdot : ∀ i j, (v i).ofLp ⬝ᵥ (v j).ofLp = if i = j then 1 else 0 := by
    intro i j
    have := orthonormal_iff_ite.1 v.orthonormal i j
    rw [EuclideanSpace.inner_eq_star_dotProduct] at this
    simp only [star_trivial] at this
    rw [dotProduct_comm]; exact this
  have hw : ∀ i j, (M *ᵥ (v i).ofLp) ⬝ᵥ (M *ᵥ (v j).ofLp) = if i = j then lam (σ i) else 0 := by
    intro i j
    rw [dotProduct_mulVec, ← mulVec_transpose, mulVec_mulVec, hv, smul_dotProduct, hdot]
    split <;> simp
  let u0 : Fin n → EuclideanSpace ℝ (Fin n) := fun i =>
    WithLp.toLp 2 ((√(lam (σ i)))⁻¹ • (M *ᵥ (v i).ofLp))
  let s : Set (Fin n) := {i | 0 < lam (σ i)}
  have hon : Orthonormal ℝ (s.domRestrict u0) := by
    rw [orthonormal_iff_ite]
    intro i j
    rw [EuclideanSpace.inner_eq_star_dotProduct]
    simp only [star_trivial]
    change ((√(lam (σ j)))⁻¹ • (M *ᵥ (v j).ofLp)) ⬝ᵥ ((√(lam (σ i)))⁻¹ • (M *ᵥ (v i).ofLp)) = _
    rw [smul_dotProduct, dotProduct_smul, hw]
    by_cases hij : i = j
    · subst hij
      have hp : 0 < lam (σ i) := i.2
      have := Real.mul_self_sqrt hp.le
      have h0 : √(lam (σ i)) ≠ 0 := (Real.sqrt_pos.2 hp).ne'
      rw [if_pos rfl, if_pos rfl]
      simp only [smul_eq_mul]
      field_simp
      nlinarith
    · have : ¬ (j : Fin n) = (i : Fin n) := fun h => hij (Subtype.ext h.symm)
      rw [if_neg this, if_neg hij]; simp
  obtain ⟨u, hu⟩ := hon.exists_orthonormalBasis_extension_of_card_eq (by simp)
  have hudot : ∀ i j, (u i).ofLp ⬝ᵥ (u j).ofLp = if i = j then 1 else 0 := by
    intro i j
    have := orthonormal_iff_ite.1 u.orthonormal i j
    rw [EuclideanSpace.inner_eq_star_dotProduct] at this
    simp only [star_trivial] at this
    rw [dotProduct_comm]; exact this
  have hMv : ∀ i, M *ᵥ (v i).ofLp = √(lam (σ i)) • (u i).ofLp := by
    intro i
    by_cases hi : 0 < lam (σ i)
    · rw [hu i hi]
      change _ = √(lam (σ i)) • ((√(lam (σ i)))⁻¹ • (M *ᵥ (v i).ofLp))
      rw [smul_smul, mul_inv_cancel₀ (Real.sqrt_pos.2 hi).ne', one_smul]
    · have h0 : lam (σ i) = 0 := le_antisymm (not_lt.1 hi) (hnn _)
      have := hw i i
      rw [if_pos rfl, h0, dotProduct_self_eq_zero] at this
      rw [this, h0]; simp
  let U : Matrix (Fin n) (Fin n) ℝ := Matrix.of fun a i => (u i).ofLp a
  let V : Matrix (Fin n) (Fin n) ℝ := Matrix.of fun a i => (v i).ofLp a
  have hUU : Uᵀ * U = 1 := by
    ext i j
    change (u i).ofLp ⬝ᵥ (u j).ofLp = _
    rw [hudot, one_apply]
  have hVV : Vᵀ * V = 1 := by
    ext i j
    change (v i).ofLp ⬝ᵥ (v j).ofLp = _
    rw [hdot, one_apply]
  have hMV : M * V = U * diagonal (fun i => √(lam (σ i))) := by
    ext a i
    rw [mul_diagonal]
    have := congrFun (hMv i) a
    change (M *ᵥ (v i).ofLp) a = _
    rw [this]
    change _ * _ = (u i).ofLp a * _
    rw [mul_comm]
  refine ⟨U, Vᵀ, fun i => √(lam (σ i)), mul_eq_one_comm.1 hUU, by rw [transpose_transpose]; exact hVV,
    ?_, ?_, fun i => Real.sqrt_nonneg _⟩
  · rw [← hMV, Matrix.mul_assoc, mul_eq_one_comm.1 hVV, Matrix.mul_one]
  · intro i j hij
    have := hmono hij
    simp only [Function.comp] at this
    exact Real.sqrt_le_sqrt (by linarith)

open scoped MatrixOrder in
/-- positive semidefinite square root -/
theorem exists_sqrt (A : Matrix (Fin n) (Fin n) ℝ) (hA : A.PosSemidef) :
    ∃ B : Matrix (Fin n) (Fin n) ℝ, B.PosSemidef ∧ B * B = A :=
  ⟨CFC.sqrt A, (CFC.sqrt_nonneg A).posSemidef, CFC.sqrt_mul_sqrt_self A hA.nonneg⟩

/-- numerical routines meeting the assumptions exist -/
theorem exists_lib (n : ℕ) : ∃ lib : NumLib n, ∀ C L : Matrix (Fin n) (Fin n) ℝ, C.PosDef →
    L.PosSemidef → LibSpec lib C L := by
  classical
  have hs : ∃ f : Matrix (Fin n) (Fin n) ℝ → Matrix (Fin n) (Fin n) ℝ,
      ∀ A, A.PosSemidef → (f A).PosSemidef ∧ f A * f A = A := by
    refine ⟨fun A => if h : A.PosSemidef then (exists_sqrt A h).choose else 0, fun A h => ?_⟩
    simp only [dif_pos h]
    exact (exists_sqrt A h).choose_spec
  obtain ⟨f, hf⟩ := hs
  choose U Vh D hU hV hM hsort hpos using (exists_svd (n := n))
  have he : ∃ g : Matrix (Fin n) (Fin n) ℝ → Fin n → ℝ, ∀ A, A.IsHermitian →
      A.charpoly.roots = Finset.univ.val.map (g A) := by
    refine ⟨fun A => if h : A.IsHermitian then h.eigenvalues else 0, fun A h => ?_⟩
    simp only [dif_pos h]
    exact h.roots_charpoly_eq_eigenvalues
  obtain ⟨g, hg⟩ := he
  refine ⟨⟨f, D, Vh, g⟩, fun C L hC hL => ⟨hf C hC.posSemidef, hf L hL, ⟨U _, hU _, hV _, hM _⟩,
    hsort _, hpos _, hg L hL.isHermitian⟩⟩

/-- `np.argmax` exists for arrays of any length, including the empty array -/
theorem exists_argmax (k : ℕ) : ∃ argmax : ArgmaxFn k, ArgmaxSpec argmax := by
  classical
  have h : ∀ (_ : k ≠ 0) (v : Fin k → ℝ), ∃ j, ∀ i, v i ≤ v j := by
    intro h v
    have : Nonempty (Fin k) := ⟨⟨0, by omega⟩⟩
    exact Finite.exists_max v
  exact ⟨fun h0 v => (h h0 v).choose, fun h0 v => (h h0 v).choose_spec⟩

end SQ
