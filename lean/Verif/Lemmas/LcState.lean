import Verif.Lemmas.CircuitState
import Verif.Lemmas.LcBuild
import Mathlib.LinearAlgebra.Eigenspace.Triangularizable

/-! # Hamiltonian of the LC/junction circuit with negligible junction energy -/

namespace SQ
open Matrix Spec

variable {nJ : ℕ}

theorem single_diagonal {k : ℕ} {m : Fin k → ℕ} (i : Fin k) (d : Fin (m i) → ℂ) :
    single m i (diagonal d) = diagonal (fun x : Idx m => d (x i)) := by
  ext x y
  unfold single
  rw [tens_update]
  by_cases h : x = y
  · subst h; simp
  · rw [diagonal_apply_ne _ h]
    by_cases hi : x i = y i
    · have : ∃ j ∈ Finset.univ.erase i, x j ≠ y j := by
        obtain ⟨j, hj⟩ := Function.ne_iff.1 h
        refine ⟨j, ?_, hj⟩
        simp only [Finset.mem_erase, Finset.mem_univ, and_true]
        rintro rfl
        exact hj hi
      obtain ⟨j, hj, hne⟩ := this
      rw [Finset.prod_eq_zero hj (by rw [one_apply_ne hne]), mul_zero]
    · rw [diagonal_apply_ne _ hi, zero_mul]

/-- charging energy of one charge mode -/
noncomputable def chargeCoef : ℝ := (2 * eCharge / √hbar) ^ 2 / 2

theorem chargeCoef_pos : 0 < chargeCoef := by
  unfold chargeCoef eCharge hbar
  positivity

/-- A circuit with a single mode, of charge type, no external flux at its inductors and no junction
energy: the Hamiltonian is diagonal in the charge basis. -/
theorem oneCharge_ham {n b : ℕ} (C : Matrix (Fin n) (Fin n) ℝ) (M : Modes nJ n)
    (m : Fin M.keep.length → ℕ) (ng : Fin M.keep.length → ℝ) (val : ElemId → ℝ) (phi : Fin b → ℝ)
    (inds : List (IndKey b)) (juns : List (JunKey b nJ)) (i0 : Fin M.keep.length)
    (hk : M.keep.length = 1) (hn : 1 ≤ n)
    (hv : ∀ key ∈ inds, ValidEdge n key.edge) (h0 : ∀ i, M.omega i = 0) (hc : ∀ i, M.cInv i i = 1)
    (hphi : ∀ key ∈ inds, phi key.bId = 0) (hval : ∀ key ∈ juns, val key.el = 0) :
    fullHamiltonian C M m ng val phi inds juns = .ok (diagonal (fun x : Idx m =>
      ((chargeCoef * (((x i0 : ℕ) : ℝ) - ((m i0 : ℝ) - 1) / 2 - ng i0) ^ 2 : ℝ) : ℂ))) := by
  have hsub : ∀ i, i = i0 := by intro i; apply Fin.ext; omega
  unfold fullHamiltonian hamiltonianOf indHamil
  simp only
  rw [indTerms_ok C M (by omega) _ val phi inds hv]
  simp only
  have e1 : (inds.map (fun key =>
      ((1 / val key.el * phi key.bId * (Phi0 / 2 / Real.pi) / √hbar : ℝ) : ℂ) •
        ∑ i : Fin M.keep.length,
          ((coupleAt "inductive" (fun r => M.S r ⟨i, lt_of_lt_of_le i.isLt (by omega)⟩) key.edge : ℝ) : ℂ) •
            (buildMem M.data m ng).phi i)).sum = 0 := by
    apply List.sum_eq_zero
    intro x hx
    obtain ⟨key, hkey, rfl⟩ := List.mem_map.1 hx
    rw [hphi key hkey]; simp
  have e2 : (juns.map (fun key => (-(val key.el : ℂ)) •
      cosOp (buildMem M.data m ng) key.wId (phi key.bId))).sum = 0 := by
    apply List.sum_eq_zero
    intro x hx
    obtain ⟨key, hkey, rfl⟩ := List.mem_map.1 hx
    rw [hval key hkey]; simp
  rw [junTerms_eq, e1, e2, lcHamil_pairs]
  simp only [add_zero, zero_add]
  congr 1
  have hp : ∀ i j, (if i ≤ j then lcPair M.data m ng i j else 0) = lcPair M.data m ng i0 i0 := by
    intro i j
    rw [hsub i, hsub j, if_pos le_rfl]
  have huniv : (Finset.univ : Finset (Fin M.keep.length)) = {i0} := by
    ext i; simp [hsub i]
  rw [huniv, Finset.sum_singleton, Finset.sum_singleton, hp]
  unfold lcPair
  have hom : M.data.omega i0 = 0 := h0 i0
  have hci : M.data.cInv i0 i0 = 1 := hc i0
  rw [if_pos rfl, if_pos hom, hci, buildMem_Q]
  have hQ : chargeOpIso M.data m ng i0 = diagonal (fun x : Fin (m i0) =>
      (((2 * eCharge / √hbar) * (((x : ℕ) : ℝ) - ((m i0 : ℝ) - 1) / 2 - ng i0) : ℝ) : ℂ)) := by
    unfold chargeOpIso qCharge
    rw [if_pos hom]
    ext x y
    by_cases h : x = y
    · subst h
      simp
    · simp [h]
  rw [hQ, single_diagonal, diagonal_mul_diagonal, ← diagonal_smul]
  congr 1
  funext x
  simp only [Pi.smul_apply, smul_eq_mul, chargeCoef]
  push_cast
  ring

/-- an eigenvalue of a diagonal matrix is one of its entries -/
theorem diagonal_eigen {ι : Type*} [Fintype ι] [DecidableEq ι] {d : ι → ℂ} {l : ℂ} {v : ι → ℂ}
    (hv : v ≠ 0) (h : diagonal d *ᵥ v = l • v) : ∃ x, l = d x := by
  obtain ⟨x, hx⟩ := Function.ne_iff.1 hv
  refine ⟨x, ?_⟩
  have := congrFun h x
  rw [mulVec_diagonal, Pi.smul_apply, smul_eq_mul] at this
  exact (mul_right_cancel₀ hx this).symm

end SQ
