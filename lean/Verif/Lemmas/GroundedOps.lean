import Verif.Spec.Grounded
import Verif.Lemmas.Linear
import Verif.Props.Symbolic

/-!
# Operators of circuits whose modes are all oscillators
-/

namespace SQ
open Matrix Spec Real

section
variable {nJ k : ℕ} {m : Fin k → ℕ}

theorem gmo_single_add (i : Fin k) (A B : Matrix (Fin (m i)) (Fin (m i)) ℂ) :
    single m i (A + B) = single m i A + single m i B := by
  ext x y
  unfold single
  rw [Matrix.add_apply, tens_update, tens_update, tens_update, Matrix.add_apply, add_mul]

/-- acting on one mode, as a ring homomorphism -/
noncomputable def singleHom (m : Fin k → ℕ) (i : Fin k) : Matrix (Fin (m i)) (Fin (m i)) ℂ →+* Op m where
  toFun := single m i
  map_one' := single_one i
  map_mul' A B := (single_mul_self i A B).symm
  map_zero' := by
    have := single_smul m i 0 0
    rwa [zero_smul, zero_smul] at this
  map_add' := gmo_single_add i

open scoped Matrix.Norms.Operator in
theorem single_exp (i : Fin k) (A : Matrix (Fin (m i)) (Fin (m i)) ℂ) :
    single m i (NormedSpace.exp A) = NormedSpace.exp (single m i A) := by
  have hc : Continuous (singleHom m i) := by
    refine continuous_matrix fun x y => ?_
    have : ∀ B, singleHom m i B x y = B (x i) (y i) * ∏ j ∈ Finset.univ.erase i, (1 : Matrix (Fin (m j)) (Fin (m j)) ℂ) (x j) (y j) :=
      fun B => tens_update _ i B x y
    simp only [this]
    exact (continuous_id.matrix_elem _ _).mul continuous_const
  exact NormedSpace.map_exp (singleHom m i) hc A

theorem single_commute {i j : Fin k} (hij : i ≠ j) (A : Matrix (Fin (m i)) (Fin (m i)) ℂ)
    (B : Matrix (Fin (m j)) (Fin (m j)) ℂ) : Commute (single m i A) (single m j B) := single_comm hij A B

/-- the exponential of a sum of one-mode operators is the product of their exponentials -/
theorem tens_exp (A : Factors m) : tens (fun j => NormedSpace.exp (A j)) = NormedSpace.exp (∑ j, single m j (A j)) := by
  classical
  have key : ∀ s : Finset (Fin k), NormedSpace.exp (∑ j ∈ s, single m j (A j)) =
      tens (fun j => if j ∈ s then NormedSpace.exp (A j) else 1) := by
    intro s
    induction s using Finset.induction_on with
    | empty => simp [tens_one]
    | insert a s ha ih =>
      rw [Finset.sum_insert ha, Matrix.exp_add_of_commute _ _ (Commute.sum_right _ _ _ fun j hj =>
        single_commute (i := a) (j := j) (fun h => ha (by rw [h]; exact hj)) _ _), ih, ← single_exp]
      unfold single
      rw [tens_mul]
      congr 1
      funext j
      by_cases h : j = a
      · subst h
        rw [Function.update_self, if_neg ha, if_pos (Finset.mem_insert_self _ _), mul_one]
      · rw [Function.update_of_ne h, one_mul]
        simp [Finset.mem_insert, h]
  rw [key]
  simp

theorem gmo_exp (D : ModeData nJ k) (ng : Fin k → ℝ) (hw : ∀ j, D.omega j ≠ 0) (q : Fin nJ) :
    (buildMem D m ng).exp q = NormedSpace.exp (Complex.I • phaseOperator m fun j => D.w q j * D.phiZp j) := by
  have e : expFactor D m q = fun j =>
      NormedSpace.exp ((Complex.I * ((D.w q j * D.phiZp j : ℝ) : ℂ)) • (qDestroy (m j) + qCreate (m j))) := by
    funext i
    unfold expFactor
    rw [if_neg (hw i)]
    by_cases h1 : m i = 1
    · rw [if_pos h1]
      have h0' : ∀ N : ℕ, N = 1 → qDestroy N = 0 := by
        rintro _ rfl
        ext x y
        simp [qDestroy]
      unfold qCreate
      rw [h0' _ h1]
      simp
    · rw [if_neg h1]
      unfold qDisplace ModeData.alpha
      congr 1
      simp only [map_mul, Complex.conj_I, Complex.conj_ofReal]
      rw [add_comm (qDestroy (m i)), smul_add, sub_eq_add_neg, ← neg_smul]
      congr 2
      · push_cast; ring
      · push_cast; ring
  change tens (expFactor D m q) = _
  rw [e, tens_exp]
  unfold phaseOperator
  rw [Finset.smul_sum]
  congr 1
  refine Finset.sum_congr rfl fun j _ => ?_
  rw [single_smul, mul_smul, onMode_eq]

theorem gmo_cos (D : ModeData nJ k) (ng : Fin k → ℝ) (hw : ∀ j, D.omega j ≠ 0) (q : Fin nJ) (x : ℝ) :
    cosOp (buildMem D m ng) q x = cosPhase m (fun j => D.w q j * D.phiZp j) x := by
  unfold cosOp cosPhase phase
  rw [gmo_exp D ng hw]

theorem gmo_lc (D : ModeData nJ k) (ng : Fin k → ℝ) (hw : ∀ j, D.omega j ≠ 0) (hd : ∀ i j, i ≠ j → D.cInv i j = 0) :
    lcHamil D (buildMem D m ng) = ∑ j, ((D.omega j : ℝ) : ℂ) • onMode m j (qCreate (m j) * qDestroy (m j)) := by
  have hs : D.cInv.IsSymm := by
    ext i j
    by_cases h : i = j
    · rw [h]; rfl
    · rw [transpose_apply, hd i j h, hd j i (Ne.symm h)]
  rw [C39_lc_hamiltonian D hs m ng]
  have e : ∀ i j, (if i = j ∧ D.omega i ≠ 0 then (0 : Op m)
        else ((D.cInv i j : ℝ) : ℂ) • ((buildMem D m ng).Q i * (buildMem D m ng).Q j)) = 0 := by
    intro i j
    by_cases h : i = j
    · rw [if_pos ⟨h, hw i⟩]
    · rw [if_neg (fun h' => h h'.1), hd i j h]; simp
  simp only [e, Finset.sum_const_zero, smul_zero, add_zero]
  refine Finset.sum_congr rfl fun j _ => ?_
  rw [if_pos (hw j), buildMem_N, create_destroy, onMode_eq]
  unfold numOpIso
  rw [if_neg (hw j)]

theorem gmo_ind (D : ModeData nJ k) (ng : Fin k → ℝ) (hw : ∀ j, D.omega j ≠ 0) (val x : ℝ) (cf : Fin k → ℝ) :
    ((1 / val * x * (Phi0 / 2 / π) / √hbar : ℝ) : ℂ) • ∑ i, ((cf i : ℝ) : ℂ) • (buildMem D m ng).phi i =
      (((Phi0 / (2 * π)) ^ 2 / (hbar * val) * x : ℝ) : ℂ) • phaseOperator m fun j => D.phiZp j * cf j := by
  unfold phaseOperator
  rw [Finset.smul_sum, Finset.smul_sum]
  refine Finset.sum_congr rfl fun j _ => ?_
  have h := zp_flux D m (hw j)
  have hh : √hbar ≠ 0 := (Real.sqrt_pos.2 hbar_pos).ne'
  have hP : Phi0 ≠ 0 := Phi0_pos.ne'
  have hpi : π ≠ 0 := Real.pi_pos.ne'
  rw [buildMem_phi, onMode_eq]
  have e : fluxOpIso D m j = ((Phi0 / (2 * π * √hbar) * D.phiZp j : ℝ) : ℂ) • (qDestroy (m j) + qCreate (m j)) := by
    have e1 : ((Phi0 / (2 * π * √hbar) : ℝ) : ℂ) • ((2 * π / Phi0 * √hbar : ℝ) : ℂ) • fluxOpIso D m j = fluxOpIso D m j := by
      rw [smul_smul, ← Complex.ofReal_mul]
      have : Phi0 / (2 * π * √hbar) * (2 * π / Phi0 * √hbar) = 1 := by field_simp
      rw [this]; simp
    rw [← e1, ← h, smul_smul, ← Complex.ofReal_mul]
  rw [e, single_smul, smul_smul, smul_smul, smul_smul]
  congr 1
  rw [← Complex.ofReal_mul, ← Complex.ofReal_mul, ← Complex.ofReal_mul]
  congr 1
  have : (Phi0 / (2 * π)) ^ 2 / (hbar * val) = Phi0 / (2 * π) * (Phi0 / (2 * π)) / (√hbar * √hbar * val) := by
    rw [Real.mul_self_sqrt hbar_pos.le, sq]
  rw [this]
  by_cases hv : val = 0
  · simp [hv]
  · field_simp

end

/-! ### the sign of a pattern does not matter -/

/-- Π_j s_j^{n_j} -/
noncomputable def modeParity {k : ℕ} (m : Fin k → ℕ) (s : Fin k → ℝ) : Op m :=
  tens fun j => diagonal fun x : Fin (m j) => ((s j ^ (x : ℕ) : ℝ) : ℂ)

section
variable {k n : ℕ} {m : Fin k → ℕ} {s : Fin k → ℝ}

theorem sgn_sq {s : ℝ} (h : s = 1 ∨ s = -1) : s * s = 1 := by rcases h with h | h <;> rw [h] <;> norm_num

theorem modeParity_herm : (modeParity m s)ᴴ = modeParity m s := by
  unfold modeParity
  rw [tens_conjTranspose]
  congr 1
  funext j
  rw [diagonal_conjTranspose]
  congr 1
  funext x
  simp

theorem modeParity_sq (hs : ∀ j, s j = 1 ∨ s j = -1) : modeParity m s * modeParity m s = 1 := by
  unfold modeParity
  rw [tens_mul, ← tens_one]
  congr 1
  funext j
  rw [diagonal_mul_diagonal, ← diagonal_one]
  congr 1
  funext x
  rw [← Complex.ofReal_mul, ← mul_pow, sgn_sq (hs j), one_pow]; simp

theorem modeParity_single (hs : ∀ j, s j = 1 ∨ s j = -1) (j : Fin k) (A : Matrix (Fin (m j)) (Fin (m j)) ℂ) :
    modeParity m s * single m j A * modeParity m s =
      single m j ((diagonal fun x : Fin (m j) => ((s j ^ (x : ℕ) : ℝ) : ℂ)) * A *
        diagonal fun x : Fin (m j) => ((s j ^ (x : ℕ) : ℝ) : ℂ)) := by
  unfold modeParity single
  rw [tens_mul, tens_mul]
  congr 1
  funext i
  by_cases h : i = j
  · subst h; simp
  · rw [Function.update_of_ne h, Function.update_of_ne h, mul_one, diagonal_mul_diagonal, ← diagonal_one]
    congr 1
    funext x
    rw [← Complex.ofReal_mul, ← mul_pow, sgn_sq (hs i), one_pow]; simp

theorem parity_quad (hs : ∀ j, s j = 1 ∨ s j = -1) (j : Fin k) :
    modeParity m s * onMode m j (qDestroy (m j) + qCreate (m j)) * modeParity m s =
      ((s j : ℝ) : ℂ) • onMode m j (qDestroy (m j) + qCreate (m j)) := by
  rw [onMode_eq, modeParity_single hs, ← single_smul]
  congr 1
  ext x y
  rw [mul_diagonal, diagonal_mul, Matrix.smul_apply, smul_eq_mul, Matrix.add_apply]
  have hq := sgn_sq (hs j)
  have key : ∀ a : ℕ, (s j ^ a * s j ^ (a + 1) : ℝ) = s j := by
    intro a
    rw [pow_succ, ← mul_assoc, ← mul_pow, hq, one_pow, one_mul]
  have e1 : ∀ z : ℂ, ((s j ^ (x : ℕ) : ℝ) : ℂ) * z * ((s j ^ (y : ℕ) : ℝ) : ℂ) = ((s j ^ (x : ℕ) * s j ^ (y : ℕ) : ℝ) : ℂ) * z := by
    intro z; push_cast; ring
  rw [e1]
  unfold qCreate qDestroy
  rw [conjTranspose_apply, of_apply, of_apply]
  by_cases h1 : (x : ℕ) + 1 = y
  · rw [if_pos h1, if_neg (by omega), ← h1, key]
  · by_cases h2 : (y : ℕ) + 1 = x
    · rw [if_neg h1, if_pos h2, ← h2, mul_comm (s j ^ _), key]
    · rw [if_neg h1, if_neg h2]; simp

theorem parity_num (hs : ∀ j, s j = 1 ∨ s j = -1) (j : Fin k) :
    modeParity m s * onMode m j (qCreate (m j) * qDestroy (m j)) * modeParity m s =
      onMode m j (qCreate (m j) * qDestroy (m j)) := by
  rw [onMode_eq, modeParity_single hs, create_destroy]
  congr 1
  unfold qNum
  rw [diagonal_mul_diagonal, diagonal_mul_diagonal]
  congr 1
  funext x
  have : ((s j ^ (x : ℕ) : ℝ) : ℂ) * ((s j ^ (x : ℕ) : ℝ) : ℂ) = 1 := by
    rw [← Complex.ofReal_mul, ← mul_pow, sgn_sq (hs j), one_pow]; simp
  linear_combination ((x : ℕ) : ℂ) * this

theorem parity_phase (hs : ∀ j, s j = 1 ∨ s j = -1) (g : Fin k → ℝ) :
    modeParity m s * phaseOperator m g * modeParity m s = phaseOperator m fun j => s j * g j := by
  unfold phaseOperator
  rw [Finset.mul_sum, Finset.sum_mul]
  refine Finset.sum_congr rfl fun j _ => ?_
  rw [mul_smul_comm, smul_mul_assoc, parity_quad hs, smul_smul]
  congr 1
  push_cast; ring

theorem parity_cos (hs : ∀ j, s j = 1 ∨ s j = -1) (g : Fin k → ℝ) (x : ℝ) :
    modeParity m s * cosPhase m g x * modeParity m s = cosPhase m (fun j => s j * g j) x := by
  have hu : IsUnit (modeParity m s) := IsUnit.of_mul_eq_one _ (modeParity_sq hs)
  have hi : (modeParity m s)⁻¹ = modeParity m s := inv_eq_left_inv (modeParity_sq hs)
  have he : modeParity m s * NormedSpace.exp (Complex.I • phaseOperator m g) * modeParity m s =
      NormedSpace.exp (Complex.I • phaseOperator m fun j => s j * g j) := by
    have := Matrix.exp_conj (modeParity m s) (Complex.I • phaseOperator m g) hu
    rw [hi] at this
    rw [← this, mul_smul_comm, smul_mul_assoc, parity_phase hs]
  have he' : modeParity m s * (NormedSpace.exp (Complex.I • phaseOperator m g))ᴴ * modeParity m s =
      (NormedSpace.exp (Complex.I • phaseOperator m fun j => s j * g j))ᴴ := by
    rw [← he, conjTranspose_mul, conjTranspose_mul, modeParity_herm, Matrix.mul_assoc]
  unfold cosPhase
  simp only
  rw [mul_smul_comm, smul_mul_assoc, mul_add, add_mul, mul_smul_comm, smul_mul_assoc, he, conjTranspose_smul,
    mul_smul_comm, smul_mul_assoc, he', conjTranspose_smul]

theorem acrossEdge_smul (a : ℝ) (x : Fin n → ℝ) (e : Edge) : acrossEdge (fun k => a * x k) e = a * acrossEdge x e := by
  unfold acrossEdge
  rw [Finset.mul_sum]
  exact Finset.sum_congr rfl fun k _ => by ring

theorem phaseZp_smul (a ω : ℝ) (x : Fin n → ℝ) (e : Edge) : phaseZp ω (fun k => a * x k) e = a * phaseZp ω x e := by
  unfold phaseZp
  rw [acrossEdge_smul]; ring

theorem neglect_sgn {a : ℝ} (h : a = 1 ∨ a = -1) (g : ℝ) : neglect (a * g) = a * neglect g := by
  have ha : |a * g| = |g| := by
    rw [abs_mul]
    rcases h with h | h <;> rw [h] <;> simp
  unfold neglect
  rw [ha]
  split <;> simp

/-- turning patterns around does not change the levels -/
theorem normalMode_sign (hs : ∀ j, s j = 1 ∨ s j = -1) (ω : Fin k → ℝ) (v : Fin k → Fin n → ℝ) (inds juns : List PlacedBranch) :
    (modeParity m s)ᴴ * normalModeHamiltonian m ω v inds juns * modeParity m s =
      normalModeHamiltonian m ω (fun j i => s j * v j i) inds juns := by
  rw [modeParity_herm]
  unfold normalModeHamiltonian
  have hl : ∀ (l : List PlacedBranch) (f : PlacedBranch → Op m), modeParity m s * (l.map f).sum * modeParity m s =
      (l.map fun q => modeParity m s * f q * modeParity m s).sum := by
    intro l f
    induction l with
    | nil => simp
    | cons q l ih => simp only [List.map_cons, List.sum_cons, mul_add, add_mul, ih]
  rw [mul_sub, sub_mul, mul_add, add_mul, hl, hl, Finset.mul_sum, Finset.sum_mul]
  congr 1
  · congr 1
    · refine Finset.sum_congr rfl fun j _ => ?_
      rw [mul_smul_comm, smul_mul_assoc, parity_num hs]
    · congr 1
      refine List.map_congr_left fun q _ => ?_
      rw [mul_smul_comm, smul_mul_assoc, parity_phase hs]
      congr 2
      funext j
      rw [phaseZp_smul]
  · congr 1
    refine List.map_congr_left fun q _ => ?_
    rw [mul_smul_comm, smul_mul_assoc, parity_cos hs]
    congr 2
    funext j
    rw [phaseZp_smul, neglect_sgn (hs j)]

end
end SQ
