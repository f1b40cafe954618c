import Verif.Lemmas.Transform
import Verif.Lemmas.Elements

/-!
# Lemmas on the transformation chain
-/

namespace SQ
open Matrix Spec

variable {nJ n : ℕ}

theorem npInv_unit {b : ℕ} {A B : Matrix (Fin b) (Fin b) ℝ} (h : npInv A = .ok B) :
    A * B = 1 ∧ IsUnit A.det := by
  unfold npInv at h
  split at h
  · cases h
  · rename_i hd
    cases h
    have hu : IsUnit A.det := isUnit_iff_ne_zero.2 hd
    exact ⟨mul_nonsing_inv _ hu, hu⟩

theorem wS_applyT (s r : Matrix (Fin n) (Fin n) ℝ) (t : Trans nJ n) :
    (applyT s r t).w = t.w * s := by
  unfold applyT
  by_cases h : nJ ≠ 0
  · simp [h]
  · simp only [h, if_false]
    have h0 : nJ = 0 := by omega
    subst h0
    ext i; exact i.elim0

/-- what is preserved by every applied transformation -/
structure CanonInv (C L : Matrix (Fin n) (Fin n) ℝ) (t : Trans nJ n) : Prop where
  canon : t.Sᵀ * t.R = 1
  cap : t.cInv = t.Rᵀ * C⁻¹ * t.R
  ind : t.l = t.Sᵀ * L * t.S

theorem canonInv_applyT {C L s r : Matrix (Fin n) (Fin n) ℝ} {t : Trans nJ n}
    (h : CanonInv C L t) (hsr : sᵀ * r = 1) : CanonInv C L (applyT s r t) where
  canon := by
    change (t.S * s)ᵀ * (t.R * r) = 1
    rw [transpose_mul, Matrix.mul_assoc, ← Matrix.mul_assoc t.Sᵀ, h.canon, Matrix.one_mul, hsr]
  cap := by
    change rᵀ * t.cInv * r = (t.R * r)ᵀ * C⁻¹ * (t.R * r)
    rw [h.cap, transpose_mul]; simp only [Matrix.mul_assoc]
  ind := by
    change sᵀ * t.l * s = (t.S * s)ᵀ * L * (t.S * s)
    rw [h.ind, transpose_mul]; simp only [Matrix.mul_assoc]

theorem canonInv_init (C L : Matrix (Fin n) (Fin n) ℝ) (W : Matrix (Fin nJ) (Fin n) ℝ) :
    CanonInv C L (initTrans C L W) where
  canon := by simp [initTrans]
  cap := by simp [initTrans]
  ind := by simp [initTrans]

/-! ### first transformation -/

/-- the state after the first transformation and the frequencies -/
noncomputable def afterT1 (lib : NumLib n) (C L : Matrix (Fin n) (Fin n) ℝ)
    (W : Matrix (Fin nJ) (Fin n) ℝ) : Trans nJ n := setOmega (t1 lib C L (initTrans C L W))

theorem afterT1_S (lib : NumLib n) (C L : Matrix (Fin n) (Fin n) ℝ)
    (W : Matrix (Fin nJ) (Fin n) ℝ) : (afterT1 lib C L W).S = matS1 lib C L := by
  change 1 * matS1 lib C L = _
  rw [Matrix.one_mul]

theorem afterT1_R (lib : NumLib n) (C L : Matrix (Fin n) (Fin n) ℝ)
    (W : Matrix (Fin nJ) (Fin n) ℝ) : (afterT1 lib C L W).R = ((matS1 lib C L)⁻¹)ᵀ := by
  change 1 * ((matS1 lib C L)⁻¹)ᵀ = _
  rw [Matrix.one_mul]

theorem afterT1_w (lib : NumLib n) (C L : Matrix (Fin n) (Fin n) ℝ)
    (W : Matrix (Fin nJ) (Fin n) ℝ) : (afterT1 lib C L W).w = W * (afterT1 lib C L W).S := by
  rw [afterT1_S]
  exact wS_applyT (matS1 lib C L) ((matS1 lib C L)⁻¹)ᵀ (initTrans C L W)

theorem canonS1 {lib : NumLib n} {C L : Matrix (Fin n) (Fin n) ℝ} (hC : C.PosDef)
    (hL : L.IsHermitian) (h : LibSpec lib C L) :
    (matS1 lib C L)ᵀ * ((matS1 lib C L)⁻¹)ᵀ = 1 := by
  rw [← transpose_mul, nonsing_inv_mul _ (matS1_isUnit hC hL h), transpose_one]

theorem afterT1_cInv {lib : NumLib n} {C L : Matrix (Fin n) (Fin n) ℝ} (hC : C.PosDef)
    (hL : L.IsHermitian) (h : LibSpec lib C L) (W : Matrix (Fin nJ) (Fin n) ℝ) :
    (afterT1 lib C L W).cInv = diagonal (fun i => (scaleD lib C L i)⁻¹) := by
  change (((matS1 lib C L)⁻¹)ᵀ)ᵀ * C⁻¹ * ((matS1 lib C L)⁻¹)ᵀ = _
  have h1 := matS1_cap hC hL h
  have h2 : diagonal (fun i => (scaleD lib C L i)⁻¹) = (diagonal (scaleD lib C L))⁻¹ := by
    symm
    apply inv_eq_right_inv
    rw [diagonal_mul_diagonal, ← diagonal_one]
    congr 1; funext i
    exact mul_inv_cancel₀ (scaleD_pos hC hL h i).ne'
  rw [h2, ← h1, Matrix.mul_inv_rev, Matrix.mul_inv_rev, transpose_transpose, transpose_nonsing_inv,
    Matrix.mul_assoc]

theorem afterT1_l {lib : NumLib n} {C L : Matrix (Fin n) (Fin n) ℝ} (hC : C.PosDef)
    (hL : L.IsHermitian) (h : LibSpec lib C L) (W : Matrix (Fin nJ) (Fin n) ℝ) :
    (afterT1 lib C L W).l = diagonal (fun i : Fin n => if singStart lib C L ≤ (i : ℕ) then 0
      else scaleD lib C L i * lib.svdD (scaledL lib C L) i ^ 2) := by
  have h1 := matS1_ind h
  ext i j
  change (if i = j ∧ singStart lib C L ≤ (i : ℕ) then 0
    else ((matS1 lib C L)ᵀ * L * matS1 lib C L) i j) = _
  rw [h1]
  by_cases hij : i = j
  · subst hij
    by_cases hs : singStart lib C L ≤ (i : ℕ)
    · simp [hs]
    · simp only [true_and, hs, if_false, diagonal_apply_eq]
      have := Real.mul_self_sqrt (scaleD_pos hC hL h i).le
      calc _ = √(scaleD lib C L i) * √(scaleD lib C L i) * lib.svdD (scaledL lib C L) i ^ 2 := by
            ring
        _ = _ := by rw [this]
  · simp [hij]

theorem afterT1_omega {lib : NumLib n} {C L : Matrix (Fin n) (Fin n) ℝ} (hC : C.PosDef)
    (hL : L.IsHermitian) (h : LibSpec lib C L) (W : Matrix (Fin nJ) (Fin n) ℝ) (i : Fin n) :
    (afterT1 lib C L W).omega i =
      if singStart lib C L ≤ (i : ℕ) then 0 else lib.svdD (scaledL lib C L) i := by
  change √((afterT1 lib C L W).cInv i i * (afterT1 lib C L W).l i i) = _
  rw [afterT1_cInv hC hL h, afterT1_l hC hL h, diagonal_apply_eq, diagonal_apply_eq]
  split
  · simp
  · have hp := scaleD_pos hC hL h i
    rw [← mul_assoc, inv_mul_cancel₀ hp.ne', one_mul, Real.sqrt_sq (h.svdNonneg i)]

theorem afterT1_omega_zero_iff {lib : NumLib n} {C L : Matrix (Fin n) (Fin n) ℝ} (hC : C.PosDef)
    (hL : L.IsHermitian) (h : LibSpec lib C L) (W : Matrix (Fin nJ) (Fin n) ℝ) (i : Fin n) :
    (afterT1 lib C L W).omega i = 0 ↔ singStart lib C L ≤ (i : ℕ) := by
  rw [afterT1_omega hC hL h]
  split
  · simp [*]
  · rename_i hs
    have := (svdD_pos_iff hC h i).2 (by have := singStart_le (C := C) hL h; omega)
    simp [hs, this.ne']

/-- the flux part without and with the spectral gap -/
theorem afterT1_canon {lib : NumLib n} {C L : Matrix (Fin n) (Fin n) ℝ} (hC : C.PosDef)
    (hL : L.IsHermitian) (h : LibSpec lib C L) (hg : SpectralGap lib L)
    (W : Matrix (Fin nJ) (Fin n) ℝ) : CanonInv C L (afterT1 lib C L W) where
  canon := by rw [afterT1_S, afterT1_R, canonS1 hC hL h]
  cap := by
    rw [afterT1_R]; rfl
  ind := by
    rw [afterT1_S, afterT1_l hC hL h, matS1_ind h]
    congr 1; funext i
    have hs := Real.mul_self_sqrt (scaleD_pos hC hL h i).le
    split
    · rename_i hle
      rw [singStart_gap hC hL h hg] at hle
      have : ¬ 0 < lib.svdD (scaledL lib C L) i := by
        rw [svdD_pos_iff hC h]; omega
      have h0 : lib.svdD (scaledL lib C L) i = 0 :=
        le_antisymm (not_lt.1 this) (h.svdNonneg i)
      rw [h0]; ring
    · calc _ = √(scaleD lib C L i) * √(scaleD lib C L i) *
            lib.svdD (scaledL lib C L) i ^ 2 := by rw [hs]
        _ = _ := by ring

/-! ### second transformation -/

/-- Everything `_get_and_apply_transformation_2` can return normally. -/
theorem t2_ok {sv : SvdFn} {argsort : ArgsortFn} {draws : Draws} {numJ : ℕ}
    {W : Matrix (Fin nJ) (Fin n) ℝ} {S1 : Matrix (Fin n) (Fin n) ℝ} {fuel k : ℕ}
    {t t' : Trans nJ n} (h : t2 sv argsort draws numJ W S1 fuel k t = some (.ok t')) :
    ∃ s r, sᵀ * r = 1 ∧ IsUnit s.det ∧ gsSuccessful numJ t s ∧
      (s = 1 ∨ ∃ F : Matrix (Fin (chargeCols t.omega).length) (Fin (chargeCols t.omega).length) ℝ,
        s = blockS2 (chargeCols_length_le t.omega) F) ∧
      t' = { applyT s r t with w := roundZeroOne numJ t.omega (applyT s r t).w } := by
  induction fuel generalizing k with
  | zero => simp [t2] at h
  | succ fuel ih =>
    rw [t2] at h
    split at h
    · cases h
    · cases h
    · rename_i s k' hc
      split at h
      · cases h
      · rename_i r hr
        obtain ⟨h1, h2⟩ := npInv_unit hr
        rw [det_transpose] at h2
        split at h
        · rename_i hgs
          refine ⟨s, r, h1, h2, hgs, ?_, ?_⟩
          · unfold t2Choose at hc
            simp only at hc
            split at hc
            · split at hc
              · cases hc
              · split at hc
                · cases hc
                · split at hc
                  · cases hc
                  · cases hc; exact Or.inr ⟨_, rfl⟩
            · cases hc; exact Or.inl rfl
          · simp only [Option.some.injEq, Except.ok.injEq] at h
            rw [← h]; rfl
        · exact ih h

/-! ### third transformation -/

theorem finishModes_eq (torch : Bool) (t : Trans nJ n) :
    ∃ keep, finishModes torch t = restrict t keep ∧ keep.Pairwise (· < ·) := by
  have hsort : (List.finRange n).Pairwise (· < ·) := List.pairwise_lt_finRange n
  unfold finishModes
  split
  · exact ⟨_, rfl, hsort.filter _⟩
  · exact ⟨_, rfl, hsort⟩

/-- the zero-point phase scales inversely to the flux scale factor -/
theorem phiZp_scale (a b d : ℝ) (hd : 0 < d) :
    (2 * Real.pi / Phi0) * √(hbar / 2 * √(d⁻¹ * a * d⁻¹ / (d * b * d))) * d =
      (2 * Real.pi / Phi0) * √(hbar / 2 * √(a / b)) := by
  have e : d⁻¹ * a * d⁻¹ / (d * b * d) = ((d⁻¹) ^ 2) ^ 2 * (a / b) := by
    by_cases hb : b = 0
    · simp [hb]
    · field_simp
  have h2 : √(((d⁻¹) ^ 2) ^ 2 * (a / b)) = (d⁻¹) ^ 2 * √(a / b) := by
    rw [Real.sqrt_mul (sq_nonneg ((d⁻¹) ^ 2)), Real.sqrt_sq (sq_nonneg _)]
  have h3 : √(hbar / 2 * ((d⁻¹) ^ 2 * √(a / b))) = d⁻¹ * √(hbar / 2 * √(a / b)) := by
    rw [show hbar / 2 * ((d⁻¹) ^ 2 * √(a / b)) = (d⁻¹) ^ 2 * (hbar / 2 * √(a / b)) by ring,
      Real.sqrt_mul (sq_nonneg _), Real.sqrt_sq (inv_pos.2 hd).le]
  rw [e, h2, h3]
  field_simp


/-- the diagonal of the third flux transformation -/
noncomputable def t3Diag (argmax : ArgmaxFn nJ) (t : Trans nJ n) (j : Fin n) : ℝ :=
  open Classical in if t.omega j = 0 then 1 else 1 / t3Scale argmax t (t3Elim t).w j

theorem vmax_abs_pos {v : Fin n → ℝ} {i : Fin n} (h : v i ≠ 0) : 0 < vmax (fun i => |v i|) := by
  have : Nonempty (Fin n) := ⟨i⟩
  exact lt_of_lt_of_le (abs_pos.2 h) (vmax_ge (fun i => |v i|) i)

theorem col_ne_zero {S : Matrix (Fin n) (Fin n) ℝ} (h : IsUnit S.det) (j : Fin n) :
    ∃ i, S i j ≠ 0 := by
  by_contra hno
  push Not at hno
  exact (isUnit_iff_ne_zero.1 h) (det_eq_zero_of_column_eq_zero j hno)

theorem t3Scale_pos {argmax : ArgmaxFn nJ} (ha : ArgmaxSpec argmax) (t : Trans nJ n)
    (hS : IsUnit t.S.det) (j : Fin n) : 0 < t3Scale argmax t (t3Elim t).w j := by
  obtain ⟨i, hi⟩ := col_ne_zero hS j
  have hpos : 0 < vmax (fun i => |t.S i j|) := vmax_abs_pos (v := fun i => t.S i j) hi
  unfold t3Scale
  split
  · split
    · rename_i hJ hmax
      have : Nonempty (Fin nJ) := ⟨⟨0, by omega⟩⟩
      obtain ⟨k, hk⟩ := vmax_mem (t.absAlpha j)
      have h1 := ha hJ (t.absAlpha j) k
      have h2 : accHar < t.absAlpha j (argmax hJ (t.absAlpha j)) := by
        rw [hk] at hmax; linarith
      have h3 : (t3Elim t).w (argmax hJ (t.absAlpha j)) j = t.w (argmax hJ (t.absAlpha j)) j := by
        change (if _ then _ else _) = _
        rw [if_neg]
        rintro ⟨_, h4⟩; linarith
      rw [h3, abs_pos]
      intro h0
      have h5 : t.absAlpha j (argmax hJ (t.absAlpha j)) = 0 := by
        change |t.phiZp j * t.w (argmax hJ (t.absAlpha j)) j| = 0
        rw [h0, mul_zero, abs_zero]
      rw [h5] at h2
      unfold accHar at h2; norm_num at h2
    · exact hpos
  · exact hpos

theorem t3Diag_pos {argmax : ArgmaxFn nJ} (ha : ArgmaxSpec argmax) (t : Trans nJ n)
    (hS : IsUnit t.S.det) (j : Fin n) : 0 < t3Diag argmax t j := by
  unfold t3Diag
  split
  · exact one_pos
  · exact one_div_pos.2 (t3Scale_pos ha t hS j)

theorem t3_eq (argmax : ArgmaxFn nJ) (t : Trans nJ n) :
    t3 argmax t = applyT (diagonal (t3Diag argmax t)) ((diagonal (t3Diag argmax t))ᵀ)⁻¹
      (t3Elim t) := rfl

theorem diag_transpose_inv {d : Fin n → ℝ} (h : ∀ i, 0 < d i) :
    ((diagonal d)ᵀ)⁻¹ = diagonal (fun i => (d i)⁻¹) := by
  rw [diagonal_transpose]
  apply inv_eq_right_inv
  rw [diagonal_mul_diagonal, ← diagonal_one]
  congr 1; funext i
  exact mul_inv_cancel₀ (h i).ne'

theorem canon_diag {d : Fin n → ℝ} (h : ∀ i, 0 < d i) :
    (diagonal d)ᵀ * ((diagonal d)ᵀ)⁻¹ = 1 := by
  rw [diag_transpose_inv h, diagonal_transpose, diagonal_mul_diagonal, ← diagonal_one]
  congr 1; funext i
  exact mul_inv_cancel₀ (h i).ne'

theorem t3_w (argmax : ArgmaxFn nJ) (t : Trans nJ n) (i : Fin nJ) (j : Fin n) :
    (t3 argmax t).w i j = (t3Elim t).w i j * t3Diag argmax t j := by
  rw [t3_eq, wS_applyT, mul_diagonal]

theorem t3_S (argmax : ArgmaxFn nJ) (t : Trans nJ n) (i j : Fin n) :
    (t3 argmax t).S i j = t.S i j * t3Diag argmax t j := by
  rw [t3_eq]
  change (t.S * diagonal (t3Diag argmax t) : Matrix (Fin n) (Fin n) ℝ) i j = _
  rw [mul_diagonal]

theorem t3_l (argmax : ArgmaxFn nJ) (t : Trans nJ n) (i j : Fin n) :
    (t3 argmax t).l i j = t3Diag argmax t i * t.l i j * t3Diag argmax t j := by
  rw [t3_eq]
  change ((diagonal (t3Diag argmax t))ᵀ * t.l * diagonal (t3Diag argmax t) :
    Matrix (Fin n) (Fin n) ℝ) i j = _
  rw [mul_diagonal, diagonal_transpose, diagonal_mul]

theorem t3_cInv {argmax : ArgmaxFn nJ} (ha : ArgmaxSpec argmax) (t : Trans nJ n)
    (hS : IsUnit t.S.det) (i j : Fin n) :
    (t3 argmax t).cInv i j = (t3Diag argmax t i)⁻¹ * t.cInv i j * (t3Diag argmax t j)⁻¹ := by
  rw [t3_eq]
  change ((((diagonal (t3Diag argmax t))ᵀ)⁻¹)ᵀ * t.cInv * ((diagonal (t3Diag argmax t))ᵀ)⁻¹ :
    Matrix (Fin n) (Fin n) ℝ) i j = _
  rw [diag_transpose_inv (t3Diag_pos ha t hS), mul_diagonal, diagonal_transpose, diagonal_mul]

theorem t3_omega (argmax : ArgmaxFn nJ) (t : Trans nJ n) :
    (t3 argmax t).omega = t.omega := rfl

theorem canonInv_elim {C L : Matrix (Fin n) (Fin n) ℝ} {t : Trans nJ n}
    (h : CanonInv C L t) : CanonInv C L (t3Elim t) := ⟨h.canon, h.cap, h.ind⟩

theorem canonInv_unit {C L : Matrix (Fin n) (Fin n) ℝ} {t : Trans nJ n}
    (h : CanonInv C L t) : IsUnit t.S.det := by
  have := isUnit_det_of_right_inverse h.canon
  rwa [det_transpose] at this

/-! ### the whole chain -/

/-- what `_transform_hamil` goes through when it returns -/
theorem transformHamil_ok {lib : NumLib n} {sv : SvdFn} {argsort : ArgsortFn}
    {argmax : ArgmaxFn nJ} {draws : Draws} {numJ : ℕ}
    {C L : Matrix (Fin n) (Fin n) ℝ} {W : Matrix (Fin nJ) (Fin n) ℝ} {fuel : ℕ} {t : Trans nJ n}
    (h : transformHamil lib sv argsort argmax draws numJ C L W fuel (initTrans C L W) =
      some (.ok t)) :
    ∃ tb, t = t3 argmax tb ∧
      ((nJ ≠ 0 ∧ t2 sv argsort draws numJ W (matS1 lib C L) fuel 0 (afterT1 lib C L W) =
        some (.ok tb)) ∨ (nJ = 0 ∧ tb = afterT1 lib C L W)) := by
  unfold transformHamil at h
  simp only at h
  split at h
  · rename_i hJ
    split at h
    · cases h
    · cases h
    · rename_i tb htb
      cases h
      exact ⟨tb, rfl, Or.inl ⟨hJ, htb⟩⟩
  · rename_i hJ
    cases h
    exact ⟨_, rfl, Or.inr ⟨by omega, rfl⟩⟩

end SQ
