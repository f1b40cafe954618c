import Verif.Spec.Transform
import Mathlib.Analysis.Matrix.Spectrum
import Mathlib.LinearAlgebra.Matrix.Rank
import Mathlib.LinearAlgebra.Matrix.DotProduct

/-!
# Lemmas on the first transformation
-/

namespace SQ
open Matrix Spec

variable {nJ n : ℕ}

theorem vmax_ge [Nonempty (Fin n)] (v : Fin n → ℝ) (i : Fin n) : v i ≤ vmax v :=
  le_ciSup (Set.finite_range v).bddAbove i

theorem vmax_mem [Nonempty (Fin n)] (v : Fin n → ℝ) : ∃ i, vmax v = v i := by
  obtain ⟨i, hi⟩ := exists_eq_ciSup_of_finite (f := v)
  exact ⟨i, hi.symm⟩

theorem card_zero_eigs {L : Matrix (Fin n) (Fin n) ℝ} (hL : L.IsHermitian) (e : Fin n → ℝ)
    (he : L.charpoly.roots = Finset.univ.val.map e) :
    (Finset.univ.filter (fun i => e i ≠ 0)).card = L.rank := by
  rw [hL.rank_eq_card_non_zero_eigs, Fintype.card_subtype]
  have h := hL.roots_charpoly_eq_eigenvalues
  rw [he] at h
  have h2 := congrArg (Multiset.countP (fun x : ℝ => x ≠ 0)) h
  rw [Multiset.countP_map, Multiset.countP_map] at h2
  simpa [Finset.card, Finset.filter] using h2

theorem sorted_pos_iff (D : Fin n → ℝ) (h0 : ∀ i, 0 ≤ D i) (hs : ∀ i j, i ≤ j → D j ≤ D i)
    (r : ℕ) (hr : (Finset.univ.filter (fun i => D i ≠ 0)).card = r) (i : Fin n) :
    D i ≠ 0 ↔ (i : ℕ) < r := by
  constructor
  · intro hi
    by_contra hlt
    have hsub : Finset.univ.filter (fun k : Fin n => k ≤ i) ⊆
        Finset.univ.filter (fun i => D i ≠ 0) := by
      intro k hk
      simp only [Finset.mem_filter, Finset.mem_univ, true_and] at hk ⊢
      have := hs k i hk
      have := lt_of_le_of_ne (h0 i) (Ne.symm hi)
      linarith
    have hc := Finset.card_le_card hsub
    rw [hr] at hc
    have : (Finset.univ.filter (fun k : Fin n => k ≤ i)).card = i + 1 := by
      have h2 : Finset.univ.filter (fun k : Fin n => k ≤ i) = Finset.Iic i := by ext; simp
      rw [h2, Fin.card_Iic]
    omega
  · intro hlt hi
    have hsub : Finset.univ.filter (fun i => D i ≠ 0) ⊆
        Finset.univ.filter (fun k : Fin n => k < i) := by
      intro k hk
      simp only [Finset.mem_filter, Finset.mem_univ, true_and] at hk ⊢
      by_contra hle
      have := hs i k (not_lt.1 hle)
      exact hk (le_antisymm (by linarith) (h0 k))
    have hc := Finset.card_le_card hsub
    rw [hr] at hc
    have : (Finset.univ.filter (fun k : Fin n => k < i)).card = i := by
      have h2 : Finset.univ.filter (fun k : Fin n => k < i) = Finset.Iio i := by ext; simp
      rw [h2, Fin.card_Iio]
    omega

/-! ### facts about the library routines -/

theorem transpose_sqrt {M : Matrix (Fin n) (Fin n) ℝ} (h : M.PosSemidef) : Mᵀ = M := by
  have := h.isHermitian.eq
  rwa [conjTranspose_eq_transpose_of_trivial] at this

theorem sqrtC_isUnit {lib : NumLib n} {C L : Matrix (Fin n) (Fin n) ℝ} (hC : C.PosDef)
    (h : LibSpec lib C L) : IsUnit (lib.sqrtm C).det := by
  have h1 : C.det ≠ 0 := hC.det_pos.ne'
  rw [← h.sqrtC.2, det_mul] at h1
  exact isUnit_iff_ne_zero.2 (left_ne_zero_of_mul h1)

theorem rank_scaledL {lib : NumLib n} {C L : Matrix (Fin n) (Fin n) ℝ} (hC : C.PosDef)
    (h : LibSpec lib C L) : (scaledL lib C L).rank = L.rank := by
  unfold scaledL
  rw [rank_mul_eq_left_of_isUnit_det]
  · conv_rhs => rw [← h.sqrtL.2]
    conv_rhs => rw [← transpose_sqrt h.sqrtL.1]
    conv_rhs => rw [show (lib.sqrtm L)ᵀ * (lib.sqrtm L)ᵀ = (lib.sqrtm L)ᵀ * lib.sqrtm L by
      rw [transpose_sqrt h.sqrtL.1]]
    rw [rank_transpose_mul_self]
  · rw [det_nonsing_inv]
    exact (sqrtC_isUnit hC h).ringInverse

theorem rank_svd {lib : NumLib n} {C L : Matrix (Fin n) (Fin n) ℝ} (hC : C.PosDef)
    (h : LibSpec lib C L) :
    (Finset.univ.filter (fun i => lib.svdD (scaledL lib C L) i ≠ 0)).card = L.rank := by
  obtain ⟨U, hU, hV, hM⟩ := h.svd
  rw [← rank_scaledL hC h, hM, rank_mul_eq_left_of_isUnit_det, rank_mul_eq_right_of_isUnit_det,
    rank_diagonal, Fintype.card_subtype]
  · simp only [← hM]
  · exact isUnit_det_of_right_inverse hU
  · exact isUnit_det_of_right_inverse hV

theorem svdD_pos_iff {lib : NumLib n} {C L : Matrix (Fin n) (Fin n) ℝ} (hC : C.PosDef)
    (h : LibSpec lib C L) (i : Fin n) : 0 < lib.svdD (scaledL lib C L) i ↔ (i : ℕ) < L.rank := by
  rw [← sorted_pos_iff _ h.svdNonneg h.svdSorted L.rank (rank_svd hC h) i]
  exact ⟨ne_of_gt, fun hne => lt_of_le_of_ne (h.svdNonneg i) (Ne.symm hne)⟩

/-- index of the first singular mode (circuit.py:919, 927) -/
noncomputable def singStart (lib : NumLib n) (C L : Matrix (Fin n) (Fin n) ℝ) : ℕ :=
  (t1Scale (lib.svdD (scaledL lib C L)) (lib.eigvals L)).2

theorem numSings_ge {lib : NumLib n} {C L : Matrix (Fin n) (Fin n) ℝ} (hL : L.IsHermitian)
    (h : LibSpec lib C L) : n - L.rank ≤ numSings (lib.eigvals L) := by
  classical
  have h1 := card_zero_eigs hL _ h.eig
  have h2 := Finset.card_filter_add_card_filter_not (s := Finset.univ)
    (fun i => lib.eigvals L i ≠ 0)
  rw [h1, Finset.card_univ, Fintype.card_fin] at h2
  have h3 : (Finset.univ.filter (fun i => ¬ (lib.eigvals L i ≠ 0))).card ≤
      numSings (lib.eigvals L) := by
    unfold numSings
    apply Finset.card_le_card
    intro i hi
    simp only [Finset.mem_filter, Finset.mem_univ, true_and, not_not] at hi ⊢
    rw [hi, zero_div]; unfold accSing; norm_num
  omega

theorem numSings_gap {lib : NumLib n} {C L : Matrix (Fin n) (Fin n) ℝ} (hL : L.IsHermitian)
    (h : LibSpec lib C L) (hg : SpectralGap lib L) :
    numSings (lib.eigvals L) = n - L.rank := by
  classical
  have h1 := card_zero_eigs hL _ h.eig
  have h2 := Finset.card_filter_add_card_filter_not (s := Finset.univ)
    (fun i => lib.eigvals L i ≠ 0)
  rw [h1, Finset.card_univ, Fintype.card_fin] at h2
  have h3 : numSings (lib.eigvals L) ≤
      (Finset.univ.filter (fun i => ¬ (lib.eigvals L i ≠ 0))).card := by
    unfold numSings
    apply Finset.card_le_card
    intro i hi
    simp only [Finset.mem_filter, Finset.mem_univ, true_and, not_not] at hi ⊢
    by_contra hne
    have := hg i hne
    unfold accSing vmax at hi
    linarith
  have := numSings_ge hL h
  omega

theorem vmax_svd_zero {lib : NumLib n} {C L : Matrix (Fin n) (Fin n) ℝ}
    (h : LibSpec lib C L) (hz : vmax (lib.svdD (scaledL lib C L)) = 0) (i : Fin n) :
    lib.svdD (scaledL lib C L) i = 0 := by
  have : Nonempty (Fin n) := ⟨i⟩
  have := vmax_ge (lib.svdD (scaledL lib C L)) i
  exact le_antisymm (by linarith) (h.svdNonneg i)

theorem singStart_le {lib : NumLib n} {C L : Matrix (Fin n) (Fin n) ℝ}
    (hL : L.IsHermitian) (h : LibSpec lib C L) : singStart lib C L ≤ L.rank := by
  unfold singStart t1Scale
  split
  · simp
  · have := numSings_ge hL h
    simp only; omega

theorem singStart_gap {lib : NumLib n} {C L : Matrix (Fin n) (Fin n) ℝ} (hC : C.PosDef)
    (hL : L.IsHermitian) (h : LibSpec lib C L) (hg : SpectralGap lib L) :
    singStart lib C L = L.rank := by
  have hr : L.rank ≤ n := by simpa using L.rank_le_card_width
  unfold singStart t1Scale
  split
  · rename_i hz
    simp only
    by_contra hne
    have hpos : 0 < L.rank := by omega
    have := (svdD_pos_iff hC h ⟨0, by omega⟩).2 (by simpa using hpos)
    rw [vmax_svd_zero h hz] at this
    exact lt_irrefl _ this
  · have := numSings_gap hL h hg
    simp only; omega

/-- the scaling values used by the first transformation -/
noncomputable def scaleD (lib : NumLib n) (C L : Matrix (Fin n) (Fin n) ℝ) : Fin n → ℝ :=
  (t1Scale (lib.svdD (scaledL lib C L)) (lib.eigvals L)).1

theorem scaleD_pos {lib : NumLib n} {C L : Matrix (Fin n) (Fin n) ℝ} (hC : C.PosDef)
    (hL : L.IsHermitian) (h : LibSpec lib C L) (i : Fin n) : 0 < scaleD lib C L i := by
  have hle := singStart_le hL h
  unfold singStart at hle
  unfold scaleD
  unfold t1Scale at hle ⊢
  split
  · simp
  · rename_i hz
    rw [if_neg hz] at hle
    simp only at hle ⊢
    have : Nonempty (Fin n) := ⟨i⟩
    split
    · refine lt_of_le_of_ne ?_ (Ne.symm hz)
      exact (h.svdNonneg i).trans (vmax_ge _ i)
    · exact (svdD_pos_iff hC h i).2 (by omega)

/-- the first flux transformation -/
noncomputable def matS1 (lib : NumLib n) (C L : Matrix (Fin n) (Fin n) ℝ) :
    Matrix (Fin n) (Fin n) ℝ := t1S (lib.sqrtm C) (lib.svdVh (scaledL lib C L)) (scaleD lib C L)

theorem svdVh_left {lib : NumLib n} {C L : Matrix (Fin n) (Fin n) ℝ} (h : LibSpec lib C L) :
    (lib.svdVh (scaledL lib C L))ᵀ * lib.svdVh (scaledL lib C L) = 1 := by
  obtain ⟨U, hU, hV, hM⟩ := h.svd
  exact mul_eq_one_comm.1 hV

theorem matS1_cap {lib : NumLib n} {C L : Matrix (Fin n) (Fin n) ℝ} (hC : C.PosDef)
    (hL : L.IsHermitian) (h : LibSpec lib C L) :
    (matS1 lib C L)ᵀ * C * matS1 lib C L = diagonal (scaleD lib C L) := by
  obtain ⟨U, hU, hV, hM⟩ := h.svd
  have hu := sqrtC_isUnit hC h
  set r := lib.sqrtm C with hr
  set V := lib.svdVh (scaledL lib C L) with hVdef
  set d := diagonal (fun i => √(scaleD lib C L i)) with hd
  have hS : matS1 lib C L = r⁻¹ * Vᵀ * d := rfl
  have hrt : rᵀ = r := transpose_sqrt h.sqrtC.1
  have hrit : (r⁻¹)ᵀ = r⁻¹ := by rw [transpose_nonsing_inv, hrt]
  have hdt : dᵀ = d := diagonal_transpose _
  have hrr : r⁻¹ * C * r⁻¹ = 1 := by
    rw [← h.sqrtC.2]
    rw [← Matrix.mul_assoc, nonsing_inv_mul _ hu, Matrix.one_mul, mul_nonsing_inv _ hu]
  rw [hS, transpose_mul, transpose_mul, transpose_transpose, hrit, hdt]
  calc d * (V * r⁻¹) * C * (r⁻¹ * Vᵀ * d) = d * (V * (r⁻¹ * C * r⁻¹) * Vᵀ) * d := by
        simp only [Matrix.mul_assoc]
    _ = d * d := by rw [hrr, Matrix.mul_one, hV, Matrix.mul_one]
    _ = diagonal (scaleD lib C L) := by
        rw [hd, diagonal_mul_diagonal]
        congr 1; funext i
        exact Real.mul_self_sqrt (scaleD_pos hC hL h i).le

theorem matS1_ind {lib : NumLib n} {C L : Matrix (Fin n) (Fin n) ℝ}
    (h : LibSpec lib C L) :
    (matS1 lib C L)ᵀ * L * matS1 lib C L =
      diagonal (fun i => √(scaleD lib C L i) * lib.svdD (scaledL lib C L) i ^ 2 *
        √(scaleD lib C L i)) := by
  obtain ⟨U, hU, hV, hM⟩ := h.svd
  have hU' : Uᵀ * U = 1 := mul_eq_one_comm.1 hU
  set r := lib.sqrtm C with hr
  set q := lib.sqrtm L with hq
  set V := lib.svdVh (scaledL lib C L) with hVdef
  set D := lib.svdD (scaledL lib C L) with hD
  set d := diagonal (fun i => √(scaleD lib C L i)) with hd
  have hS : matS1 lib C L = r⁻¹ * Vᵀ * d := rfl
  have hrt : rᵀ = r := transpose_sqrt h.sqrtC.1
  have hrit : (r⁻¹)ᵀ = r⁻¹ := by rw [transpose_nonsing_inv, hrt]
  have hqt : qᵀ = q := transpose_sqrt h.sqrtL.1
  have hdt : dᵀ = d := diagonal_transpose _
  have hM' : q * r⁻¹ = U * diagonal D * V := hM
  have hMt : r⁻¹ * q = Vᵀ * diagonal D * Uᵀ := by
    have := congrArg transpose hM'
    rw [transpose_mul, hrit, hqt] at this
    rw [this]; simp only [transpose_mul, diagonal_transpose, Matrix.mul_assoc]
  rw [hS, transpose_mul, transpose_mul, transpose_transpose, hrit, hdt]
  calc d * (V * r⁻¹) * L * (r⁻¹ * Vᵀ * d)
      = d * (V * (r⁻¹ * q) * (q * r⁻¹) * Vᵀ) * d := by
        rw [← h.sqrtL.2]; simp only [Matrix.mul_assoc]; rfl
    _ = d * ((V * Vᵀ) * diagonal D * (Uᵀ * U) * diagonal D * (V * Vᵀ)) * d := by
        rw [hMt, hM']; simp only [Matrix.mul_assoc]
    _ = _ := by
        rw [hV, hU', Matrix.one_mul, Matrix.mul_one, Matrix.mul_one, diagonal_mul_diagonal, hd,
          diagonal_mul_diagonal, diagonal_mul_diagonal]
        congr 1; funext i; ring

theorem matS1_isUnit {lib : NumLib n} {C L : Matrix (Fin n) (Fin n) ℝ} (hC : C.PosDef)
    (hL : L.IsHermitian) (h : LibSpec lib C L) : IsUnit (matS1 lib C L).det := by
  have h1 := congrArg det (matS1_cap hC hL h)
  rw [det_mul, det_mul, det_diagonal] at h1
  have hp : 0 < ∏ i, scaleD lib C L i := Finset.prod_pos (fun i _ => scaleD_pos hC hL h i)
  rw [← h1] at hp
  exact isUnit_iff_ne_zero.2 (right_ne_zero_of_mul hp.ne')

end SQ
