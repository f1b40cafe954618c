import Verif.Spec.Flux
import Verif.Lemmas.Traverse
import Mathlib.LinearAlgebra.Matrix.ToLin
import Mathlib.LinearAlgebra.Matrix.Basis
import Mathlib.LinearAlgebra.FiniteDimensional.Lemmas

namespace SQ
open SQ.Spec Matrix

theorem filter_range_getD (s : List ℝ) (p : ℝ → Bool) :
    ((List.range s.length).filter (fun t => p (s.getD t 0))).length = (s.filter p).length := by
  have h : (List.range s.length).map (fun t => s.getD t 0) = s := by
    apply List.ext_getElem?
    intro i
    by_cases hi : i < s.length
    · simp [hi, List.getD_eq_getElem?_getD]
    · simp [hi]
  conv_rhs => rw [← h]
  rw [List.filter_map, List.length_map]
  rfl

/-- the columns kept, as a family of vectors -/
noncomputable def keptFam {b n : ℕ} (sv : SvdFn) (k : Matrix (Fin b) (Fin n) ℝ) :
    Fin (keptCols sv k).length → (Fin b → ℝ) := fun t i => k i ((keptCols sv k).get t)

theorem mem_keptCols {b n : ℕ} {sv : SvdFn} {k : Matrix (Fin b) (Fin n) ℝ} {j}
    (h : j ∈ keptCols sv k) : j ∈ nonzeroCols k := by
  unfold keptCols at h
  simp only [List.mem_filterMap] at h
  obtain ⟨t, -, ht⟩ := h
  exact List.mem_of_getElem? ht

theorem mem_nonzeroCols {b n : ℕ} {k : Matrix (Fin b) (Fin n) ℝ} {j} :
    j ∈ nonzeroCols k ↔ ∃ i, k i j ≠ 0 := by
  simp [nonzeroCols]

/-- submatrix of non-zero columns -/
noncomputable def nzMat {b n : ℕ} (k : Matrix (Fin b) (Fin n) ℝ) :
    Matrix (Fin b) (Fin (nonzeroCols k).length) ℝ :=
  Matrix.of fun i j => k i ((nonzeroCols k).get j)

theorem length_filterMap_some {α β : Type*} (l : List α) (f : α → Option β)
    (h : ∀ x ∈ l, (f x).isSome) : (l.filterMap f).length = l.length := by
  induction l with
  | nil => rfl
  | cons x xs ih =>
    have hx := h x (by simp)
    obtain ⟨y, hy⟩ := Option.isSome_iff_exists.1 hx
    simp [List.filterMap_cons, hy, ih (fun x hx => h x (by simp [hx]))]

theorem keptCols_length {b n : ℕ} {sv : SvdFn} (hsv : SvdSpec sv) (k : Matrix (Fin b) (Fin n) ℝ) :
    (keptCols sv k).length = (nzMat k).rank := by
  rw [← hsv.rank b (nonzeroCols k).length (nzMat k), ← filter_range_getD]
  unfold keptCols
  simp only
  rw [length_filterMap_some]
  · rfl
  · intro t ht
    rw [List.mem_filter, List.mem_range] at ht
    have := ht.1
    rw [hsv.length] at this
    rw [List.getElem?_eq_getElem (by omega)]
    rfl

/-- If the kept columns are independent then every column is a combination of them. -/
theorem col_mem_span {b n : ℕ} {sv : SvdFn} (hsv : SvdSpec sv) (k : Matrix (Fin b) (Fin n) ℝ)
    (hli : LinearIndependent ℝ (keptFam sv k)) (j : Fin n) :
    (fun i => k i j) ∈ Submodule.span ℝ (Set.range (keptFam sv k)) := by
  by_cases hj : ∃ i, k i j ≠ 0
  · have hle : Submodule.span ℝ (Set.range (keptFam sv k))
        ≤ Submodule.span ℝ (Set.range (nzMat k).col) := by
      apply Submodule.span_mono
      rintro _ ⟨t, rfl⟩
      have hm : (keptCols sv k).get t ∈ nonzeroCols k := mem_keptCols (List.get_mem _ _)
      obtain ⟨u, hu⟩ := List.get_of_mem hm
      refine ⟨u, ?_⟩
      funext i
      simp only [Matrix.col_apply, nzMat, Matrix.of_apply, keptFam, hu]
    have heq : Submodule.span ℝ (Set.range (keptFam sv k))
        = Submodule.span ℝ (Set.range (nzMat k).col) := by
      apply Submodule.eq_of_le_of_finrank_eq hle
      rw [finrank_span_eq_card hli, ← Matrix.rank_eq_finrank_span_cols, Fintype.card_fin,
        keptCols_length hsv]
    rw [heq]
    obtain ⟨u, hu⟩ := List.get_of_mem (mem_nonzeroCols.2 hj)
    apply Submodule.subset_span
    refine ⟨u, ?_⟩
    funext i
    simp only [Matrix.col_apply, nzMat, Matrix.of_apply, hu]
  · push Not at hj
    have : (fun i => k i j) = 0 := by funext i; exact hj i
    rw [this]; exact Submodule.zero_mem _

/-- a linear equation that holds on the kept columns holds on all of them -/
theorem eq_on_all_cols {b n : ℕ} {sv : SvdFn} (hsv : SvdSpec sv) (k : Matrix (Fin b) (Fin n) ℝ)
    (hli : LinearIndependent ℝ (keptFam sv k)) (x : Fin b → ℝ)
    (hx : ∀ j ∈ keptCols sv k, ∑ i, k i j * x i = 0) (j : Fin n) : ∑ i, k i j * x i = 0 := by
  have key : ∀ v ∈ Submodule.span ℝ (Set.range (keptFam sv k)), ∑ i, v i * x i = 0 := by
    intro v hv
    induction hv using Submodule.span_induction with
    | mem v hv =>
      obtain ⟨t, rfl⟩ := hv
      exact hx _ (List.get_mem _ _)
    | zero => simp
    | add u v _ _ hu hv => simp [add_mul, Finset.sum_add_distrib, hu, hv]
    | smul a v _ hv => simp [mul_assoc, ← Finset.mul_sum, hv]
  exact key _ (col_mem_span hsv k hli j)

/-! ### square matrices from rows -/

theorem squareOf_ok {b : ℕ} {rows : List (Fin b → ℝ)} {A} (h : squareOf rows = .ok A) :
    ∃ hl : rows.length = b, ∀ t : Fin rows.length, A (t.cast hl) = rows.get t := by
  unfold squareOf at h
  split at h
  · rename_i hl
    simp only [Except.ok.injEq] at h
    refine ⟨hl, fun t => ?_⟩
    rw [← h]; rfl
  · simp at h

theorem npInv_ok {b : ℕ} {A Ai : Matrix (Fin b) (Fin b) ℝ} (h : npInv A = .ok Ai) :
    A.det ≠ 0 ∧ Ai = A⁻¹ := by
  unfold npInv at h
  split at h
  · simp at h
  · rename_i hd; simp only [Except.ok.injEq] at h; exact ⟨hd, h.symm⟩

theorem rows_indep {b : ℕ} {A : Matrix (Fin b) (Fin b) ℝ} (h : A.det ≠ 0) :
    LinearIndependent ℝ (fun i => A i) :=
  Matrix.linearIndependent_rows_iff_isUnit.2
    ((Matrix.isUnit_iff_isUnit_det A).2 (isUnit_iff_ne_zero.2 h))

theorem list_rows_indep {b : ℕ} {rows : List (Fin b → ℝ)} {A} (h : squareOf rows = .ok A)
    (hd : A.det ≠ 0) : LinearIndependent ℝ (fun t : Fin rows.length => rows.get t) := by
  obtain ⟨hl, hr⟩ := squareOf_ok h
  have := (rows_indep hd).comp (fun t : Fin rows.length => t.cast hl)
    (fun a b hab => by simpa using hab)
  convert this using 1
  funext t
  simp only [Function.comp]
  exact (hr t).symm

/-- `Ai` solves the system for the columns of the right-hand side -/
theorem solves {b : ℕ} {A : Matrix (Fin b) (Fin b) ℝ} (hd : A.det ≠ 0) (y : Fin b → ℝ) :
    A *ᵥ (A⁻¹ *ᵥ y) = y := by
  rw [Matrix.mulVec_mulVec, Matrix.mul_nonsing_inv _ (isUnit_iff_ne_zero.2 hd), Matrix.one_mulVec]

theorem solution_unique {b : ℕ} {A : Matrix (Fin b) (Fin b) ℝ} (hd : A.det ≠ 0)
    (x y : Fin b → ℝ) (h : A *ᵥ x = y) : x = A⁻¹ *ᵥ y := by
  rw [← h, Matrix.mulVec_mulVec, Matrix.nonsing_inv_mul _ (isUnit_iff_ne_zero.2 hd),
    Matrix.one_mulVec]

/-- a row equation for each row of the list is the matrix equation -/
theorem mulVec_eq_iff {b : ℕ} {rows : List (Fin b → ℝ)} {A} (h : squareOf rows = .ok A)
    (x : Fin b → ℝ) (y : ℕ → ℝ) :
    A *ᵥ x = (fun i : Fin b => y i) ↔ ∀ t (ht : t < rows.length), (rows[t] ⬝ᵥ x) = y t := by
  obtain ⟨hl, hr⟩ := squareOf_ok h
  constructor
  · intro he t ht
    have := congrFun he ⟨t, hl ▸ ht⟩
    simp only [Matrix.mulVec] at this
    rw [← this]
    congr 1
    exact (hr ⟨t, ht⟩).symm
  · intro he
    funext i
    have := he i (by rw [hl]; exact i.2)
    rw [← this]
    simp only [Matrix.mulVec]
    congr 1
    exact hr ⟨i, by rw [hl]; exact i.2⟩

end SQ
