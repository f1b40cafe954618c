import Verif.Lemmas.Transform2
import Mathlib.LinearAlgebra.Dimension.Constructions
import Mathlib.LinearAlgebra.FiniteDimensional.Basic
import Mathlib.LinearAlgebra.Matrix.ToLin

/-!
# C29: Gram-Schmidt row selection
-/

namespace SQ
open Matrix

/-- an orthonormal list of vectors -/
def Spec.OrthonormalList {k : ℕ} (b : List (Fin k → ℝ)) : Prop :=
  b.Pairwise (fun e f => e ⬝ᵥ f = 0) ∧ ∀ e ∈ b, e ⬝ᵥ e = 1

open Spec

variable {m k : ℕ}

theorem orthonormal_get {b : List (Fin k → ℝ)} (h : OrthonormalList b) (i j : Fin b.length) :
    b.get i ⬝ᵥ b.get j = if i = j then 1 else 0 := by
  split
  · rename_i hij; subst hij; exact h.2 _ (List.get_mem _ _)
  · rename_i hij
    rcases lt_or_gt_of_ne hij with hlt | hgt
    · exact List.pairwise_iff_get.1 h.1 i j hlt
    · rw [dotProduct_comm]; exact List.pairwise_iff_get.1 h.1 j i hgt

theorem orthonormal_li {b : List (Fin k → ℝ)} (h : OrthonormalList b) :
    LinearIndependent ℝ b.get := by
  rw [Fintype.linearIndependent_iff]
  intro g hg i
  have h1 : (∑ j, g j • b.get j) ⬝ᵥ b.get i = 0 := by rw [hg, zero_dotProduct]
  rw [sum_dotProduct] at h1
  simp only [smul_dotProduct, orthonormal_get h, smul_eq_mul, mul_ite, mul_one, mul_zero,
    Finset.sum_ite_eq', Finset.mem_univ, if_true] at h1
  exact h1

theorem vnorm_sq (v : Fin k → ℝ) : vnorm v ^ 2 = v ⬝ᵥ v := by
  unfold vnorm
  rw [Real.sq_sqrt (Finset.sum_nonneg (fun i _ => sq_nonneg _))]
  simp [dotProduct, sq]

theorem vnorm_pos {v : Fin k → ℝ} (h : ∃ c, v c ≠ 0) : 0 < vnorm v := by
  obtain ⟨c, hc⟩ := h
  unfold vnorm
  apply Real.sqrt_pos.2
  exact Finset.sum_pos' (fun i _ => sq_nonneg _) ⟨c, Finset.mem_univ _, by positivity⟩

theorem vnorm_nonneg (v : Fin k → ℝ) : 0 ≤ vnorm v := Real.sqrt_nonneg _

theorem list_sum_dot (l : List (Fin k → ℝ)) (e : Fin k → ℝ) :
    l.sum ⬝ᵥ e = (l.map (fun x => x ⬝ᵥ e)).sum := by
  induction l with
  | nil => simp
  | cons x xs ih => simp [add_dotProduct, ih]

theorem proj_dot {b : List (Fin k → ℝ)} (h : OrthonormalList b) (a : Fin k → ℝ) {e : Fin k → ℝ}
    (he : e ∈ b) : (b.map (fun f => (a ⬝ᵥ f) • f)).sum ⬝ᵥ e = a ⬝ᵥ e := by
  rw [list_sum_dot, List.map_map]
  induction b with
  | nil => simp at he
  | cons f fs ih =>
    obtain ⟨h1, h2⟩ := h
    rw [List.pairwise_cons] at h1
    simp only [List.map_cons, List.sum_cons, Function.comp, smul_dotProduct, smul_eq_mul]
    rcases List.mem_cons.1 he with rfl | hm
    · rw [h2 _ he, mul_one]
      have : (fs.map ((fun x => x ⬝ᵥ e) ∘ fun f => (a ⬝ᵥ f) • f)).sum = 0 := by
        apply List.sum_eq_zero
        intro y hy
        rw [List.mem_map] at hy
        obtain ⟨x, hx, rfl⟩ := hy
        simp only [Function.comp, smul_dotProduct]
        rw [dotProduct_comm x, h1.1 x hx, smul_zero]
      rw [this, add_zero]
    · rw [h1.1 e hm, mul_zero, zero_add]
      have := ih ⟨h1.2, fun x hx => h2 x (List.mem_cons_of_mem _ hx)⟩ hm
      simpa [Function.comp, smul_dotProduct] using this

theorem residual_orth {b : List (Fin k → ℝ)} (h : OrthonormalList b) (a : Fin k → ℝ)
    {e : Fin k → ℝ} (he : e ∈ b) : gsResidual b a ⬝ᵥ e = 0 := by
  unfold gsResidual
  rw [sub_dotProduct, proj_dot h a he, sub_self]

/-- invariant of the Gram-Schmidt loop -/
structure GSInv (A : Matrix (Fin m) (Fin k) ℝ) (st : List (Fin m) × List (Fin k → ℝ)) : Prop where
  orth : OrthonormalList st.2
  len : st.1.length = st.2.length
  span : ∀ e ∈ st.2, e ∈ Submodule.span ℝ (A '' {i | i ∈ st.1})
  span' : ∀ i ∈ st.1, A i ∈ Submodule.span ℝ {e | e ∈ st.2}

theorem normRow_smul (v : Fin k → ℝ) : normRow v = (vnorm v + 1e-9)⁻¹ • v := by
  funext c; simp [normRow, div_eq_inv_mul]

theorem gsInv_step (A : Matrix (Fin m) (Fin k) ℝ) (st : List (Fin m) × List (Fin k → ℝ))
    (h : GSInv A st) (i : Fin m) : GSInv A (gsStep A st i) := by
  unfold gsStep
  simp only
  split
  · rename_i hex
    set a' := gsResidual st.2 (normRow (A i)) with ha'
    have hne : ∃ c, a' c ≠ 0 := by
      obtain ⟨c, hc⟩ := hex
      refine ⟨c, fun h0 => ?_⟩
      rw [h0, abs_zero] at hc
      unfold accGS at hc; norm_num at hc
    have hpos := vnorm_pos hne
    have hnew : (fun c => a' c / vnorm a') = (vnorm a')⁻¹ • a' := by
      funext c; simp [div_eq_inv_mul]
    have hmono : Submodule.span ℝ (A '' {i | i ∈ st.1}) ≤
        Submodule.span ℝ (A '' {j | j ∈ st.1 ++ [i]}) := by
      apply Submodule.span_mono
      apply Set.image_mono
      intro j hj; simp only [Set.mem_ofPred_eq, List.mem_append] at hj ⊢; exact Or.inl hj
    have hAi : A i ∈ Submodule.span ℝ (A '' {j | j ∈ st.1 ++ [i]}) :=
      Submodule.subset_span ⟨i, by simp, rfl⟩
    refine ⟨⟨?_, ?_⟩, ?_, ?_, ?_⟩
    · rw [List.pairwise_append]
      refine ⟨h.orth.1, by simp, ?_⟩
      intro e he f hf
      rw [List.mem_singleton] at hf
      rw [hf, hnew, dotProduct_smul, dotProduct_comm, residual_orth h.orth _ he, smul_zero]
    · intro e he
      rw [List.mem_append, List.mem_singleton] at he
      rcases he with he | he
      · exact h.orth.2 e he
      · rw [he, hnew, smul_dotProduct, dotProduct_smul, ← vnorm_sq]
        simp only [smul_eq_mul]
        field_simp
    · simp [h.len]
    · intro e he
      rw [List.mem_append, List.mem_singleton] at he
      rcases he with he | he
      · exact hmono (h.span e he)
      · rw [he, hnew]
        apply Submodule.smul_mem
        rw [ha']
        unfold gsResidual
        apply Submodule.sub_mem
        · rw [normRow_smul]; exact Submodule.smul_mem _ _ hAi
        · apply list_sum_mem
          intro x hx
          rw [List.mem_map] at hx
          obtain ⟨f, hf, rfl⟩ := hx
          exact Submodule.smul_mem _ _ (hmono (h.span f hf))
    · intro j hj
      have hmono2 : Submodule.span ℝ {e | e ∈ st.2} ≤
          Submodule.span ℝ {e | e ∈ st.2 ++ [fun c => a' c / vnorm a']} := by
        apply Submodule.span_mono
        intro e he; simp only [Set.mem_ofPred_eq, List.mem_append] at he ⊢; exact Or.inl he
      rw [List.mem_append, List.mem_singleton] at hj
      rcases hj with hj | hj
      · exact hmono2 (h.span' j hj)
      · subst hj
        have hn := vnorm_nonneg (A j)
        have hA : A j = (vnorm (A j) + 1e-9) • normRow (A j) := by
          rw [normRow_smul, smul_smul, mul_inv_cancel₀ (by positivity), one_smul]
        have hr : normRow (A j) = vnorm a' • (fun c => a' c / vnorm a') +
            (st.2.map (fun e => (normRow (A j) ⬝ᵥ e) • e)).sum := by
          rw [hnew, smul_smul, mul_inv_cancel₀ hpos.ne', one_smul, ha']
          unfold gsResidual
          rw [sub_add_cancel]
        have hmem : normRow (A j) ∈
            Submodule.span ℝ {e | e ∈ st.2 ++ [fun c => a' c / vnorm a']} := by
          rw [hr]
          apply Submodule.add_mem
          · exact Submodule.smul_mem _ _ (Submodule.subset_span (by simp))
          · apply list_sum_mem
            intro x hx
            rw [List.mem_map] at hx
            obtain ⟨f, hf, rfl⟩ := hx
            exact Submodule.smul_mem _ _ (Submodule.subset_span (by simp [hf]))
        rw [hA]
        exact Submodule.smul_mem _ _ hmem
  · exact h

theorem gsInv_rows (argsort : ArgsortFn) (A : Matrix (Fin m) (Fin k) ℝ) :
    GSInv A (independentRows argsort A) := by
  unfold independentRows
  generalize argsort m (fun i => - vnorm (A i)) = l
  have h0 : GSInv A (([], []) : List (Fin m) × List (Fin k → ℝ)) :=
    ⟨⟨by simp, by simp⟩, rfl, by simp, by simp⟩
  generalize (([], []) : List (Fin m) × List (Fin k → ℝ)) = st at h0
  induction l generalizing st with
  | nil => exact h0
  | cons i l ih => exact ih _ (gsInv_step A st h0 i)

theorem gsInv_li {A : Matrix (Fin m) (Fin k) ℝ} {st : List (Fin m) × List (Fin k → ℝ)}
    (h : GSInv A st) : LinearIndependent ℝ (fun p : Fin st.1.length => A (st.1.get p)) := by
  rw [linearIndependent_iff_card_le_finrank_span, Fintype.card_fin]
  have hli := orthonormal_li h.orth
  have hb : Fintype.card (Fin st.2.length) = (Set.range st.2.get).finrank ℝ :=
    linearIndependent_iff_card_eq_finrank_span.1 hli
  rw [Fintype.card_fin] at hb
  refine h.len.le.trans (hb.le.trans ?_)
  apply Submodule.finrank_mono
  rw [Submodule.span_le]
  rintro e ⟨p, rfl⟩
  have := h.span _ (List.get_mem st.2 p)
  refine Submodule.span_mono ?_ this
  rintro x ⟨i, hi, rfl⟩
  obtain ⟨q, rfl⟩ := List.get_of_mem hi
  exact ⟨q, rfl⟩

/-- The Gram-Schmidt row selection returns an orthonormal basis of the span of the selected rows;
the selected rows are distinct, linearly independent and at most as many as there are columns; if
there are as many, the matrix of the selected rows is invertible. -/
theorem C29_gram_schmidt (argsort : ArgsortFn) (A : Matrix (Fin m) (Fin k) ℝ) :
    let r := independentRows argsort A
    OrthonormalList r.2 ∧ r.1.length = r.2.length ∧ r.1.Nodup ∧
    LinearIndependent ℝ (fun p : Fin r.1.length => A (r.1.get p)) ∧
    Submodule.span ℝ {e | e ∈ r.2} = Submodule.span ℝ (A '' {i | i ∈ r.1}) ∧
    r.1.length ≤ k ∧
    (∀ h : r.1.length = k, IsUnit (Matrix.of fun i : Fin k => A (r.1.get (i.cast h.symm))).det) := by
  intro r
  have h : GSInv A r := gsInv_rows argsort A
  have hli := gsInv_li h
  refine ⟨h.orth, h.len, ?_, hli, ?_, ?_, ?_⟩
  · rw [List.nodup_iff_injective_get]
    intro p q hpq
    exact hli.injective (congrArg (fun i => A i) hpq)
  · apply le_antisymm
    · rw [Submodule.span_le]; exact fun e he => h.span e he
    · rw [Submodule.span_le]
      rintro x ⟨i, hi, rfl⟩
      exact h.span' i hi
  · have := hli.fintype_card_le_finrank
    simpa using this
  · intro hk
    have h2 : LinearIndependent ℝ (fun i : Fin k => A (r.1.get (i.cast hk.symm))) :=
      hli.comp (fun i : Fin k => i.cast hk.symm) (Fin.cast_injective hk.symm)
    have := (linearIndependent_rows_iff_isUnit (A := Matrix.of fun i : Fin k =>
      A (r.1.get (i.cast hk.symm)))).1 h2
    exact (isUnit_iff_isUnit_det _).1 this

/-- the identity sorting order is an admissible `argsort` result for equal norms; a non-trivial
case: from the rows (1,0), (1,0), (0,1) two independent rows are selected -/
example (argsort : ArgsortFn)
    (h : argsort 3 (fun i => - vnorm ((!![1, 0; 1, 0; 0, 1] : Matrix (Fin 3) (Fin 2) ℝ) i)) =
      [0, 1, 2]) :
    (independentRows argsort (!![1, 0; 1, 0; 0, 1] : Matrix (Fin 3) (Fin 2) ℝ)).1 = [0, 2] := by
  have hn : ∀ x : ℝ, x = 1 / (1 + 1e-9) → x > 1e-6 := by intro x hx; rw [hx]; norm_num
  have e0 : normRow ((!![1, 0; 1, 0; 0, 1] : Matrix (Fin 3) (Fin 2) ℝ) 0) =
      ![1 / (1 + 1e-9), 0] := by
    funext c; fin_cases c <;> simp [normRow, vnorm, Fin.sum_univ_two]
  have e1 : normRow ((!![1, 0; 1, 0; 0, 1] : Matrix (Fin 3) (Fin 2) ℝ) 1) =
      ![1 / (1 + 1e-9), 0] := by
    funext c; fin_cases c <;> simp [normRow, vnorm, Fin.sum_univ_two]
  have e2 : normRow ((!![1, 0; 1, 0; 0, 1] : Matrix (Fin 3) (Fin 2) ℝ) 2) =
      ![0, 1 / (1 + 1e-9)] := by
    funext c; fin_cases c <;> simp [normRow, vnorm, Fin.sum_univ_two]
  set A := (!![1, 0; 1, 0; 0, 1] : Matrix (Fin 3) (Fin 2) ℝ) with hA
  have s0 : gsStep A ([], []) 0 = ([0], [![1, 0]]) := by
    unfold gsStep
    simp only [e0]
    have hr : gsResidual [] (![1 / (1 + 1e-9), 0] : Fin 2 → ℝ) = ![1 / (1 + 1e-9), 0] := by
      simp [gsResidual]
    rw [hr, if_pos ⟨0, by simp [accGS]; norm_num⟩]
    simp only [List.nil_append, Prod.mk.injEq, true_and, List.cons.injEq, and_true]
    have hv : vnorm (![1 / (1 + 1e-9), 0] : Fin 2 → ℝ) = 1 / (1 + 1e-9) := by
      unfold vnorm; rw [Fin.sum_univ_two]; simp only [cons_val_zero, cons_val_one]
      rw [zero_pow two_ne_zero, add_zero, Real.sqrt_sq (by norm_num)]
    rw [hv]
    funext c; fin_cases c
    · simp only [Fin.zero_eta, cons_val_zero]; norm_num
    · simp
  have s1 : gsStep A ([0], [![1, 0]]) 1 = ([0], [![1, 0]]) := by
    unfold gsStep
    simp only [e1]
    have hr : gsResidual [![1, 0]] (![1 / (1 + 1e-9), 0] : Fin 2 → ℝ) = 0 := by
      funext c; fin_cases c <;> simp [gsResidual, dotProduct, Fin.sum_univ_two]
    rw [hr, if_neg]
    rintro ⟨c, hc⟩
    simp [accGS] at hc; norm_num at hc
  have s2 : (gsStep A ([0], [![1, 0]]) 2).1 = [0, 2] := by
    unfold gsStep
    simp only [e2]
    have hr : gsResidual [![1, 0]] (![0, 1 / (1 + 1e-9)] : Fin 2 → ℝ) = ![0, 1 / (1 + 1e-9)] := by
      funext c; fin_cases c <;> simp [gsResidual, dotProduct, Fin.sum_univ_two]
    rw [hr, if_pos ⟨1, by simp [accGS]; norm_num⟩]
    rfl
  unfold independentRows
  rw [h]
  simp only [List.foldl_cons, List.foldl_nil, s0, s1, s2]

end SQ
