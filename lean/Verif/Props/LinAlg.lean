import Verif.Spec.LinAlg
import Mathlib.Tactic

/-!
# C109, C110: matrices under both engines
-/

namespace SQ
open Matrix Spec

section coo
variable {r c : ℕ}

theorem cooMat_append (l l' : List (Fin r × Fin c × ℂ)) : cooMat (l ++ l') = cooMat l + cooMat l' := by
  ext i j
  simp [cooMat]

theorem cooMat_flatMap {α : Type*} (L : List α) (f : α → List (Fin r × Fin c × ℂ)) :
    cooMat (L.flatMap f) = (L.map fun a => cooMat (f a)).sum := by
  induction L with
  | nil => ext i j; simp [cooMat]
  | cons a L ih => rw [List.flatMap_cons, cooMat_append, ih, List.map_cons, List.sum_cons]

theorem cooMat_csr (rows : Fin r → List (Fin c × ℂ)) :
    cooMat (csrToCoo rows) = (QData.csr rows).mat := by
  unfold csrToCoo
  rw [cooMat_flatMap]
  ext i j
  have h : ∀ a : Fin r, cooMat ((rows a).map fun e => (a, e.1, e.2)) i j =
      if a = i then ((rows i).map fun e => if e.1 = j then e.2 else 0).sum else 0 := by
    intro a
    unfold cooMat
    rw [of_apply, List.map_map]
    by_cases ha : a = i
    · subst ha
      simp only [if_true]
      congr 1
      apply List.map_congr_left
      intro e _
      simp
    · rw [if_neg ha]
      apply List.sum_eq_zero
      intro x hx
      obtain ⟨e, -, rfl⟩ := List.mem_map.1 hx
      simp [ha]
  have hs : ∀ L : List (Fin r), ((L.map fun a => cooMat ((rows a).map fun e => (a, e.1, e.2))).sum) i j =
      (L.map fun a => cooMat ((rows a).map fun e => (a, e.1, e.2)) i j).sum := by
    intro L
    induction L with
    | nil => rfl
    | cons a L ih => rw [List.map_cons, List.sum_cons, Matrix.add_apply, ih, List.map_cons, List.sum_cons]
  rw [hs]
  simp only [h]
  rw [← List.ofFn_eq_map]
  rw [List.sum_ofFn]
  simp [QData.mat]

theorem cooMat_dia (diags : List (ℤ × (Fin c → ℂ))) :
    cooMat (diaToCoo (r := r) diags) = (QData.dia diags).mat := by
  unfold diaToCoo
  rw [cooMat_flatMap]
  ext i j
  simp only [QData.mat, of_apply]
  have hs : ∀ L : List (Matrix (Fin r) (Fin c) ℂ), L.sum i j = (L.map fun M => M i j).sum := by
    intro L
    induction L with
    | nil => rfl
    | cons a L ih => rw [List.sum_cons, Matrix.add_apply, ih, List.map_cons, List.sum_cons]
  rw [hs, List.map_map]
  congr 1
  apply List.map_congr_left
  intro d _
  simp only [Function.comp]
  classical
  -- one diagonal
  have h1 : ∀ L : List (Fin c), L.Nodup →
      cooMat (L.filterMap fun j : Fin c =>
        if h : 0 ≤ ((j : ℕ) : ℤ) - d.1 ∧ ((j : ℕ) : ℤ) - d.1 < r ∧ d.2 j ≠ 0 then
          some ((⟨(((j : ℕ) : ℤ) - d.1).toNat, by omega⟩ : Fin r), j, d.2 j) else none) i j =
        if j ∈ L ∧ ((j : ℕ) : ℤ) - d.1 = ((i : ℕ) : ℤ) then d.2 j else 0 := by
    intro L hL
    induction L with
    | nil => simp [cooMat]
    | cons a L ih =>
      obtain ⟨ha, hL⟩ := List.nodup_cons.1 hL
      have ih := ih hL
      rw [List.filterMap_cons]
      by_cases hc : 0 ≤ ((a : ℕ) : ℤ) - d.1 ∧ ((a : ℕ) : ℤ) - d.1 < r ∧ d.2 a ≠ 0
      · rw [dif_pos hc]
        simp only
        rw [show ∀ (x : Fin r × Fin c × ℂ) l, x :: l = [x] ++ l from fun _ _ => rfl, cooMat_append, Matrix.add_apply, ih]
        simp only [cooMat, of_apply, List.map_cons, List.map_nil, List.sum_cons, List.sum_nil, add_zero]
        by_cases haj : a = j
        · subst haj
          have hi : ((⟨(((a : ℕ) : ℤ) - d.1).toNat, by omega⟩ : Fin r) = i) ↔ ((a : ℕ) : ℤ) - d.1 = ((i : ℕ) : ℤ) := by
            rw [Fin.ext_iff]
            simp only
            omega
          by_cases hh : ((a : ℕ) : ℤ) - d.1 = ((i : ℕ) : ℤ)
          · simp [hh, ha, hi.2 hh]
          · have : ¬ ((⟨(((a : ℕ) : ℤ) - d.1).toNat, by omega⟩ : Fin r) = i) := fun h => hh (hi.1 h)
            simp [hh, this]
        · simp [haj, Ne.symm haj]
      · rw [dif_neg hc]
        simp only
        rw [ih]
        by_cases haj : a = j
        · subst haj
          have h0 : ¬ (((a : ℕ) : ℤ) - d.1 = ((i : ℕ) : ℤ)) ∨ d.2 a = 0 := by
            by_contra hcon
            push Not at hcon
            apply hc
            have := i.isLt
            refine ⟨by omega, by omega, hcon.2⟩
          rcases h0 with h0 | h0
          · simp [h0]
          · simp [h0]
        · have : (j ∈ a :: L) ↔ j ∈ L := by simp [Ne.symm haj]
          simp only [this]
  have h2 := h1 (List.finRange c) (List.nodup_finRange c)
  simp only [List.mem_finRange, true_and] at h2
  convert h2 using 1

/-- C109, conversion: `qobj_to_tensor` of a QuTiP object stored as compressed rows, diagonals or dense gives a tensor of the
same matrix, sparse exactly if the object was not dense; other storage raises `ValueError`. -/
theorem C109_convert (q : QData r c) :
    (∀ t, qobjToTensor q = .ok t → t.mat = q.mat ∧ (t.isSparse = true ↔ ∀ M, q ≠ .dense M)) ∧
    (qobjToTensor q = .error .valueError ↔ ∃ M, q = .other M) ∧
    ((∃ t, qobjToTensor q = .ok t) ∨ qobjToTensor q = .error .valueError) := by
  cases q with
  | csr rows =>
    refine ⟨fun t ht => ?_, by simp [qobjToTensor], Or.inl ⟨_, rfl⟩⟩
    simp only [qobjToTensor, Except.ok.injEq] at ht
    subst ht
    exact ⟨cooMat_csr rows, by simp [TData.isSparse]⟩
  | dia diags =>
    refine ⟨fun t ht => ?_, by simp [qobjToTensor], Or.inl ⟨_, rfl⟩⟩
    simp only [qobjToTensor, Except.ok.injEq] at ht
    subst ht
    exact ⟨cooMat_dia diags, by simp [TData.isSparse]⟩
  | dense M =>
    refine ⟨fun t ht => ?_, by simp [qobjToTensor], Or.inl ⟨_, rfl⟩⟩
    simp only [qobjToTensor, Except.ok.injEq] at ht
    subst ht
    exact ⟨rfl, by simp [TData.isSparse]⟩
  | other M =>
    refine ⟨fun t ht => ?_, by simp [qobjToTensor], Or.inr rfl⟩
    simp [qobjToTensor] at ht

end coo

theorem strided_mat {r c : ℕ} (M : Matrix (Fin r) (Fin c) ℂ) : (TData.strided M).mat = M := rfl

theorem dense_mat {r c : ℕ} (M : Matrix (Fin r) (Fin c) ℂ) : (QData.dense M).mat = M := rfl

theorem libMul_ok {r c c' : ℕ} (e : PyErr) (A : Matrix (Fin r) (Fin c) ℂ) (B : Matrix (Fin c) (Fin c') ℂ) :
    libMul e A B = .ok (A * B) := by
  unfold libMul
  rw [dif_pos rfl]
  rfl

theorem libMul_err {r c r' c' : ℕ} (e : PyErr) (A : Matrix (Fin r) (Fin c) ℂ) (B : Matrix (Fin r') (Fin c') ℂ)
    (h : r' ≠ c) : libMul e A B = .error e := by
  unfold libMul
  rw [dif_neg h]

/-- C109, matrix elements: `operator_inner_product(a, O, b)` is ⟨a|O|b⟩, under NumPy for QuTiP operators and under PyTorch for
QuTiP operators in any of the three storage formats and for dense and sparse tensors. -/
theorem C109_inner {n m : ℕ} (optim : Bool) (a : Fin n → ℂ) (b : Fin m → ℂ) (op : MVal) (O : Matrix (Fin n) (Fin m) ℂ)
    (ho : Stands op O) (hs : Supported optim op (if optim then unsqueezeT b else ketQ b)) :
    operatorInner optim a op b = .ok (∑ i, ∑ j, (starRingEnd ℂ) (a i) * O i j * b j) := by
  have hval : ∀ X : Matrix (Fin n) (Fin 1) ℂ, X = O * (Matrix.of fun i (_ : Fin 1) => b i) →
      ((Matrix.of fun i (_ : Fin 1) => a i)ᴴ * X) 0 0 = ∑ i, ∑ j, (starRingEnd ℂ) (a i) * O i j * b j := by
    rintro X rfl
    rw [mul_apply]
    apply Finset.sum_congr rfl
    intro i _
    rw [mul_apply, Finset.mul_sum]
    apply Finset.sum_congr rfl
    intro j _
    simp [conjTranspose_apply, mul_assoc]
  cases optim with
  | false =>
    simp only [Bool.false_eq_true, if_false] at hs
    cases ho with
    | qobj q =>
      simp only [operatorInner, Bool.false_eq_true, if_false, ketQ, matMul, dense_mat, libMul_ok, Except.map, dagFn,
        unwrapFn]
      rw [hval _ rfl]
    | tensor t => simp [ketQ, Supported] at hs
    | nd M => simp [ketQ, Supported] at hs
  | true =>
    simp only [if_true] at hs
    cases ho with
    | qobj q =>
      have hq : ∀ M, q ≠ .other M := by simpa [unsqueezeT, Supported] using hs
      obtain ⟨h1, h2, h3⟩ := C109_convert q
      rcases h3 with ⟨t, ht⟩ | h3
      · simp only [operatorInner, if_true, unsqueezeT, matMul, ht, strided_mat, libMul_ok, Except.map, dagFn, wrapT,
          unwrapFn]
        rw [hval _ (by rw [(h1 t ht).1])]
      · obtain ⟨M, hM⟩ := h2.1 h3
        exact absurd hM (hq M)
    | tensor t =>
      simp only [operatorInner, if_true, unsqueezeT, matMul, strided_mat, libMul_ok, Except.map, dagFn, wrapT, unwrapFn]
      rw [hval _ rfl]
    | nd M =>
      simp only [operatorInner, if_true, unsqueezeT, matMul, strided_mat, MVal.dense, libMul_ok, Except.map, dagFn, wrapT,
        unwrapFn]
      rw [hval _ rfl]

/-- C109, adjoint: `dag` gives the conjugate transpose of QuTiP objects and tensors with two axes, and raises `ValueError` for
arrays with two axes. -/
theorem C109_dag {r c : ℕ} (x : MVal) (M : Matrix (Fin r) (Fin c) ℂ) (h : Stands x M) :
    (∀ y, dagFn x = .ok y → Stands y Mᴴ) ∧ (dagFn x = .error .valueError ↔ ∃ N, x = .nd r c N) ∧
      ((∃ y, dagFn x = .ok y) ∨ dagFn x = .error .valueError) := by
  cases h with
  | qobj q =>
    refine ⟨fun y hy => ?_, by simp [dagFn], Or.inl ⟨_, rfl⟩⟩
    simp only [dagFn, Except.ok.injEq] at hy
    subst hy
    exact Stands.qobj (.dense q.matᴴ)
  | tensor t =>
    refine ⟨fun y hy => ?_, by simp [dagFn], Or.inl ⟨_, rfl⟩⟩
    simp only [dagFn, Except.ok.injEq] at hy
    subst hy
    exact Stands.tensor (.strided t.matᴴ)
  | nd M => exact ⟨fun y hy => by simp [dagFn] at hy, by simp [dagFn], Or.inr rfl⟩

/-- C110 (partial): for all supported arguments except a tensor times a QuTiP object, `mat_mul(A, B)` stands for the product
of the matrices. -/
theorem C110_product_partial {r k c : ℕ} (optim : Bool) (x y : MVal) (A : Matrix (Fin r) (Fin k) ℂ)
    (B : Matrix (Fin k) (Fin c) ℂ) (hx : Stands x A) (hy : Stands y B) (hs : Supported optim x y)
    (hT : ¬ TensorTimesQobj x y) : ∃ z, matMul optim x y = .ok z ∧ Stands z (A * B) := by
  cases hx with
  | qobj q =>
    cases hy with
    | qobj q' =>
      cases optim with
      | true =>
        refine ⟨_, ?_, Stands.tensor (.strided (q.mat * q'.mat))⟩
        simp only [matMul, if_true, MVal.dense, libMul_ok, wrapT, Except.map]
      | false =>
        refine ⟨_, ?_, Stands.qobj (.dense (q.mat * q'.mat))⟩
        simp only [matMul, Bool.false_eq_true, if_false, libMul_ok, Except.map]
    | tensor t =>
      obtain ⟨rfl, hq⟩ : optim = true ∧ ∀ M, q ≠ .other M := hs
      obtain ⟨h1, h2, h3⟩ := C109_convert q
      rcases h3 with ⟨a, ha⟩ | h3
      · refine ⟨_, ?_, Stands.tensor (.strided (q.mat * t.mat))⟩
        simp only [matMul, if_true, ha, libMul_ok, wrapT, Except.map, (h1 a ha).1]
      · obtain ⟨M, hM⟩ := h2.1 h3
        exact absurd hM (hq M)
    | nd M =>
      obtain ⟨rfl, hq⟩ : optim = true ∧ ∀ M, q ≠ .other M := hs
      refine ⟨_, ?_, Stands.tensor (.strided (q.mat * B))⟩
      simp only [matMul, if_true, MVal.dense, libMul_ok, wrapT, Except.map]
  | tensor t =>
    cases hy with
    | qobj q => exact absurd trivial hT
    | tensor t' =>
      obtain rfl : optim = true := hs
      refine ⟨_, ?_, Stands.tensor (.strided (t.mat * t'.mat))⟩
      simp only [matMul, if_true, libMul_ok, wrapT, Except.map]
    | nd M =>
      obtain rfl : optim = true := hs
      refine ⟨_, ?_, Stands.tensor (.strided (t.mat * B))⟩
      simp only [matMul, if_true, MVal.dense, libMul_ok, wrapT, Except.map]
  | nd M =>
    cases hy with
    | qobj q =>
      obtain ⟨rfl, hq⟩ : optim = true ∧ ∀ M, q ≠ .other M := hs
      refine ⟨_, ?_, Stands.tensor (.strided (A * q.mat))⟩
      simp only [matMul, if_true, MVal.dense, libMul_ok, wrapT, Except.map]
    | tensor t =>
      obtain rfl : optim = true := hs
      refine ⟨_, ?_, Stands.tensor (.strided (A * t.mat))⟩
      simp only [matMul, if_true, MVal.dense, libMul_ok, wrapT, Except.map]
    | nd M' =>
      cases optim with
      | true =>
        refine ⟨_, ?_, Stands.tensor (.strided (A * B))⟩
        simp only [matMul, if_true, MVal.dense, libMul_ok, wrapT, Except.map]
      | false =>
        refine ⟨_, ?_, Stands.nd (A * B)⟩
        simp only [matMul, Bool.false_eq_true, if_false, libMul_ok, Except.map]

/-- C110, the remaining case: a tensor times a QuTiP object gives the transpose of the product in the other order. -/
theorem C110_tensor_qobj {r k c : ℕ} (t : TData r k) (q : QData c r) (hq : ∀ M, q ≠ .other M) :
    ∃ z, matMul true (.tensor r k t) (.qobj c r q) = .ok z ∧ Stands z (q.mat * t.mat)ᵀ := by
  obtain ⟨h1, h2, h3⟩ := C109_convert q
  rcases h3 with ⟨a, ha⟩ | h3
  · refine ⟨_, ?_, Stands.tensor (.strided (q.mat * t.mat)ᵀ)⟩
    simp only [matMul, if_true, ha, libMul_ok, wrapT, Except.map, (h1 a ha).1]
  · obtain ⟨M, hM⟩ := h2.1 h3
    exact absurd hM (hq M)

/-- C110 is false: there are a tensor and a QuTiP object, both square, whose `mat_mul` is not their product. -/
theorem C110_refuted : ∃ (t : TData 2 2) (q : QData 2 2) (z : MVal),
    Supported true (.tensor 2 2 t) (.qobj 2 2 q) ∧ matMul true (.tensor 2 2 t) (.qobj 2 2 q) = .ok z ∧
    ∀ M : Matrix (Fin 2) (Fin 2) ℂ, Stands z M → M ≠ t.mat * q.mat := by
  obtain ⟨z, hz, hs⟩ := C110_tensor_qobj (.strided !![0, 1; 0, 0]) (.dense !![1, 0; 0, 0] : QData 2 2) (by simp)
  refine ⟨_, _, z, ⟨rfl, by simp⟩, hz, ?_⟩
  intro M hM hcon
  have huniq : M = ((QData.dense !![1, 0; 0, 0] : QData 2 2).mat * (TData.strided !![0, 1; 0, 0] : TData 2 2).mat)ᵀ := by
    generalize hN : ((QData.dense !![1, 0; 0, 0] : QData 2 2).mat * (TData.strided !![0, 1; 0, 0] : TData 2 2).mat)ᵀ = N at hs
    clear hz hcon hN
    cases hM with
    | qobj q => cases hs; rfl
    | tensor t => cases hs; rfl
    | nd N => cases hs; rfl
  rw [huniq] at hcon
  have := congrFun (congrFun hcon 1) 0
  simp [QData.mat, TData.mat, mul_apply, Fin.sum_univ_two] at this

/-- Instances: a lowering operator stored by diagonals, and its conversion; a matrix element with it under both engines. -/
theorem C109_example :
    ∃ q : QData 3 3, q = .dia [(1, ![0, 1, 2])] ∧ q.mat = !![0, 1, 0; 0, 0, 2; 0, 0, 0] ∧
      (∃ t, qobjToTensor q = .ok t ∧ t.isSparse = true ∧ t.mat = q.mat) ∧
      operatorInner true ![0, 1, 0] (.qobj 3 3 q) ![0, 0, 1] = .ok 2 ∧
      operatorInner false ![0, 1, 0] (.qobj 3 3 q) ![0, 0, 1] = .ok 2 := by
  have hm : (QData.dia [(1, ![0, 1, 2])] : QData 3 3).mat = !![0, 1, 0; 0, 0, 2; 0, 0, 0] := by
    ext i j
    fin_cases i <;> fin_cases j <;> simp [QData.mat]
  refine ⟨_, rfl, hm, ?_, ?_, ?_⟩
  · obtain ⟨h1, h2, h3⟩ := C109_convert (QData.dia [(1, ![0, 1, 2])] : QData 3 3)
    exact ⟨_, rfl, rfl, (h1 _ rfl).1⟩
  · rw [C109_inner true _ _ _ _ (Stands.qobj _) ⟨rfl, by simp⟩, hm]
    simp [Fin.sum_univ_three]
  · rw [C109_inner false _ _ _ _ (Stands.qobj _) (by simp [ketQ, Supported]), hm]
    simp [Fin.sum_univ_three]

/-- Instance of `C110_product_partial`: a QuTiP object in compressed rows times a sparse tensor. -/
example : ∃ z, matMul true (.qobj 2 2 (.csr fun i => [(i, 1), (0, 2)])) (.tensor 2 2 (.coo [(0, 1, 3), (0, 1, 4)])) = .ok z ∧
    Stands z ((QData.csr fun i => [(i, 1), (0, 2)] : QData 2 2).mat * (TData.coo [(0, 1, 3), (0, 1, 4)] : TData 2 2).mat) :=
  C110_product_partial true _ _ _ _ (Stands.qobj _) (Stands.tensor _) ⟨rfl, by simp⟩ (fun h => h)

end SQ
