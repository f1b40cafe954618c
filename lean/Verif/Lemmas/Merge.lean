import Verif.Spec.Merge
import Verif.Props.SystemHam
import Verif.Lemmas.Gauge

/-! # Composite state spaces -/

namespace SQ
open Matrix Spec

section ptens
variable {N : ℕ} {ι κ μ : Fin N → Type} [∀ s, Fintype (ι s)] [∀ s, Fintype (κ s)] [∀ s, Fintype (μ s)]
  [∀ s, DecidableEq (ι s)] [∀ s, DecidableEq (κ s)]

/-- product of matrices of the parts -/
def ptens (U : ∀ s, Matrix (ι s) (κ s) ℂ) : Matrix (∀ s, ι s) (∀ s, κ s) ℂ :=
  Matrix.of fun x a => ∏ s, U s (x s) (a s)

omit [∀ s, Fintype (ι s)] [∀ s, Fintype (μ s)] [∀ s, DecidableEq (ι s)] [∀ s, DecidableEq (κ s)] in
theorem ptens_mul (U : ∀ s, Matrix (ι s) (κ s) ℂ) (W : ∀ s, Matrix (κ s) (μ s) ℂ) :
    ptens U * ptens W = ptens fun s => U s * W s := by
  classical
  ext x a
  simp only [ptens, Matrix.mul_apply, Matrix.of_apply]
  rw [Finset.prod_univ_sum, Fintype.piFinset_univ]
  refine Finset.sum_congr rfl fun y _ => ?_
  rw [Finset.prod_mul_distrib]

omit [∀ s, Fintype (ι s)] [∀ s, Fintype (κ s)] [∀ s, DecidableEq (ι s)] [∀ s, DecidableEq (κ s)] in
theorem ptens_conjTranspose (U : ∀ s, Matrix (ι s) (κ s) ℂ) : (ptens U)ᴴ = ptens fun s => (U s)ᴴ := by
  ext x a
  simp [ptens, Matrix.conjTranspose_apply]

omit [∀ s, Fintype (ι s)] in
theorem ptens_one : ptens (fun s => (1 : Matrix (ι s) (ι s) ℂ)) = 1 := by
  ext x y
  simp only [ptens, Matrix.of_apply, Matrix.one_apply]
  by_cases h : x = y
  · subst h; simp
  · rw [if_neg h]
    obtain ⟨i, hi⟩ := Function.ne_iff.1 h
    exact Finset.prod_eq_zero (Finset.mem_univ i) (by rw [if_neg hi])

omit [∀ s, Fintype (ι s)] in
theorem onSub_ptens (s : Fin N) (A : Matrix (ι s) (ι s) ℂ) : onSub s A = ptens (Function.update (fun _ => 1) s A) := by
  ext x y
  simp only [onSub, ptens, Matrix.of_apply]
  rw [← Finset.mul_prod_erase _ _ (Finset.mem_univ s), Function.update_self]
  by_cases h : ∀ t, t ≠ s → x t = y t
  · rw [if_pos h, Finset.prod_eq_one, mul_one]
    intro t ht
    have hts := Finset.ne_of_mem_erase ht
    rw [Function.update_of_ne hts, h t hts, Matrix.one_apply_eq]
  · rw [if_neg h]
    push Not at h
    obtain ⟨t, ht, hxy⟩ := h
    rw [Finset.prod_eq_zero (Finset.mem_erase.2 ⟨ht, Finset.mem_univ t⟩), mul_zero]
    rw [Function.update_of_ne ht, Matrix.one_apply_ne hxy]

omit [∀ s, Fintype (ι s)] [∀ s, DecidableEq (ι s)] in
theorem onSub_add (s : Fin N) (A B : Matrix (ι s) (ι s) ℂ) : onSub s (A + B) = onSub s A + onSub s B := by
  ext x y
  simp only [onSub, Matrix.of_apply, Matrix.add_apply]
  split <;> simp

omit [∀ s, Fintype (ι s)] [∀ s, DecidableEq (ι s)] in
theorem onSub_smul (s : Fin N) (c : ℂ) (A : Matrix (ι s) (ι s) ℂ) : onSub s (c • A) = c • onSub s A := by
  ext x y
  simp only [onSub, Matrix.of_apply, Matrix.smul_apply]
  split <;> simp

omit [∀ s, Fintype (ι s)] [∀ s, DecidableEq (ι s)] in
theorem onSub_zero (s : Fin N) : onSub s (0 : Matrix (ι s) (ι s) ℂ) = 0 := by
  ext x y
  simp [onSub, Matrix.of_apply]

omit [∀ s, Fintype (ι s)] [∀ s, DecidableEq (ι s)] in
theorem onSub_sum {β : Type*} (s : Fin N) (t : Finset β) (A : β → Matrix (ι s) (ι s) ℂ) :
    onSub s (∑ b ∈ t, A b) = ∑ b ∈ t, onSub s (A b) := by
  classical
  induction t using Finset.induction_on with
  | empty => simp [onSub_zero]
  | insert a t ha ih => rw [Finset.sum_insert ha, Finset.sum_insert ha, onSub_add, ih]

theorem onSub_mul (s : Fin N) (A B : Matrix (ι s) (ι s) ℂ) : onSub s (A * B) = onSub s A * onSub s B := by
  rw [onSub_ptens, onSub_ptens, onSub_ptens, ptens_mul]
  congr 1
  funext t
  by_cases h : t = s
  · subst h; simp
  · simp [Function.update_of_ne h]

theorem onSub_one (s : Fin N) : onSub s (1 : Matrix (ι s) (ι s) ℂ) = 1 := by
  rw [onSub_ptens, ← ptens_one]
  congr 1
  funext t
  by_cases h : t = s
  · subst h; simp
  · simp [Function.update_of_ne h]

theorem onSub_conjTranspose (s : Fin N) (A : Matrix (ι s) (ι s) ℂ) : (onSub s A)ᴴ = onSub s Aᴴ := by
  rw [onSub_ptens, onSub_ptens, ptens_conjTranspose]
  congr 1
  funext t
  by_cases h : t = s
  · subst h; simp
  · simp [Function.update_of_ne h]

/-- change of basis of the parts -/
theorem ptens_conj (U : ∀ s, Matrix (ι s) (κ s) ℂ) (h1 : ∀ s, (U s)ᴴ * U s = 1) (s : Fin N) (A : Matrix (ι s) (ι s) ℂ) :
    (ptens U)ᴴ * onSub s A * ptens U = onSub s ((U s)ᴴ * A * U s) := by
  rw [onSub_ptens, onSub_ptens, ptens_conjTranspose, ptens_mul, ptens_mul]
  congr 1
  funext t
  by_cases h : t = s
  · subst h; simp
  · simp [Function.update_of_ne h, h1]

theorem ptens_iso (U : ∀ s, Matrix (ι s) (κ s) ℂ) (h1 : ∀ s, (U s)ᴴ * U s = 1) : (ptens U)ᴴ * ptens U = 1 := by
  rw [ptens_conjTranspose, ptens_mul]
  simp only [h1]
  exact ptens_one

theorem ptens_iso' (U : ∀ s, Matrix (ι s) (κ s) ℂ) (h1 : ∀ s, U s * (U s)ᴴ = 1) : ptens U * (ptens U)ᴴ = 1 := by
  rw [ptens_conjTranspose, ptens_mul]
  simp only [h1]
  exact ptens_one

end ptens

theorem opInSys_onSub {k : ℕ} {d : Fin k → ℕ} (s : Fin k) (A : Matrix (Fin (d s)) (Fin (d s)) ℂ) :
    opInSys s A = onSub (ι := fun s => Fin (d s)) s A := by
  rw [opInSys_single, onSub_ptens]
  rfl

theorem onMode_onSub {k : ℕ} (d : Fin k → ℕ) (s : Fin k) (A : Matrix (Fin (d s)) (Fin (d s)) ℂ) :
    onMode d s A = onSub (ι := fun s => Fin (d s)) s A := by
  rw [onSub_ptens]
  rfl

/-- levels do not depend on the basis -/
theorem levels_conj {ι κ : Type*} [Fintype ι] [Fintype κ] [DecidableEq ι] [DecidableEq κ] {V : Matrix ι κ ℂ}
    (h1 : Vᴴ * V = 1) (h2 : V * Vᴴ = 1) {H : Matrix ι ι ℂ} {vs : List (ι → ℂ)} {ws : List ℝ} (h : Levels H vs ws) :
    Levels (Vᴴ * H * V) (vs.map fun v => Vᴴ *ᵥ v) ws where
  card := by
    rw [List.length_map, h.card]
    have e1 := congrArg Matrix.trace h1
    have e2 := congrArg Matrix.trace h2
    rw [Matrix.trace_mul_comm, Matrix.trace_one] at e1
    rw [Matrix.trace_one] at e2
    exact_mod_cast e2.symm.trans e1
  len := by rw [List.length_map]; exact h.len
  sorted := h.sorted
  orth := by
    intro i j
    have hi : (i : ℕ) < vs.length := i.isLt.trans_eq (List.length_map ..)
    have hj : (j : ℕ) < vs.length := j.isLt.trans_eq (List.length_map ..)
    have := h.orth ⟨i, hi⟩ ⟨j, hj⟩
    simp only [List.get_eq_getElem, List.getElem_map] at this ⊢
    simp only [Fin.mk.injEq, Fin.ext_iff] at this ⊢
    rw [← this]
    have e : ∀ u w : ι → ℂ, ∑ a, (starRingEnd ℂ) ((Vᴴ *ᵥ u) a) * (Vᴴ *ᵥ w) a = ∑ a, (starRingEnd ℂ) (u a) * w a := by
      intro u w
      change star (Vᴴ *ᵥ u) ⬝ᵥ (Vᴴ *ᵥ w) = star u ⬝ᵥ w
      rw [Matrix.star_mulVec, Matrix.conjTranspose_conjTranspose, ← Matrix.dotProduct_mulVec, Matrix.mulVec_mulVec, h2,
        Matrix.one_mulVec]
    exact e _ _
  eigen := by
    intro i hi
    have hi' : i < vs.length := by simpa using hi
    rw [List.getElem_map, Matrix.mulVec_mulVec, Matrix.mul_assoc, h2, Matrix.mul_one, ← Matrix.mulVec_mulVec, h.eigen i hi',
      Matrix.mulVec_smul]

theorem levels_scale {ι : Type*} [Fintype ι] {H : Matrix ι ι ℂ} {vs : List (ι → ℂ)} {ws : List ℝ}
    (h : Levels H vs ws) {c : ℝ} (hc : 0 ≤ c) : Levels ((c : ℂ) • H) vs (ws.map (c * ·)) where
  card := h.card
  len := by rw [List.length_map]; exact h.len
  orth := h.orth
  sorted := by
    rw [List.pairwise_map]
    exact h.sorted.imp fun hab => mul_le_mul_of_nonneg_left hab hc
  eigen := by
    intro i hi
    rw [Matrix.smul_mulVec, h.eigen i hi, List.getElem_map, smul_smul]
    push_cast; rfl

/-! ### circuits with all their eigenvectors -/

section eigMat
variable {q : ℕ} {m : Fin q → ℕ} {ws : List ℝ} {vs : List (Idx m → ℂ)}

/-- matrix of the eigenvectors -/
def eigMat (vs : List (Idx m → ℂ)) (k : ℕ) : Matrix (Idx m) (Fin k) ℂ := Matrix.of fun x a => vs.getD a 0 x

theorem eigMat_iso {H : Op m} (hl : Levels H vs ws) {k : ℕ} (hk : k = ws.length) : (eigMat vs k)ᴴ * eigMat vs k = 1 := by
  subst hk
  ext a c
  have ha : (a : ℕ) < vs.length := hl.len ▸ a.isLt
  have hc : (c : ℕ) < vs.length := hl.len ▸ c.isLt
  have := hl.orth ⟨a, ha⟩ ⟨c, hc⟩
  rw [Matrix.mul_apply, Matrix.one_apply]
  simp only [List.get_eq_getElem, Fin.mk.injEq] at this
  simp only [eigMat, Matrix.conjTranspose_apply, Matrix.of_apply, List.getD_eq_getElem?_getD,
    List.getElem?_eq_getElem ha, List.getElem?_eq_getElem hc, Option.getD_some]
  simp only [Fin.ext_iff]
  rw [← this]
  rfl

theorem eigMat_iso' {H : Op m} (hl : Levels H vs ws) {k : ℕ} (hk : k = ws.length) : eigMat vs k * (eigMat vs k)ᴴ = 1 := by
  refine (Matrix.mul_eq_one_comm_of_card_eq (Fin k) (Idx m) ℂ ?_).1 (eigMat_iso hl hk)
  rw [Fintype.card_fin, hk, hl.len, hl.card]

theorem eigMat_diag {H : Op m} (hl : Levels H vs ws) {k : ℕ} (hk : k = ws.length) :
    (eigMat vs k)ᴴ * H * eigMat vs k = diagonal fun a : Fin k => ((ws.getD a 0 : ℝ) : ℂ) := by
  have e : H * eigMat vs k = eigMat vs k * diagonal fun a : Fin k => ((ws.getD a 0 : ℝ) : ℂ) := by
    ext x a
    have ha' : (a : ℕ) < ws.length := hk ▸ a.isLt
    have ha : (a : ℕ) < vs.length := hl.len ▸ ha'
    have := congrFun (hl.eigen a ha) x
    rw [Matrix.mul_diagonal, Matrix.mul_apply]
    simp only [eigMat, Matrix.of_apply, List.getD_eq_getElem?_getD, List.getElem?_eq_getElem ha,
      List.getElem?_eq_getElem ha', Option.getD_some]
    rw [mul_comm]
    exact this
  rw [Matrix.mul_assoc, e, ← Matrix.mul_assoc, eigMat_iso hl hk, Matrix.one_mul]

end eigMat

section sub
variable {b : Build} {m : Fin b.M.keep.length → ℕ} {mem : OpMem b.nJ m} (u : ℝ) {ws : List ℝ} {vs : List (Idx m → ℂ)}

theorem completeSub_Q (i : ℕ) (hi : i < b.M.keep.length) :
    (completeSub b mem u ws vs).Q i = (eigMat vs _)ᴴ * mem.Q ⟨i, hi⟩ * eigMat vs _ := by
  show (if h : i < b.M.keep.length then (Matrix.of fun x y => star (vs.getD x 0) ⬝ᵥ (mem.Q ⟨i, h⟩ *ᵥ vs.getD y 0) :
    Matrix (Fin (ws.map fun w => w / (2 * Real.pi * u)).length) (Fin (ws.map fun w => w / (2 * Real.pi * u)).length) ℂ)
      else 0) = _
  rw [dif_pos hi]
  ext a c
  rw [Matrix.of_apply, Matrix.dotProduct_mulVec]
  rfl

end sub

end SQ
