import Mathlib.LinearAlgebra.Matrix.Determinant.Basic
import Mathlib.LinearAlgebra.Matrix.NonsingularInverse
import Mathlib.LinearAlgebra.Matrix.ToLinearEquiv
import Mathlib.LinearAlgebra.Matrix.Rank
import Mathlib.LinearAlgebra.Matrix.Basis
import Mathlib.LinearAlgebra.FiniteDimensional.Basic
import Mathlib.Data.Real.Basic
import Mathlib.Tactic.FinCases
import Mathlib.Tactic.LinearCombination

/-!
# Incidence matrices are totally unimodular
-/

namespace SQ
open Matrix

variable {k : ℕ}

/-- a row with at most one entry 1, at most one entry -1, and zeros otherwise -/
def IncRow (v : Fin k → ℝ) : Prop :=
  ∃ a b : Option (Fin k), ∀ c, v c = (if a = some c then 1 else 0) - (if b = some c then 1 else 0)

/-- one of -1, 0, 1 -/
def Tri (x : ℝ) : Prop := x = -1 ∨ x = 0 ∨ x = 1

theorem Tri.neg {x : ℝ} (h : Tri x) : Tri (-x) := by
  rcases h with rfl | rfl | rfl <;> unfold Tri <;> norm_num

theorem Tri.mul {x y : ℝ} (h : Tri x) (h' : Tri y) : Tri (x * y) := by
  rcases h with rfl | rfl | rfl <;> rcases h' with rfl | rfl | rfl <;> unfold Tri <;> norm_num

theorem incRow_comp {v : Fin k → ℝ} (h : IncRow v) {k' : ℕ} (f : Fin k' → Fin k)
    (hf : Function.Injective f) : IncRow (v ∘ f) := by
  classical
  obtain ⟨a, b, hv⟩ := h
  have key : ∀ a : Option (Fin k), ∃ a' : Option (Fin k'), ∀ c, a = some (f c) ↔ a' = some c := by
    intro a
    by_cases h : ∃ c, a = some (f c)
    · obtain ⟨c, rfl⟩ := h
      exact ⟨some c, fun d => by simp [hf.eq_iff]⟩
    · push Not at h
      exact ⟨none, fun d => by simp [h d]⟩
  obtain ⟨a', ha⟩ := key a
  obtain ⟨b', hb⟩ := key b
  exact ⟨a', b', fun c => by simp only [Function.comp, hv, ha, hb]⟩

theorem tri_pow (m : ℕ) : Tri ((-1) ^ m) := by
  rcases neg_one_pow_eq_or ℝ m with h | h <;> rw [h] <;> unfold Tri <;> norm_num

theorem det_tri : ∀ (k : ℕ) (N : Matrix (Fin k) (Fin k) ℝ), (∀ i, IncRow (N i)) → Tri N.det := by
  intro k
  induction k with
  | zero => intro N _; rw [det_fin_zero]; exact Or.inr (Or.inr rfl)
  | succ k ih =>
    intro N hN
    by_cases hall : ∀ i, ∑ c, N i c = 0
    · right; left
      rw [← exists_mulVec_eq_zero_iff]
      refine ⟨fun _ => 1, fun h => by simpa using congrFun h 0, ?_⟩
      funext i
      simp [mulVec, dotProduct, hall i]
    · push Not at hall
      obtain ⟨i, hi⟩ := hall
      obtain ⟨a, b, hab⟩ := hN i
      -- exactly one of the two is present
      have hone : ∃ (s : ℝ) (c : Fin (k + 1)), Tri s ∧ ∀ d, N i d = if d = c then s else 0 := by
        cases a with
        | none =>
          cases b with
          | none => exfalso; apply hi; simp [hab]
          | some c =>
            refine ⟨-1, c, Or.inl rfl, fun d => ?_⟩
            rw [hab]
            by_cases hd : c = d
            · subst hd; simp
            · simp [hd, Ne.symm hd]
        | some c =>
          cases b with
          | none =>
            refine ⟨1, c, Or.inr (Or.inr rfl), fun d => ?_⟩
            rw [hab]
            by_cases hd : c = d
            · subst hd; simp
            · simp [hd, Ne.symm hd]
          | some c' =>
            exfalso; apply hi
            simp [hab, Finset.sum_sub_distrib]
      obtain ⟨s, c, hs, hrow⟩ := hone
      rw [det_succ_row N i, Finset.sum_eq_single c]
      · rw [hrow, if_pos rfl]
        refine ((tri_pow _).mul hs).mul (ih _ ?_)
        intro j
        exact incRow_comp (hN (i.succAbove j)) c.succAbove Fin.succAbove_right_injective
      · intro d _ hd
        rw [hrow, if_neg hd]; ring
      · simp

/-- coordinates of an incidence row in an invertible incidence matrix are -1, 0 or 1 -/
theorem coords_tri_square {r : ℕ} (G : Matrix (Fin r) (Fin r) ℝ) (hG : ∀ i, IncRow (G i))
    (hu : G.det ≠ 0) (v : Fin r → ℝ) (hv : IncRow v) (c : Fin r → ℝ) (hc : c ᵥ* G = v) (p : Fin r) :
    Tri (c p) := by
  have h1 : (G.updateRow p v).det = c p * G.det := by
    rw [← hc]
    have : c ᵥ* G = ∑ i, c i • G i := by
      funext j; simp [vecMul, dotProduct]
    rw [this, det_updateRow_sum]; simp
  have h2 : Tri (G.updateRow p v).det := by
    apply det_tri
    intro i
    by_cases h : i = p
    · subst h; rw [updateRow_self]; exact hv
    · rw [updateRow_ne h]; exact hG i
  have h3 := det_tri r G hG
  rw [h1] at h2
  have h4 : c p = (c p * G.det) * G.det := by
    rcases h3 with h | h | h
    · rw [h]; ring
    · exact absurd h hu
    · rw [h]; ring
  rw [h4]; exact h2.mul h3

/-- the same for a linearly independent family of incidence rows, not necessarily square -/
theorem coords_tri {r : ℕ} (G : Fin r → Fin k → ℝ) (hG : ∀ i, IncRow (G i))
    (hli : LinearIndependent ℝ G) (v : Fin k → ℝ) (hv : IncRow v) (c : Fin r → ℝ)
    (hc : ∑ i, c i • G i = v) (p : Fin r) : Tri (c p) := by
  -- choose r independent columns
  let M : Matrix (Fin r) (Fin k) ℝ := Matrix.of G
  have hrank : M.rank = r := by
    have : LinearIndependent ℝ M.row := hli
    simpa using this.rank_matrix
  obtain ⟨κ, a, ha, hspan, hlia⟩ := exists_linearIndependent' ℝ M.col
  have hfin : Finite κ := Finite.of_injective a ha
  have : Fintype κ := Fintype.ofFinite κ
  have hcard : Fintype.card κ = r := by
    have h1 := linearIndependent_iff_card_eq_finrank_span.1 hlia
    rw [h1, Set.finrank, hspan, ← M.rank_eq_finrank_span_cols, hrank]
  let e : Fin r ≃ κ := (Fintype.equivFinOfCardEq hcard).symm
  let f : Fin r → Fin k := a ∘ e
  have hf : Function.Injective f := ha.comp e.injective
  have hdet : (M.submatrix id f).det ≠ 0 := by
    have h2 : LinearIndependent ℝ (M.submatrix id f).col := by
      have : (M.submatrix id f).col = (M.col ∘ a) ∘ e := rfl
      rw [this]; exact hlia.comp e e.injective
    have := (linearIndependent_cols_iff_isUnit (A := M.submatrix id f)).1 h2
    exact ((isUnit_iff_isUnit_det _).1 this).ne_zero
  refine coords_tri_square (M.submatrix id f) (fun i => incRow_comp (hG i) f hf) hdet (v ∘ f)
    (incRow_comp hv f hf) c ?_ p
  funext j
  rw [← hc]
  simp [vecMul, dotProduct, M]

end SQ
