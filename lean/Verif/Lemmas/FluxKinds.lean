import Verif.Lemmas.LoopSigns
import Mathlib.Analysis.InnerProductSpace.PiL2
import Mathlib.Analysis.InnerProductSpace.Projection.Basic

/-! # The exact shares of the external flux minimise the energy of the edge capacitances -/

namespace SQ
open SQ.Spec Matrix

/-- Thomson's principle: among all distributions with the same fluxes around the loops, the one without net charge at the
nodes has the least energy -/
theorem least_energy {b n : ℕ} {ι : Type*} (K : Fin n → Fin b → ℝ) (c : Fin b → ℝ) (hc : ∀ i, 0 < c i) (G : ι → Fin b → ℝ)
    (closes : ∀ l k, ∑ i, G l i * K k i = 0)
    (uniq : ∀ v : Fin b → ℝ, (∀ l, ∑ i, G l i * v i = 0) → (∀ k, ∑ i, K k i * c i * v i = 0) → v = 0)
    (B0 x : Fin b → ℝ) (hB : ∀ k, ∑ i, K k i * c i * B0 i = 0) (hx : ∀ l, ∑ i, G l i * x i = ∑ i, G l i * B0 i) :
    ∑ i, c i * B0 i ^ 2 ≤ ∑ i, c i * x i ^ 2 := by
  have hs : ∀ i, √(c i) * √(c i) = c i := fun i => Real.mul_self_sqrt (hc i).le
  have hs0 : ∀ i, √(c i) ≠ 0 := fun i => (Real.sqrt_pos.2 (hc i)).ne'
  let u : Fin n → EuclideanSpace ℝ (Fin b) := fun k => WithLp.toLp 2 fun i => √(c i) * K k i
  let s : EuclideanSpace ℝ (Fin b) := WithLp.toLp 2 fun i => √(c i) * (x i - B0 i)
  obtain ⟨p, hp, q, hq, hpq⟩ := (Submodule.span ℝ (Set.range u)).exists_add_mem_mem_orthogonal s
  obtain ⟨a, ha⟩ := (Submodule.mem_span_range_iff_exists_fun ℝ).1 hp
  have hqi : ∀ i, q i = √(c i) * (x i - B0 i - ∑ k, a k * K k i) := by
    intro i
    have h1 : s i = p i + q i := by rw [hpq]; rfl
    have h2 : p i = ∑ k, a k * (√(c i) * K k i) := by
      rw [← ha]
      simp [u]
    have h3 : s i = √(c i) * (x i - B0 i) := rfl
    rw [mul_sub, ← h3, h1, h2, Finset.mul_sum]
    have : ∑ k, a k * (√(c i) * K k i) = ∑ k, √(c i) * (a k * K k i) := Finset.sum_congr rfl fun k _ => by ring
    rw [this]
    ring
  have hv : (fun i => x i - B0 i - ∑ k, a k * K k i) = 0 := by
    refine uniq _ (fun l => ?_) (fun k => ?_)
    · have : ∀ i, G l i * (x i - B0 i - ∑ k, a k * K k i) = G l i * x i - G l i * B0 i - ∑ k, a k * (G l i * K k i) := by
        intro i
        rw [mul_sub, mul_sub, Finset.mul_sum]
        congr 1
        exact Finset.sum_congr rfl fun k _ => by ring
      rw [Finset.sum_congr rfl fun i _ => this i, Finset.sum_sub_distrib, Finset.sum_sub_distrib, hx l, sub_self, zero_sub, neg_eq_zero,
        Finset.sum_comm]
      refine Finset.sum_eq_zero fun k _ => ?_
      rw [← Finset.mul_sum, closes, mul_zero]
    · have h1 := (Submodule.mem_orthogonal _ _).1 hq (u k) (Submodule.subset_span ⟨k, rfl⟩)
      rw [PiLp.inner_apply] at h1
      rw [← h1]
      refine Finset.sum_congr rfl fun i _ => ?_
      rw [hqi i]
      show _ = inner ℝ (√(c i) * K k i) _
      rw [real_inner_eq_re_inner, RCLike.inner_apply]
      simp only [conj_trivial, RCLike.re_to_real]
      linear_combination -(K k i * (x i - B0 i - ∑ k, a k * K k i)) * hs i
  have hd : ∀ i, x i = B0 i + ∑ k, a k * K k i := by
    intro i
    have := congrFun hv i
    simp only [Pi.zero_apply] at this
    linarith
  have hcross : ∑ i, c i * B0 i * (∑ k, a k * K k i) = 0 := by
    have : ∀ i, c i * B0 i * (∑ k, a k * K k i) = ∑ k, a k * (K k i * c i * B0 i) := by
      intro i
      rw [Finset.mul_sum]
      exact Finset.sum_congr rfl fun k _ => by ring
    rw [Finset.sum_congr rfl fun i _ => this i, Finset.sum_comm]
    refine Finset.sum_eq_zero fun k _ => ?_
    rw [← Finset.mul_sum, hB, mul_zero]
  have he : ∑ i, c i * x i ^ 2 = ∑ i, c i * B0 i ^ 2 + 2 * (∑ i, c i * B0 i * (∑ k, a k * K k i)) + ∑ i, c i * (∑ k, a k * K k i) ^ 2 := by
    rw [Finset.mul_sum, ← Finset.sum_add_distrib, ← Finset.sum_add_distrib]
    refine Finset.sum_congr rfl fun i _ => ?_
    rw [hd i]
    ring
  rw [he, hcross]
  have : 0 ≤ ∑ i, c i * (∑ k, a k * K k i) ^ 2 := Finset.sum_nonneg fun i _ => mul_nonneg (hc i).le (sq_nonneg _)
  linarith

/-- `np.around(x, 5)` of small numbers -/
theorem round5_small {x : ℝ} (h : |x| ≤ 1e-6) : round5 x = 0 := by
  unfold round5
  have h1 := abs_le.1 h
  have : rint (x * 1e5) = 0 := by
    unfold rint
    rcases lt_or_ge x 0 with h0 | h0
    · have hf : ⌊x * 1e5⌋ = -1 := by
        rw [Int.floor_eq_iff]
        push_cast
        constructor <;> nlinarith
      simp only [hf]
      rw [if_neg (by push_cast; nlinarith), if_pos (by push_cast; nlinarith)]
      norm_num
    · have hf : ⌊x * 1e5⌋ = 0 := by
        rw [Int.floor_eq_iff]
        push_cast
        constructor <;> nlinarith
      simp only [hf]
      rw [if_pos (by push_cast; nlinarith)]
  rw [this]
  simp

/-- `np.around(x, 5)` near 1 -/
theorem round5_one {x : ℝ} (h : |x - 1| ≤ 1e-6) : round5 x = 1 := by
  unfold round5
  have h1 := abs_le.1 h
  have : rint (x * 1e5) = 100000 := by
    unfold rint
    rcases lt_or_ge x 1 with h0 | h0
    · have hf : ⌊x * 1e5⌋ = 99999 := by
        rw [Int.floor_eq_iff]
        push_cast
        constructor <;> nlinarith
      simp only [hf]
      rw [if_neg (by push_cast; nlinarith), if_pos (by push_cast; nlinarith)]
      norm_num
    · have hf : ⌊x * 1e5⌋ = 100000 := by
        rw [Int.floor_eq_iff]
        push_cast
        constructor <;> nlinarith
      simp only [hf]
      rw [if_pos (by push_cast; nlinarith)]
  rw [this]
  norm_num

end SQ
