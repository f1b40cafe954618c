import Verif.Lemmas.Eigen
import Mathlib.Analysis.SpecialFunctions.Sqrt
import Mathlib.Analysis.Calculus.Deriv.Slope
import Mathlib.LinearAlgebra.Dimension.StrongRankCondition
import Mathlib.LinearAlgebra.FiniteDimensional.Lemmas
import Mathlib.Analysis.Matrix.Spectrum
import Mathlib.Data.Fin.Tuple.Sort

/-!
# Perturbation of the spectrum of a parameter-dependent operator

Eigenvalues listed in ascending order move continuously, and next to a simple eigenvalue there is a
differentiable choice of the eigenvector. Nothing is assumed about the phases of the eigenvectors.
-/

namespace SQ
open Matrix Complex SQ.Spec Filter Topology

variable {ι : Type*} [Fintype ι]

/-- a complete orthonormal system of eigenvectors, as functions on `Fin N` -/
structure Eigensys {N : ℕ} (H : Matrix ι ι ℂ) (u : Fin N → ι → ℂ) (lam : Fin N → ℝ) : Prop where
  orth : ∀ i j, overlap (u i) (u j) = if i = j then 1 else 0
  compl : ∀ v, ∑ i, overlap (u i) v • u i = v
  eigen : ∀ i, H *ᵥ u i = (lam i : ℂ) • u i

/-- squared norm -/
noncomputable def nsq (v : ι → ℂ) : ℝ := ∑ a, ‖v a‖ ^ 2

/-- sum of the absolute values of the entries -/
noncomputable def entrySum (D : Matrix ι ι ℂ) : ℝ := ∑ a, ∑ b, ‖D a b‖

theorem overlap_self (v : ι → ℂ) : overlap v v = (nsq v : ℂ) := by
  unfold overlap nsq
  push_cast
  refine Finset.sum_congr rfl fun a _ => ?_
  rw [mul_comm, mul_conj, normSq_eq_norm_sq]
  push_cast
  rfl

theorem entry_le_nsq (v : ι → ℂ) (a : ι) : ‖v a‖ ^ 2 ≤ nsq v :=
  Finset.single_le_sum (f := fun a => ‖v a‖ ^ 2) (fun b _ => sq_nonneg ‖v b‖) (Finset.mem_univ a)

theorem entry_le_one {v : ι → ℂ} (hv : overlap v v = 1) (a : ι) : ‖v a‖ ≤ 1 := by
  have h1 : nsq v = 1 := by
    rw [overlap_self] at hv
    exact_mod_cast hv
  have h2 := entry_le_nsq v a
  rw [h1] at h2
  nlinarith [norm_nonneg (v a)]

theorem braket_self_bound (D : Matrix ι ι ℂ) (v : ι → ℂ) : ‖braket v D v‖ ≤ entrySum D * nsq v := by
  unfold braket entrySum
  refine (norm_sum_le _ _).trans ?_
  rw [Finset.sum_mul]
  refine Finset.sum_le_sum fun a _ => (norm_sum_le _ _).trans ?_
  rw [Finset.sum_mul]
  refine Finset.sum_le_sum fun b _ => ?_
  rw [norm_mul, norm_mul, RCLike.norm_conj]
  have h1 := entry_le_nsq v a
  have h2 := entry_le_nsq v b
  have h3 : ‖v a‖ * ‖v b‖ ≤ nsq v := by nlinarith [sq_nonneg (‖v a‖ - ‖v b‖)]
  calc ‖v a‖ * ‖D a b‖ * ‖v b‖ = ‖D a b‖ * (‖v a‖ * ‖v b‖) := by ring
    _ ≤ ‖D a b‖ * nsq v := mul_le_mul_of_nonneg_left h3 (norm_nonneg _)

theorem braket_unit_bound (D : Matrix ι ι ℂ) {u v : ι → ℂ} (hu : overlap u u = 1)
    (hv : overlap v v = 1) : ‖braket u D v‖ ≤ entrySum D := by
  unfold braket entrySum
  refine (norm_sum_le _ _).trans (Finset.sum_le_sum fun a _ => (norm_sum_le _ _).trans
    (Finset.sum_le_sum fun b _ => ?_))
  rw [norm_mul, norm_mul, RCLike.norm_conj]
  have h1 := entry_le_one hu a
  have h2 := entry_le_one hv b
  calc ‖u a‖ * ‖D a b‖ * ‖v b‖ ≤ 1 * ‖D a b‖ * 1 := by gcongr
    _ = ‖D a b‖ := by ring

theorem braket_sub_op (u : ι → ℂ) (A B : Matrix ι ι ℂ) (v : ι → ℂ) :
    braket u (A - B) v = braket u A v - braket u B v := by
  unfold braket
  rw [← Finset.sum_sub_distrib]
  refine Finset.sum_congr rfl fun a _ => ?_
  rw [← Finset.sum_sub_distrib]
  refine Finset.sum_congr rfl fun b _ => ?_
  rw [Matrix.sub_apply]; ring

variable {N : ℕ}

theorem Eigensys.nsq_eq {H : Matrix ι ι ℂ} {u : Fin N → ι → ℂ} {lam : Fin N → ℝ}
    (h : Eigensys H u lam) (v : ι → ℂ) : nsq v = ∑ i, ‖overlap (u i) v‖ ^ 2 := by
  have h1 : overlap v v = ∑ i, overlap (u i) v * overlap v (u i) := by
    conv_lhs => rw [← h.compl v]
    rw [h.compl v]
    nth_rw 2 [← h.compl v]
    rw [overlap_sum]
    exact Finset.sum_congr rfl fun i _ => overlap_smul _ _ _
  rw [overlap_self] at h1
  have h2 : ∀ i, overlap (u i) v * overlap v (u i) = ((‖overlap (u i) v‖ ^ 2 : ℝ) : ℂ) := fun i => by
    rw [← overlap_conj (u i) v, mul_conj, normSq_eq_norm_sq]
  rw [Finset.sum_congr rfl fun i _ => h2 i] at h1
  exact_mod_cast h1

theorem Eigensys.rayleigh {H : Matrix ι ι ℂ} {u : Fin N → ι → ℂ} {lam : Fin N → ℝ}
    (h : Eigensys H u lam) (v : ι → ℂ) :
    braket v H v = ((∑ i, lam i * ‖overlap (u i) v‖ ^ 2 : ℝ) : ℂ) := by
  have h1 : H *ᵥ v = ∑ i, (overlap (u i) v * lam i) • u i := by
    conv_lhs => rw [← h.compl v]
    rw [Matrix.mulVec_sum]
    refine Finset.sum_congr rfl fun i _ => ?_
    rw [Matrix.mulVec_smul, h.eigen, smul_smul]
  rw [braket_right, h1, overlap_sum]
  push_cast
  refine Finset.sum_congr rfl fun i _ => ?_
  rw [overlap_smul, ← overlap_conj (u i) v]
  have : overlap (u i) v * (starRingEnd ℂ) (overlap (u i) v) = ((‖overlap (u i) v‖ ^ 2 : ℝ) : ℂ) := by
    rw [mul_conj, normSq_eq_norm_sq]
  calc overlap (u i) v * (lam i : ℂ) * (starRingEnd ℂ) (overlap (u i) v)
      = lam i * (overlap (u i) v * (starRingEnd ℂ) (overlap (u i) v)) := by ring
    _ = _ := by rw [this]; push_cast; rfl

/-- a non-zero vector in the span of the first `m + 1` of one system and orthogonal to the first `m` of
another -/
theorem exists_between {H H' : Matrix ι ι ℂ} {u u' : Fin N → ι → ℂ} {lam lam' : Fin N → ℝ}
    (_h : Eigensys H u lam) (h' : Eigensys H' u' lam') (m : Fin N) :
    ∃ v, nsq v ≠ 0 ∧ (∀ i, i < m → overlap (u i) v = 0) ∧ ∀ j, m < j → overlap (u' j) v = 0 := by
  let V (a : Fin ((m : ℕ) + 1) → ℂ) : ι → ℂ :=
    ∑ j : Fin ((m : ℕ) + 1), a j • u' ⟨j, by have := j.isLt; have := m.isLt; omega⟩
  let f : (Fin ((m : ℕ) + 1) → ℂ) →ₗ[ℂ] (Fin (m : ℕ) → ℂ) :=
    { toFun := fun a i => overlap (u ⟨i, by have := i.isLt; have := m.isLt; omega⟩) (V a)
      map_add' := by
        intro a b
        funext i
        simp only [V, Pi.add_apply]
        rw [← overlap_add]
        congr 1
        rw [← Finset.sum_add_distrib]
        exact Finset.sum_congr rfl fun j _ => add_smul _ _ _
      map_smul' := by
        intro z a
        funext i
        simp only [V, Pi.smul_apply, RingHom.id_apply]
        rw [smul_eq_mul, ← overlap_smul]
        congr 1
        rw [Finset.smul_sum]
        exact Finset.sum_congr rfl fun j _ => by rw [smul_smul]; rfl }
  have hdim : Module.finrank ℂ (Fin (m : ℕ) → ℂ) < Module.finrank ℂ (Fin ((m : ℕ) + 1) → ℂ) := by
    simp
  obtain ⟨a, ha, ha0⟩ : ∃ a, f a = 0 ∧ a ≠ 0 := by
    have := LinearMap.ker_ne_bot_of_finrank_lt (f := f) hdim
    obtain ⟨a, ha, h0⟩ := Submodule.exists_mem_ne_zero_of_ne_bot this
    exact ⟨a, ha, h0⟩
  have hov : ∀ j : Fin N, overlap (u' j) (V a) = if hj : (j : ℕ) < (m : ℕ) + 1 then a ⟨j, hj⟩ else 0 := by
    intro j
    simp only [V]
    rw [overlap_sum]
    simp only [overlap_smul, h'.orth]
    by_cases hj : (j : ℕ) < (m : ℕ) + 1
    · rw [dif_pos hj, Finset.sum_eq_single ⟨j, hj⟩]
      · simp
      · intro b _ hb
        rw [if_neg, mul_zero]
        intro he
        exact hb (Fin.ext (congrArg Fin.val he).symm)
      · intro hb; exact absurd (Finset.mem_univ _) hb
    · rw [dif_neg hj]
      refine Finset.sum_eq_zero fun b _ => ?_
      rw [if_neg, mul_zero]
      intro he
      have := b.isLt
      rw [he] at hj
      exact hj this
  refine ⟨V a, ?_, ?_, ?_⟩
  · intro h0
    apply ha0
    funext j
    rw [h'.nsq_eq] at h0
    have h1 := (Finset.sum_eq_zero_iff_of_nonneg fun i _ => sq_nonneg _).1 h0
      ⟨j, by have := j.isLt; have := m.isLt; omega⟩ (Finset.mem_univ _)
    rw [hov, dif_pos j.isLt] at h1
    simpa using h1
  · intro i hi
    exact congrFun ha ⟨i, hi⟩
  · intro j hj
    rw [hov, dif_neg]
    have : (m : ℕ) < j := hj
    omega

theorem weyl_one {H H' : Matrix ι ι ℂ} {u u' : Fin N → ι → ℂ} {lam lam' : Fin N → ℝ}
    (h : Eigensys H u lam) (h' : Eigensys H' u' lam') (hm : Monotone lam) (hm' : Monotone lam')
    (m : Fin N) : lam m ≤ lam' m + entrySum (H - H') := by
  obtain ⟨v, hv0, h1, h2⟩ := exists_between h h' m
  have hpos : 0 < nsq v :=
    lt_of_le_of_ne (Finset.sum_nonneg fun a _ => sq_nonneg _) (Ne.symm hv0)
  have e1 : lam m * nsq v ≤ (braket v H v).re := by
    rw [h.rayleigh, ofReal_re, h.nsq_eq, Finset.mul_sum]
    refine Finset.sum_le_sum fun i _ => ?_
    by_cases hi : i < m
    · rw [h1 i hi]; simp
    · exact mul_le_mul_of_nonneg_right (hm (not_lt.1 hi)) (sq_nonneg _)
  have e2 : (braket v H' v).re ≤ lam' m * nsq v := by
    rw [h'.rayleigh, ofReal_re, h'.nsq_eq, Finset.mul_sum]
    refine Finset.sum_le_sum fun i _ => ?_
    by_cases hi : m < i
    · rw [h2 i hi]; simp
    · exact mul_le_mul_of_nonneg_right (hm' (not_lt.1 hi)) (sq_nonneg _)
  have e3 : (braket v H v).re - (braket v H' v).re ≤ entrySum (H - H') * nsq v := by
    rw [← sub_re, ← braket_sub_op]
    exact (re_le_norm _).trans (braket_self_bound _ _)
  have e4 : lam m * nsq v ≤ (lam' m + entrySum (H - H')) * nsq v := by
    rw [add_mul]; linarith
  exact le_of_mul_le_mul_right e4 hpos

theorem entrySum_comm (A B : Matrix ι ι ℂ) : entrySum (A - B) = entrySum (B - A) := by
  unfold entrySum
  refine Finset.sum_congr rfl fun a _ => Finset.sum_congr rfl fun b _ => ?_
  rw [Matrix.sub_apply, Matrix.sub_apply, norm_sub_rev]

/-- **Weyl**: sorted eigenvalues move by at most the size of the perturbation. -/
theorem weyl {H H' : Matrix ι ι ℂ} {u u' : Fin N → ι → ℂ} {lam lam' : Fin N → ℝ}
    (h : Eigensys H u lam) (h' : Eigensys H' u' lam') (hm : Monotone lam) (hm' : Monotone lam')
    (m : Fin N) : |lam m - lam' m| ≤ entrySum (H - H') := by
  have h1 := weyl_one h h' hm hm' m
  have h2 := weyl_one h' h hm' hm m
  rw [entrySum_comm] at h2
  rw [abs_le]
  constructor <;> linarith

theorem entrySum_tendsto {H : ℝ → Matrix ι ι ℂ} {x : ℝ}
    (hc : ∀ a b, ContinuousAt (fun t => H t a b) x) :
    Tendsto (fun t => entrySum (H t - H x)) (𝓝 x) (𝓝 0) := by
  unfold entrySum
  have : (0 : ℝ) = ∑ a : ι, ∑ b : ι, ‖(0 : ℂ)‖ := by simp
  rw [this]
  refine tendsto_finsetSum _ fun a _ => tendsto_finsetSum _ fun b _ => Tendsto.norm ?_
  have h1 := (hc a b).sub_const (H x a b)
  simpa using h1

theorem hasDerivOp_cont {H : ℝ → Matrix ι ι ℂ} {dH : Matrix ι ι ℂ} {x : ℝ}
    (h : HasDerivOp H dH x) (a b : ι) : ContinuousAt (fun t => H t a b) x := (h a b).continuousAt

/-- sorted eigenvalues are continuous -/
theorem levels_continuous {H : ℝ → Matrix ι ι ℂ} {x : ℝ}
    (hc : ∀ a b, ContinuousAt (fun t => H t a b) x) {u : ℝ → Fin N → ι → ℂ} {lam : ℝ → Fin N → ℝ}
    (hs : ∀ᶠ t in 𝓝 x, Eigensys (H t) (u t) (lam t) ∧ Monotone (lam t)) (m : Fin N) :
    ContinuousAt (fun t => lam t m) x := by
  have hx := hs.self_of_nhds
  rw [ContinuousAt, tendsto_iff_norm_sub_tendsto_zero]
  refine squeeze_zero' (Eventually.of_forall fun t => norm_nonneg _) ?_ (entrySum_tendsto hc)
  filter_upwards [hs] with t ht
  exact weyl ht.1 hx.1 ht.2 hx.2 m

/-- product of a function vanishing at the point with a continuous one -/
theorem hasDerivAt_mul_cont {f g : ℝ → ℂ} {f' : ℂ} {x : ℝ} (hf : HasDerivAt f f' x) (h0 : f x = 0)
    (hg : ContinuousAt g x) : HasDerivAt (fun t => f t * g t) (f' * g x) x := by
  rw [hasDerivAt_iff_tendsto_slope] at hf ⊢
  have h1 := hf.mul (hg.tendsto.mono_left nhdsWithin_le_nhds)
  refine h1.congr' (Eventually.of_forall fun t => ?_)
  simp only [slope, h0, zero_mul, vsub_eq_sub, sub_zero, smul_mul_assoc]

/-- Next to a simple eigenvalue there is a differentiable branch, whatever eigenvectors are given. -/
theorem branch_exists {H : ℝ → Matrix ι ι ℂ} {dH : Matrix ι ι ℂ} {x : ℝ}
    (hherm : ∀ᶠ t in 𝓝 x, (H t).IsHermitian) (hd : HasDerivOp H dH x)
    {u : ℝ → Fin N → ι → ℂ} {lam : ℝ → Fin N → ℝ}
    (hs : ∀ᶠ t in 𝓝 x, Eigensys (H t) (u t) (lam t) ∧ Monotone (lam t)) (m : Fin N)
    (hsimple : ∀ n, n ≠ m → lam x n ≠ lam x m) :
    ∃ z : ℝ → ℂ, (∀ t, ‖z t‖ = 1) ∧ z x = 1 ∧
      EigenBranch H (fun t => lam t m) (fun t => z t • u t m) (fun a => ∑ n, (if n = m then 0 else
        braket (u x n) dH (u x m) * ((lam x m - lam x n : ℝ) : ℂ)⁻¹) * u x n a) x := by
  classical
  have hx := hs.self_of_nhds
  set c : ℝ → ℂ := fun t => overlap (u x m) (u t m) with hcdef
  set z : ℝ → ℂ := fun t => if c t = 0 then 1 else (starRingEnd ℂ) (c t) / ‖c t‖ with hzdef
  have hz1 : ∀ t, ‖z t‖ = 1 := by
    intro t
    simp only [hzdef]
    split
    · simp
    · rename_i h0
      rw [norm_div, RCLike.norm_conj, norm_real, norm_norm, div_self]
      exact norm_ne_zero_iff.2 h0
  have hcx : c x = 1 := by simp [hcdef, hx.1.orth]
  have hzx : z x = 1 := by simp [hzdef, hcx]
  set psi : ℝ → ι → ℂ := fun t => z t • u t m with hpsi
  have hpx : psi x = u x m := by simp [hpsi, hzx]
  set k : Fin N → ℝ → ℂ := fun n t => overlap (u x n) (psi t) with hk
  have hnorm : ∀ᶠ t in 𝓝 x, overlap (psi t) (psi t) = 1 := by
    filter_upwards [hs] with t ht
    simp only [hpsi]
    rw [overlap_smul, overlap_smul_left, ht.1.orth, if_pos rfl, mul_one, mul_conj,
      normSq_eq_norm_sq, hz1]
    simp
  have heig : ∀ᶠ t in 𝓝 x, H t *ᵥ psi t = (lam t m : ℂ) • psi t := by
    filter_upwards [hs] with t ht
    simp only [hpsi]
    rw [Matrix.mulVec_smul, ht.1.eigen, smul_comm]
  have hkm : ∀ t, k m t = ‖c t‖ := by
    intro t
    simp only [hk, hpsi]
    rw [overlap_smul]
    change z t * c t = _
    simp only [hzdef]
    split
    · rename_i h0; simp [h0]
    · rename_i h0
      have : (‖c t‖ : ℂ) ≠ 0 := by exact_mod_cast norm_ne_zero_iff.2 h0
      rw [div_mul_eq_mul_div, mul_comm, mul_conj, normSq_eq_norm_sq]
      field_simp
      push_cast
      rfl
  have hkx : ∀ n, k n x = if n = m then 1 else 0 := fun n => by simp only [hk, hpx, hx.1.orth]
  -- the defining equation of the components
  have hHx := hherm.self_of_nhds
  have hkey : ∀ n, ∀ᶠ t in 𝓝 x, ((lam t m - lam x n : ℝ) : ℂ) * k n t
      = braket (u x n) (H t - H x) (psi t) := by
    intro n
    filter_upwards [heig] with t ht
    rw [braket_sub_op, braket_eigen_right ht, braket_eigen_left hHx (hx.1.eigen n)]
    push_cast
    ring
  have hlam : ContinuousAt (fun t => lam t m) x := levels_continuous (hasDerivOp_cont hd) hs m
  have hgap : ∀ n, n ≠ m → ContinuousAt (fun t => ((lam t m - lam x n : ℝ) : ℂ)⁻¹) x := by
    intro n hn
    refine ContinuousAt.inv₀ ?_ ?_
    · exact continuous_ofReal.continuousAt.comp (hlam.sub_const _)
    · have := hsimple n hn
      exact_mod_cast sub_ne_zero.2 (Ne.symm this)
  have hne : ∀ n, n ≠ m → ∀ᶠ t in 𝓝 x, ((lam t m - lam x n : ℝ) : ℂ) ≠ 0 := by
    intro n hn
    have h1 : ∀ᶠ t in 𝓝 x, lam t m - lam x n ≠ 0 :=
      (hlam.sub_const (lam x n)).eventually_ne (sub_ne_zero.2 (Ne.symm (hsimple n hn)))
    filter_upwards [h1] with t ht
    exact_mod_cast ht
  -- components orthogonal to the state vanish in the limit
  have hk0 : ∀ n, n ≠ m → Tendsto (k n) (𝓝 x) (𝓝 0) := by
    intro n hn
    have h1 : Tendsto (fun t => ‖((lam t m - lam x n : ℝ) : ℂ)⁻¹‖ * entrySum (H t - H x)) (𝓝 x) (𝓝 0) := by
      have := ((hgap n hn).norm.tendsto).mul (entrySum_tendsto (hasDerivOp_cont hd))
      simpa using this
    refine squeeze_zero_norm' ?_ h1
    filter_upwards [hkey n, hne n hn, hnorm] with t ht h0 hn1
    have : k n t = ((lam t m - lam x n : ℝ) : ℂ)⁻¹ * braket (u x n) (H t - H x) (psi t) := by
      rw [← ht, inv_mul_cancel_left₀ h0]
    rw [this, norm_mul]
    exact mul_le_mul_of_nonneg_left (braket_unit_bound _ (by simp [hx.1.orth]) hn1) (norm_nonneg _)
  have hsum : ∀ᶠ t in 𝓝 x, ‖c t‖ ^ 2 = 1 - ∑ n ∈ Finset.univ.erase m, ‖k n t‖ ^ 2 := by
    filter_upwards [hnorm] with t ht
    have h1 : nsq (psi t) = 1 := by
      rw [overlap_self] at ht; exact_mod_cast ht
    rw [hx.1.nsq_eq, ← Finset.add_sum_erase _ _ (Finset.mem_univ m)] at h1
    have h2 : ‖overlap (u x m) (psi t)‖ = ‖c t‖ := by
      change ‖k m t‖ = _
      rw [hkm]; simp
    rw [h2] at h1
    have : ∑ n ∈ Finset.univ.erase m, ‖overlap (u x n) (psi t)‖ ^ 2
      = ∑ n ∈ Finset.univ.erase m, ‖k n t‖ ^ 2 := rfl
    linarith
  have hkm' : ∀ᶠ t in 𝓝 x, k m t = ((Real.sqrt (1 - ∑ n ∈ Finset.univ.erase m, ‖k n t‖ ^ 2) : ℝ) : ℂ) := by
    filter_upwards [hsum] with t ht
    rw [hkm, ← ht, Real.sqrt_sq (norm_nonneg _)]
  -- so the state is continuous
  have hexp : ∀ t a, psi t a = ∑ n, k n t * u x n a := by
    intro t a
    have := congrFun (hx.1.compl (psi t)) a
    rw [← this]
    simp [hk]
  have hkc : ∀ n, ContinuousAt (k n) x := by
    intro n
    by_cases hn : n = m
    · subst hn
      have h1 : ContinuousAt (fun t => ((Real.sqrt (1 - ∑ i ∈ Finset.univ.erase n, ‖k i t‖ ^ 2) : ℝ) : ℂ)) x := by
        refine continuous_ofReal.continuousAt.comp (ContinuousAt.sqrt ?_)
        refine continuousAt_const.sub (tendsto_finsetSum _ fun i hi => ?_)
        have hi' : i ≠ n := (Finset.mem_erase.1 hi).1
        have h2 : ContinuousAt (k i) x := by
          rw [ContinuousAt, hkx i, if_neg hi']
          exact hk0 i hi'
        exact (h2.norm.pow 2).tendsto
      exact h1.congr (hkm'.mono fun t ht => ht.symm)
    · rw [ContinuousAt, hkx n, if_neg hn]
      exact hk0 n hn
  have hpc : ∀ a, ContinuousAt (fun t => psi t a) x := by
    intro a
    simp only [hexp]
    exact tendsto_finsetSum _ fun n _ => ((hkc n).mul continuousAt_const).tendsto
  -- derivative of the components
  have hkd : ∀ n, n ≠ m → HasDerivAt (k n)
      (braket (u x n) dH (u x m) * ((lam x m - lam x n : ℝ) : ℂ)⁻¹) x := by
    intro n hn
    have h1 : ∀ a b, HasDerivAt (fun t => ((starRingEnd ℂ) (u x n a) * (H t a b - H x a b)) *
        (psi t b * ((lam t m - lam x n : ℝ) : ℂ)⁻¹))
        (((starRingEnd ℂ) (u x n a) * dH a b) * (psi x b * ((lam x m - lam x n : ℝ) : ℂ)⁻¹)) x := by
      intro a b
      refine hasDerivAt_mul_cont ?_ (by simp) ((hpc b).mul (hgap n hn))
      exact ((hd a b).sub_const _).const_mul _
    have h2 := HasDerivAt.fun_sum (u := Finset.univ) fun a _ =>
      HasDerivAt.fun_sum (u := Finset.univ) fun b _ => h1 a b
    have h3 : (∑ a, ∑ b, ((starRingEnd ℂ) (u x n a) * dH a b) *
        (psi x b * ((lam x m - lam x n : ℝ) : ℂ)⁻¹))
        = braket (u x n) dH (u x m) * ((lam x m - lam x n : ℝ) : ℂ)⁻¹ := by
      unfold braket
      rw [Finset.sum_mul]
      refine Finset.sum_congr rfl fun a _ => ?_
      rw [Finset.sum_mul]
      refine Finset.sum_congr rfl fun b _ => ?_
      rw [hpx]; ring
    rw [h3] at h2
    refine h2.congr_of_eventuallyEq ?_
    filter_upwards [hkey n, hne n hn] with t ht h0
    have : k n t = braket (u x n) (H t - H x) (psi t) * ((lam t m - lam x n : ℝ) : ℂ)⁻¹ := by
      rw [← ht]; field_simp
    rw [this]
    unfold braket
    rw [Finset.sum_mul]
    refine Finset.sum_congr rfl fun a _ => ?_
    rw [Finset.sum_mul]
    refine Finset.sum_congr rfl fun b _ => ?_
    rw [Matrix.sub_apply]; ring
  have hkdm : HasDerivAt (k m) 0 x := by
    have h1 : ∀ n ∈ Finset.univ.erase m, HasDerivAt (fun t => ‖k n t‖ ^ 2) 0 x := by
      intro n hn
      have hn' := (Finset.mem_erase.1 hn).1
      have h2 := (hkd n hn')
      have h3 := hasDerivAt_mul_cont h2 (by rw [hkx, if_neg hn']) (hkc n).star
      have h4 : (star (k n x)) = 0 := by rw [hkx, if_neg hn']; simp
      rw [h4, mul_zero] at h3
      have h5 := hasDerivAt_re' h3
      refine h5.congr_of_eventuallyEq (Eventually.of_forall fun t => ?_)
      change ‖k n t‖ ^ 2 = (k n t * (starRingEnd ℂ) (k n t)).re
      rw [mul_conj, ofReal_re, normSq_eq_norm_sq]
    have h2 := (HasDerivAt.fun_sum h1).const_sub 1
    have h3 : (1 : ℝ) - ∑ n ∈ Finset.univ.erase m, ‖k n x‖ ^ 2 = 1 := by
      rw [Finset.sum_eq_zero, sub_zero]
      intro n hn
      rw [hkx, if_neg (Finset.mem_erase.1 hn).1]; simp
    have h4 := h2.sqrt (by rw [h3]; exact one_ne_zero)
    have h5 := h4.ofReal_comp
    refine (h5.congr_of_eventuallyEq hkm').congr_deriv ?_
    simp
  refine ⟨z, hz1, hzx, ?_, ?_, ?_⟩
  · intro a
    change HasDerivAt (fun t => psi t a) _ x
    simp only [hexp]
    refine HasDerivAt.fun_sum fun n _ => HasDerivAt.mul_const ?_ _
    by_cases hn : n = m
    · subst hn; rw [if_pos rfl]; exact hkdm
    · rw [if_neg hn]; exact hkd n hn
  · exact heig
  · exact hnorm

/-- lists to functions -/
theorem eigenbasis_sys {H : Matrix ι ι ℂ} {vs : List (ι → ℂ)} {ws : List ℝ} (h : Eigenbasis H vs ws) :
    Eigensys H (fun i : Fin (Fintype.card ι) => vs.getD i 0) (fun i => ws.getD i 0) := by
  have hv : ∀ i : Fin (Fintype.card ι), vs.getD i 0 = vs.get (i.cast h.card.symm) := fun i => by
    rw [List.getD_eq_getElem?_getD, List.getElem?_eq_getElem (by rw [h.card]; exact i.isLt)]
    rfl
  have hw : ∀ i : Fin (Fintype.card ι), ws.getD i 0 = ws.get (i.cast (h.len.trans h.card).symm) := fun i => by
    rw [List.getD_eq_getElem?_getD, List.getElem?_eq_getElem (by rw [h.len, h.card]; exact i.isLt)]
    rfl
  simp only [hv, hw]
  refine ⟨?_, ?_, ?_⟩
  · intro i j
    have := h.orth (i.cast h.card.symm) (j.cast h.card.symm)
    simp only [Fin.ext_iff, Fin.val_cast] at this ⊢
    exact this
  · intro v
    conv_rhs => rw [← complete h.card h.orth v]
    exact (Equiv.sum_comp (finCongr h.card.symm) fun i => overlap (vs.get i) v • vs.get i)
  · intro i
    exact h.eigen i (by rw [h.card]; exact i.isLt)

theorem levels_sys {H : Matrix ι ι ℂ} {vs : List (ι → ℂ)} {ws : List ℝ} (h : Levels H vs ws) :
    Eigensys H (fun i : Fin (Fintype.card ι) => vs.getD i 0) (fun i => ws.getD i 0) ∧
      Monotone (fun i : Fin (Fintype.card ι) => ws.getD i 0) := by
  refine ⟨eigenbasis_sys h.toEigenbasis, ?_⟩
  intro i j hij
  have hl : ws.length = Fintype.card ι := h.len.trans h.card
  have hi : (i : ℕ) < ws.length := by rw [hl]; exact i.isLt
  have hj : (j : ℕ) < ws.length := by rw [hl]; exact j.isLt
  simp only [List.getD_eq_getElem?_getD, List.getElem?_eq_getElem hi, List.getElem?_eq_getElem hj,
    Option.getD_some]
  rcases eq_or_lt_of_le hij with h1 | h1
  · subst h1; exact le_rfl
  · exact List.pairwise_iff_getElem.1 h.sorted _ _ hi hj h1

/-- the ordered spectrum is unique -/
theorem levels_unique {H : Matrix ι ι ℂ} {vs vs' : List (ι → ℂ)} {ws ws' : List ℝ}
    (h : Levels H vs ws) (h' : Levels H vs' ws') : ws = ws' := by
  have hl : ws.length = Fintype.card ι := h.len.trans h.card
  have hl' : ws'.length = Fintype.card ι := h'.len.trans h'.card
  obtain ⟨s1, m1⟩ := levels_sys h
  obtain ⟨s2, m2⟩ := levels_sys h'
  refine List.ext_getElem (hl.trans hl'.symm) fun i hi hi' => ?_
  have := weyl s1 s2 m1 m2 ⟨i, by rw [← hl]; exact hi⟩
  have h0 : entrySum (H - H) = 0 := by simp [entrySum]
  rw [h0] at this
  have h1 := sub_eq_zero.1 (abs_nonpos_iff.1 this)
  simpa [List.getD_eq_getElem?_getD, List.getElem?_eq_getElem hi, List.getElem?_eq_getElem hi'] using h1

/-- a Hermitian matrix has one -/
theorem levels_exists {H : Matrix ι ι ℂ} (hH : H.IsHermitian) : ∃ vs ws, Levels H vs ws := by
  classical
  let e := Fintype.equivFin ι
  let N := Fintype.card ι
  let v : Fin N → ι → ℂ := fun i => WithLp.ofLp (hH.eigenvectorBasis (e.symm i))
  let w : Fin N → ℝ := fun i => hH.eigenvalues (e.symm i)
  let σ : Equiv.Perm (Fin N) := Tuple.sort w
  have hmono : Monotone (w ∘ σ) := Tuple.monotone_sort w
  refine ⟨List.ofFn (fun i => v (σ i)), List.ofFn (w ∘ σ), ⟨⟨?_, ?_, ?_, ?_⟩, ?_⟩⟩
  · simp [N]
  · simp
  · intro i j
    have h1 := (orthonormal_iff_ite.1 hH.eigenvectorBasis.orthonormal) (e.symm (σ (i.cast (by simp)))) 
      (e.symm (σ (j.cast (by simp))))
    rw [List.get_ofFn, List.get_ofFn]
    rw [EuclideanSpace.inner_eq_star_dotProduct] at h1
    have h2 : (e.symm (σ (i.cast (by simp))) = e.symm (σ (j.cast (by simp)))) ↔ i = j := by
      rw [e.symm.injective.eq_iff, σ.injective.eq_iff]
      simp [Fin.ext_iff]
    simp only [h2] at h1
    rw [← h1]
    simp only [dotProduct, v]
    refine Finset.sum_congr rfl fun a _ => ?_
    rw [mul_comm]; rfl
  · intro i hi
    rw [List.getElem_ofFn, List.getElem_ofFn]
    have := hH.mulVec_eigenvectorBasis (e.symm (σ ⟨i, by simpa using hi⟩))
    simpa [v, w, Function.comp] using this
  · rw [List.pairwise_ofFn]
    intro i j hij
    exact hmono hij.le

end SQ
