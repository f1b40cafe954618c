import Verif.Lemmas.Eigen
import Verif.Props.Grad
import Mathlib.Analysis.SpecialFunctions.Trigonometric.Deriv

/-! # C59, C60: derivatives of eigenfrequencies and eigenvectors -/

namespace SQ
open Matrix Complex SQ.Spec Filter Topology

variable {ι : Type*} [Fintype ι]

/-! ## C59 eigenfrequencies -/

/-- Without subtraction of the ground state the returned number is the derivative of the
eigenfrequency. -/
theorem C59_derivative {H : ℝ → Matrix ι ι ℂ} {dH : Matrix ι ι ℂ} {x : ℝ} (hH : (H x).IsHermitian)
    (hd : HasDerivOp H dH x) {lam : ℝ → ℝ} {psi : ℝ → ι → ℂ} {dpsi : ι → ℂ}
    (hb : EigenBranch H lam psi dpsi x) (evecs : List (ι → ℂ)) (m : ℤ)
    (hm : pyGet evecs m = .ok (psi x)) :
    ∃ r, partialOmega evecs dH m false = .ok r ∧ HasDerivAt lam r x := by
  refine ⟨(braket (psi x) dH (psi x)).re, ?_, hasDerivAt_re (hellmann hb hH hd)⟩
  unfold partialOmega
  rw [if_neg (pyGet_mem hm), hm]
  simp [innerOp_eq]

/-- With subtraction it is the derivative of the difference to the ground state frequency, and zero
for the ground state itself. -/
theorem C59_subtracted {H : ℝ → Matrix ι ι ℂ} {dH : Matrix ι ι ℂ} {x : ℝ} (hH : (H x).IsHermitian)
    (hd : HasDerivOp H dH x) {lam lam0 : ℝ → ℝ} {psi psi0 : ℝ → ι → ℂ} {dpsi dpsi0 : ι → ℂ}
    (hb : EigenBranch H lam psi dpsi x) (hb0 : EigenBranch H lam0 psi0 dpsi0 x)
    (evecs : List (ι → ℂ)) (m : ℤ)
    (hm : pyGet evecs m = .ok (psi x)) (h0 : pyGet evecs 0 = .ok (psi0 x)) :
    (∃ r, partialOmega evecs dH m true = .ok r ∧ HasDerivAt (fun t => lam t - lam0 t) r x) ∧
    partialOmega evecs dH 0 true = .ok 0 := by
  refine ⟨⟨(braket (psi x) dH (psi x) - braket (psi0 x) dH (psi0 x)).re, ?_, ?_⟩, ?_⟩
  · unfold partialOmega
    rw [if_neg (pyGet_mem hm), hm, h0]
    simp [innerOp_eq]
  · rw [sub_re]
    exact (hasDerivAt_re (hellmann hb hH hd)).sub (hasDerivAt_re (hellmann hb0 hH hd))
  · unfold partialOmega
    rw [if_neg (pyGet_mem h0), h0]
    simp

/-- The pairwise version is the derivative of the difference of the two eigenfrequencies and
antisymmetric in the states. -/
theorem C59_pair {H : ℝ → Matrix ι ι ℂ} {dH : Matrix ι ι ℂ} {x : ℝ} (hH : (H x).IsHermitian)
    (hd : HasDerivOp H dH x) {lam lam' : ℝ → ℝ} {psi psi' : ℝ → ι → ℂ} {dpsi dpsi' : ι → ℂ}
    (hb : EigenBranch H lam psi dpsi x) (hb' : EigenBranch H lam' psi' dpsi' x)
    (evecs : List (ι → ℂ)) (m n : ℤ)
    (hm : pyGet evecs m = .ok (psi x)) (hn : pyGet evecs n = .ok (psi' x)) :
    ∃ r, partialOmegaMN evecs dH (m, n) = .ok r ∧ partialOmegaMN evecs dH (n, m) = .ok (-r) ∧
      HasDerivAt (fun t => lam t - lam' t) r x := by
  refine ⟨(braket (psi x) dH (psi x) - braket (psi' x) dH (psi' x)).re, ?_, ?_, ?_⟩
  · unfold partialOmegaMN
    simp only [hm, hn, innerOp_eq]
  · unfold partialOmegaMN
    simp only [hm, hn, innerOp_eq]
    congr 1
    simp
  · rw [sub_re]
    exact (hasDerivAt_re (hellmann hb hH hd)).sub (hasDerivAt_re (hellmann hb' hH hd))

/-- For the Hamiltonian of a constructed circuit and the flux of one of its loops: along any
differentiable branch of normalised eigenvectors, `get_partial_omega(loop, m, False)` is the derivative
of the eigenfrequency with respect to the flux. -/
theorem C59_circuit_flux (c : CircSpec) (hs : NoSelfLoops c.els) (v0 : ElemId → ℝ) (bd : Build)
    (hb : buildCirc c v0 = .ok bd) (m : Fin bd.M.keep.length → ℕ) (ng : Fin bd.M.keep.length → ℝ)
    (val : ElemId → ℝ) (fluxes : Fin bd.loops.length → ℝ) (P : ElemId → Matrix (Fin bd.n) (Fin bd.n) ℝ)
    (l : Fin bd.loops.length) (H : ℝ → Op m)
    (hH : ∀ t, fullHamiltonian bd.C bd.M m ng val (extFlux bd.B (Function.update fluxes l t)) bd.inds
      bd.juns = .ok (H t))
    (lam : ℝ → ℝ) (psi : ℝ → Idx m → ℂ) (dpsi : Idx m → ℂ)
    (hbr : EigenBranch H lam psi dpsi (fluxes l)) (evecs : List (Idx m → ℂ)) (st : ℤ)
    (hst : pyGet evecs st = .ok (psi (fluxes l))) :
    ∃ r, partialOmega evecs (partialH bd.C bd.M (buildMem bd.M.data m ng) val bd.B fluxes P bd.inds
      bd.juns none (.loop l)) st false = .ok r ∧ HasDerivAt lam r (fluxes l) := by
  obtain ⟨H', hH', hd⟩ := (C57_circuit c hs v0 bd hb m ng val fluxes P).1 l
  have : H' = H := by
    funext t
    have := (hH' t).symm.trans (hH t)
    exact Except.ok.inj this
  subst this
  obtain ⟨h1, h2⟩ := build_valid hs hb
  refine C59_derivative ?_ hd hbr evecs st hst
  obtain ⟨H2, e2, hherm⟩ := C40_hermitian bd.C bd.M h1 m ng val
    (extFlux bd.B (Function.update fluxes l (fluxes l))) bd.inds bd.juns h2
  have := Except.ok.inj (e2.symm.trans (hH (fluxes l)))
  rw [← this]; exact hherm

/-- a two-level system whose eigenvectors rotate with the parameter and whose upper eigenvalue is
`1 + t` -/
noncomputable def exH (t : ℝ) : Matrix (Fin 2) (Fin 2) ℂ :=
  !![(((1 + t) * Real.cos t ^ 2 - Real.sin t ^ 2 : ℝ) : ℂ), (((2 + t) * (Real.cos t * Real.sin t) : ℝ) : ℂ);
    (((2 + t) * (Real.cos t * Real.sin t) : ℝ) : ℂ), (((1 + t) * Real.sin t ^ 2 - Real.cos t ^ 2 : ℝ) : ℂ)]

/-- its derivative at 0 -/
def exdH : Matrix (Fin 2) (Fin 2) ℂ := !![1, 2; 2, 0]

theorem exH_herm : (exH 0).IsHermitian := by
  ext i j; fin_cases i <;> fin_cases j <;> simp [exH]

theorem exH_deriv : HasDerivOp exH exdH 0 := by
  have hc := Real.hasDerivAt_cos 0
  have hs := Real.hasDerivAt_sin 0
  have h1 := (hasDerivAt_id' (0 : ℝ)).const_add 1
  have h2 := (hasDerivAt_id' (0 : ℝ)).const_add 2
  have e1 := ((h1.fun_mul (hc.fun_pow 2)).fun_sub (hs.fun_pow 2)).ofReal_comp
  have e2 := (h2.fun_mul (hc.fun_mul hs)).ofReal_comp
  have e3 := ((h1.fun_mul (hs.fun_pow 2)).fun_sub (hc.fun_pow 2)).ofReal_comp
  simp only [Real.cos_zero, Real.sin_zero] at e1 e2 e3
  intro i j
  fin_cases i <;> fin_cases j
  · exact e1.congr_deriv (by norm_num [exdH])
  · exact e2.congr_deriv (by norm_num [exdH])
  · exact e2.congr_deriv (by norm_num [exdH])
  · exact e3.congr_deriv (by norm_num [exdH])

theorem exH_branch : EigenBranch exH (fun t => 1 + t)
    (fun t => ![((Real.cos t : ℝ) : ℂ), ((Real.sin t : ℝ) : ℂ)]) ![0, 1] 0 := by
  refine ⟨?_, Eventually.of_forall fun t => ?_, Eventually.of_forall fun t => ?_⟩
  · intro a
    fin_cases a
    · exact (Real.hasDerivAt_cos 0).ofReal_comp.congr_deriv (by simp)
    · exact (Real.hasDerivAt_sin 0).ofReal_comp.congr_deriv (by simp)
  · have h := Real.sin_sq_add_cos_sq t
    funext a
    fin_cases a
    · simp only [exH, Matrix.mulVec, dotProduct, Fin.sum_univ_two]
      simp only [Matrix.of_apply, Matrix.cons_val', Matrix.cons_val_zero, Matrix.cons_val_one,
        Pi.smul_apply, smul_eq_mul, Matrix.cons_val_fin_one, Fin.zero_eta, Fin.mk_one]
      rw [← ofReal_mul, ← ofReal_mul, ← ofReal_mul, ← ofReal_add]
      congr 1
      linear_combination ((1 + t) * Real.cos t) * h
    · simp only [exH, Matrix.mulVec, dotProduct, Fin.sum_univ_two]
      simp only [Matrix.of_apply, Matrix.cons_val', Matrix.cons_val_zero, Matrix.cons_val_one,
        Pi.smul_apply, smul_eq_mul, Matrix.cons_val_fin_one, Fin.zero_eta, Fin.mk_one]
      rw [← ofReal_mul, ← ofReal_mul, ← ofReal_mul, ← ofReal_add]
      congr 1
      linear_combination ((1 + t) * Real.sin t) * h
  · simp only [Fin.sum_univ_two, Matrix.cons_val_zero, Matrix.cons_val_one, conj_ofReal]
    rw [← ofReal_mul, ← ofReal_mul, ← ofReal_add]
    exact_mod_cast (by nlinarith [Real.sin_sq_add_cos_sq t] :
      Real.cos t * Real.cos t + Real.sin t * Real.sin t = 1)

/-- the stored vectors: ground state first -/
def exEvecs : List (Fin 2 → ℂ) := [![0, 1], ![1, 0]]

theorem exEvecs_get : pyGet exEvecs 1 = .ok
    ((fun t : ℝ => (![((Real.cos t : ℝ) : ℂ), ((Real.sin t : ℝ) : ℂ)] : Fin 2 → ℂ)) 0) := by
  have h : ((fun t : ℝ => (![((Real.cos t : ℝ) : ℂ), ((Real.sin t : ℝ) : ℂ)] : Fin 2 → ℂ)) 0)
      = ![1, 0] := by
    funext a; fin_cases a <;> simp
  rw [h]; rfl

example : ∃ r, partialOmega exEvecs exdH 1 false = .ok r ∧ HasDerivAt (fun t : ℝ => 1 + t) r 0 :=
  C59_derivative exH_herm exH_deriv exH_branch exEvecs 1 exEvecs_get

/-- both states of the pair may be the same branch; for different ones the lower branch is
`(-sin t, cos t)` with eigenvalue `-1` -/
example : ∃ r, partialOmegaMN exEvecs exdH (1, 1) = .ok r ∧ partialOmegaMN exEvecs exdH (1, 1) = .ok (-r) ∧
    HasDerivAt (fun t : ℝ => (1 + t) - (1 + t)) r 0 :=
  C59_pair exH_herm exH_deriv exH_branch exH_branch exEvecs 1 1 exEvecs_get exEvecs_get

/-! ## C60 eigenvectors -/

/-- The returned vector is orthogonal to the eigenvector itself. (State numbers `m ≥ 0`; for negative
Python indices see `C60_negative_index`. The gaps that are divided by must be non-zero.) -/
theorem C60_orthogonal (evecs : List (ι → ℂ)) (efreqs : List ℝ) (hlen : efreqs.length = evecs.length)
    (ho : OrthonormalStates evecs) (dH : Matrix ι ι ℂ) (m : Fin evecs.length) (eps : ℝ)
    (_hgap : ∀ n : Fin evecs.length, n ≠ m →
      efreqs.get (m.cast hlen.symm) - efreqs.get (n.cast hlen.symm) + eps ≠ 0) :
    ∃ v, partialVec evecs efreqs dH (m : ℕ) eps = .ok v ∧ overlap (evecs.get m) v = 0 := by
  have hm : (m : ℕ) < efreqs.length := by rw [hlen]; exact m.isLt
  have hne : evecs.length ≠ 0 := by have := m.isLt; omega
  refine ⟨partialVecSum evecs efreqs dH (evecs.get m) (m : ℕ) (efreqs[(m : ℕ)]) eps, ?_, ?_⟩
  · unfold partialVec
    rw [if_neg hne, pyGet_nat m.isLt, pyGet_nat hm]
    rfl
  · rw [partialVecSum_eq hlen, overlap_sum]
    refine Finset.sum_eq_zero fun n _ => ?_
    split
    · exact overlap_zero _
    · rename_i hnm
      rw [overlap_smul]
      have : overlap (evecs.get m) (evecs.get n) = 0 := by
        have := ho m n
        rw [if_neg (fun h => hnm h.symm)] at this
        exact this
      rw [this, mul_zero]

/-- With a complete set of non-degenerate eigenvectors and `epsilon = 0` the returned vector `v` solves
`(H - ω_m) v = -(∂H - ∂ω_m) ψ_m`, where `∂ω_m = ⟨ψ_m|∂H|ψ_m⟩`. -/
theorem C60_perturbation (H dH : Matrix ι ι ℂ) (evecs : List (ι → ℂ)) (efreqs : List ℝ)
    (hb : Eigenbasis H evecs efreqs) (m : Fin evecs.length)
    (hsimple : ∀ n : Fin evecs.length, n ≠ m →
      efreqs.get (n.cast hb.len.symm) ≠ efreqs.get (m.cast hb.len.symm)) :
    ∃ v, partialVec evecs efreqs dH (m : ℕ) 0 = .ok v ∧
      H *ᵥ v - ((efreqs.get (m.cast hb.len.symm) : ℝ) : ℂ) • v =
        -(dH *ᵥ evecs.get m - braket (evecs.get m) dH (evecs.get m) • evecs.get m) := by
  have hm : (m : ℕ) < efreqs.length := by rw [hb.len]; exact m.isLt
  have hne : evecs.length ≠ 0 := by have := m.isLt; omega
  refine ⟨partialVecSum evecs efreqs dH (evecs.get m) (m : ℕ) (efreqs[(m : ℕ)]) 0, ?_, ?_⟩
  · unfold partialVec
    rw [if_neg hne, pyGet_nat m.isLt, pyGet_nat hm]
    rfl
  · rw [partialVecSum_eq hb.len]
    have hcomp := complete hb.card hb.orth (dH *ᵥ evecs.get m)
    rw [← Finset.add_sum_erase _ _ (Finset.mem_univ m)] at hcomp
    have hv : dH *ᵥ evecs.get m - braket (evecs.get m) dH (evecs.get m) • evecs.get m =
        ∑ n ∈ Finset.univ.erase m, overlap (evecs.get n) (dH *ᵥ evecs.get m) • evecs.get n := by
      rw [sub_eq_iff_eq_add, braket_right, add_comm]
      exact hcomp.symm
    rw [hv, ← Finset.add_sum_erase Finset.univ _ (Finset.mem_univ m), if_pos rfl, zero_add,
      Matrix.mulVec_sum, Finset.smul_sum, ← Finset.sum_sub_distrib, ← Finset.sum_neg_distrib]
    refine Finset.sum_congr rfl fun n hn => ?_
    have hnm : n ≠ m := Finset.ne_of_mem_erase hn
    rw [if_neg hnm, Matrix.mulVec_smul]
    have he : H *ᵥ evecs.get n = ((efreqs.get (n.cast hb.len.symm) : ℝ) : ℂ) • evecs.get n :=
      hb.eigen n n.isLt
    rw [he, ← braket_right]
    have hgap : ((efreqs[(m : ℕ)] - efreqs.get (n.cast hb.len.symm) + 0 : ℝ) : ℂ) ≠ 0 := by
      rw [add_zero]
      exact_mod_cast sub_ne_zero.2 (fun h => hsimple n hnm h.symm)
    have hmm : efreqs.get (m.cast hb.len.symm) = efreqs[(m : ℕ)] := rfl
    rw [hmm, smul_smul, smul_smul, ← sub_smul, ← neg_smul]
    congr 1
    rw [add_zero] at hgap ⊢
    field_simp
    push_cast
    ring

/-- It is the derivative of the eigenvector up to its phase: for every differentiable branch of
normalised eigenvectors the derivative is the returned vector plus an imaginary multiple of the
eigenvector. -/
theorem C60_is_derivative {H : ℝ → Matrix ι ι ℂ} {dH : Matrix ι ι ℂ} {x : ℝ} (hH : (H x).IsHermitian)
    (hd : HasDerivOp H dH x) {lam : ℝ → ℝ} {psi : ℝ → ι → ℂ} {dpsi : ι → ℂ}
    (hbr : EigenBranch H lam psi dpsi x) (evecs : List (ι → ℂ)) (efreqs : List ℝ)
    (hb : Eigenbasis (H x) evecs efreqs) (m : Fin evecs.length) (hm : evecs.get m = psi x)
    (hsimple : ∀ n : Fin evecs.length, n ≠ m →
      efreqs.get (n.cast hb.len.symm) ≠ efreqs.get (m.cast hb.len.symm)) :
    ∃ v, partialVec evecs efreqs dH (m : ℕ) 0 = .ok v ∧
      dpsi = v + overlap (psi x) dpsi • psi x ∧ (overlap (psi x) dpsi).re = 0 := by
  have hml : (m : ℕ) < efreqs.length := by rw [hb.len]; exact m.isLt
  have hne : evecs.length ≠ 0 := by have := m.isLt; omega
  refine ⟨partialVecSum evecs efreqs dH (evecs.get m) (m : ℕ) (efreqs[(m : ℕ)]) 0, ?_, ?_, ?_⟩
  · unfold partialVec
    rw [if_neg hne, pyGet_nat m.isLt, pyGet_nat hml]
    rfl
  · rw [partialVecSum_eq hb.len]
    have hcomp := complete hb.card hb.orth dpsi
    rw [← Finset.add_sum_erase _ _ (Finset.mem_univ m)] at hcomp
    rw [← Finset.add_sum_erase Finset.univ _ (Finset.mem_univ m), if_pos rfl, zero_add]
    rw [← hm, add_comm]
    conv_lhs => rw [← hcomp]
    congr 1
    refine Finset.sum_congr rfl fun n hn => ?_
    have hnm : n ≠ m := Finset.ne_of_mem_erase hn
    rw [if_neg hnm]
    congr 1
    -- differentiate `⟨n|H ψ⟩ = λ ⟨n|ψ⟩`
    have he : H x *ᵥ evecs.get n = ((efreqs.get (n.cast hb.len.symm) : ℝ) : ℂ) • evecs.get n :=
      hb.eigen n n.isLt
    have hem : H x *ᵥ evecs.get m = ((efreqs[(m : ℕ)] : ℝ) : ℂ) • evecs.get m := hb.eigen m m.isLt
    have hcst : HasDerivVec (fun _ => evecs.get n) 0 x := fun a => hasDerivAt_const _ _
    have h1 := braket_deriv hd hcst hbr.deriv
    have h2 := (hellmann hbr hH hd).mul (overlap_deriv hcst hbr.deriv)
    have heq : (fun t => braket (evecs.get n) (H t) (psi t)) =ᶠ[𝓝 x]
        (fun t => (lam t : ℂ) * overlap (evecs.get n) (psi t)) := by
      filter_upwards [hbr.eigen] with t ht
      exact braket_eigen_right ht _
    have h3 := h1.unique (h2.congr_of_eventuallyEq heq)
    have hnm0 : overlap (evecs.get n) (psi x) = 0 := by
      have := hb.orth n m
      rw [if_neg hnm, hm] at this
      exact this
    have hz : ∀ (A : Matrix ι ι ℂ) (v : ι → ℂ), braket 0 A v = 0 := by intro A v; simp [braket]
    have hz2 : ∀ v : ι → ℂ, overlap 0 v = 0 := by intro v; simp [overlap]
    rw [hz, hz2, hnm0, braket_eigen_left hH he] at h3
    -- the eigenvalue of the branch is that of the list
    have hlam : (lam x : ℂ) = ((efreqs[(m : ℕ)] : ℝ) : ℂ) := by
      have e1 := hbr.eigen.self_of_nhds
      rw [← hm, hem] at e1
      have e2 : overlap (evecs.get m) (evecs.get m) = 1 := by
        have := hb.orth m m
        rw [if_pos rfl] at this
        exact this
      have e3 := congrArg (overlap (evecs.get m)) e1
      rw [overlap_smul, overlap_smul, e2, mul_one, mul_one] at e3
      exact e3.symm
    rw [hlam] at h3
    have hgap : ((efreqs[(m : ℕ)] - efreqs.get (n.cast hb.len.symm) + 0 : ℝ) : ℂ) ≠ 0 := by
      rw [add_zero]
      exact_mod_cast sub_ne_zero.2 (fun h => hsimple n hnm h.symm)
    rw [eq_div_iff hgap, hm]
    push_cast
    linear_combination -h3
  · have h := branch_phase hbr
    rw [← overlap_conj] at h
    have := congrArg Complex.re h
    simp only [add_re, conj_re, zero_re] at this
    linarith

theorem exEvecs_basis : Eigenbasis (exH 0) exEvecs [-1, 1] := by
  refine ⟨rfl, rfl, ?_, ?_⟩
  · intro i j
    fin_cases i <;> fin_cases j <;> simp [exEvecs]
  · intro i hi
    have : i = 0 ∨ i = 1 := by simp only [exEvecs, List.length_cons, List.length_nil] at hi; omega
    rcases this with rfl | rfl
    · funext a; fin_cases a <;> simp [exH, exEvecs]
    · funext a; fin_cases a <;> simp [exH, exEvecs]

theorem exEvecs_simple (n : Fin exEvecs.length) (hn : n ≠ (⟨1, by decide⟩ : Fin exEvecs.length)) :
    ([-1, 1] : List ℝ).get (n.cast exEvecs_basis.len.symm) ≠
      ([-1, 1] : List ℝ).get ((⟨1, by decide⟩ : Fin exEvecs.length).cast exEvecs_basis.len.symm) := by
  have h0 : n = (⟨0, by decide⟩ : Fin exEvecs.length) := by
    have := n.isLt
    simp only [exEvecs, List.length_cons, List.length_nil] at this
    have h2 : (n : ℕ) ≠ 1 := fun h => hn (Fin.ext h)
    exact Fin.ext (by show (n : ℕ) = 0; omega)
  subst h0
  norm_num

/-- `C60_is_derivative` applies to the rotating two-level system, -/
example : ∃ v, partialVec exEvecs [-1, 1] exdH 1 0 = .ok v ∧
    ∃ z : ℂ, z.re = 0 ∧ (![0, 1] : Fin 2 → ℂ) = v + z • ![1, 0] := by
  have h := C60_is_derivative exH_herm exH_deriv exH_branch exEvecs [-1, 1] exEvecs_basis
    ⟨1, by decide⟩ (by funext a; fin_cases a <;> simp [exEvecs]) exEvecs_simple
  obtain ⟨v, h1, h2, h3⟩ := h
  refine ⟨v, h1, _, h3, ?_⟩
  convert h2 using 3
  funext a; fin_cases a <;> simp

/-- and so does `C60_perturbation` -/
example : ∃ v, partialVec exEvecs [-1, 1] exdH 1 0 = .ok v ∧
    exH 0 *ᵥ v - ((1 : ℝ) : ℂ) • v = -(exdH *ᵥ ![1, 0] - braket ![1, 0] exdH ![1, 0] • ![1, 0]) :=
  C60_perturbation (exH 0) exdH exEvecs [-1, 1] exEvecs_basis ⟨1, by decide⟩ exEvecs_simple

/-- and `C60_orthogonal`, for the default `epsilon` -/
example : ∃ v, partialVec exEvecs [-1, 1] exdH 1 1e-12 = .ok v ∧ overlap ![1, 0] v = 0 :=
  C60_orthogonal exEvecs [-1, 1] rfl exEvecs_basis.orth exdH ⟨1, by decide⟩ 1e-12 (by
    intro n hn
    have h0 : n = (⟨0, by decide⟩ : Fin exEvecs.length) := by
      have := n.isLt
      simp only [exEvecs, List.length_cons, List.length_nil] at this
      have h2 : (n : ℕ) ≠ 1 := fun h => hn (Fin.ext h)
      exact Fin.ext (by show (n : ℕ) = 0; omega)
    subst h0
    norm_num)

/-- With a negative state number (Python: the last state) the state's own term is not left out, so the
returned vector is not orthogonal to the eigenvector: for the same system and the default
`epsilon = 1e-12`, its component along the eigenvector is `1e12`. -/
theorem C60_negative_index : ∃ v, partialVec exEvecs [-1, 1] exdH (-1) 1e-12 = .ok v ∧
    overlap (![1, 0] : Fin 2 → ℂ) v = 1e12 := by
  refine ⟨_, rfl, ?_⟩
  simp [partialVecSum, exEvecs, exdH, innerOp, overlap, List.range, List.range.loop]
  norm_num

end SQ
