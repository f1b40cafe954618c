import Verif.Spec.Participation
import Verif.Props.ResonatorLoss
import Verif.Props.FinalModes

/-!
# Modes and states of linear networks
-/

namespace SQ
open Matrix Spec

variable {c : CircSpec} {eigs : EigsFn} {as : List ℂ → List ℕ}

theorem frame_alg {n : ℕ} {C L S R cI l : Matrix (Fin n) (Fin n) ℝ} (hC : IsUnit C.det) (h1 : Sᵀ * R = 1)
    (h2 : cI = Rᵀ * C⁻¹ * R) (h3 : l = Sᵀ * L * S) : C⁻¹ * R = S * cI ∧ Sᵀ * C * S * cI = 1 ∧ L * S = C * S * (cI * l) := by
  have e1 : R * Sᵀ = 1 := mul_eq_one_comm.1 h1
  have e2 : S * Rᵀ = 1 := by
    have := congrArg transpose e1
    rwa [transpose_mul, transpose_transpose, transpose_one] at this
  have e3 : C⁻¹ * R = S * cI := by
    rw [h2, ← Matrix.mul_assoc, ← Matrix.mul_assoc, e2, Matrix.one_mul]
  refine ⟨e3, ?_, canon_pattern hC h1 h2 h3⟩
  rw [Matrix.mul_assoc, ← e3, Matrix.mul_assoc, ← Matrix.mul_assoc C, mul_nonsing_inv _ hC, Matrix.one_mul, h1]

/-- what construction yields for a circuit without junctions, in terms of the columns of `S` -/
theorem linear_frame {vals : ElemId → ℝ} (hc : GoodCircuit c vals) (hlin : Linear c.O c.els) {b : Build}
    (hb : buildCirc c vals = .ok b) :
    ∃ hk : b.M.keep.length = b.n, b.C = nodeCap b.n (c.O.withVals vals) c.els ∧ ∀ i : Fin b.M.keep.length,
      (∀ x, (b.C⁻¹ * b.M.R) x (i.cast hk) = b.M.cInv i i * b.M.S x (i.cast hk)) ∧
      (∀ j : Fin b.M.keep.length, (fun x => b.M.S x (j.cast hk)) ⬝ᵥ
        (nodeCap b.n (c.O.withVals vals) c.els *ᵥ fun x => b.M.S x (i.cast hk)) = if j = i then (b.M.cInv i i)⁻¹ else 0) ∧
      nodeInvInd b.n (c.O.withVals vals) c.els *ᵥ (fun x => b.M.S x (i.cast hk)) =
        b.M.omega i ^ 2 • (nodeCap b.n (c.O.withVals vals) c.els *ᵥ fun x => b.M.S x (i.cast hk)) ∧
      (b.M.omega i ≠ 0 → 0 < b.M.l i i ∧ b.M.omega i = √(b.M.cInv i i * b.M.l i i)) := by
  have hk := (linear_keep hc.noSelf hlin hb).2
  obtain ⟨-, hdiag, hpos, -⟩ := linear_modes hc hlin hb
  obtain ⟨n, a, B, t, hn, htr, -, ht, rfl⟩ := buildCirc_stages hb
  obtain ⟨hv, hw⟩ := linear_wMat hc.noSelf hlin htr
  obtain ⟨-, hC, hL⟩ := good_mats hc hn htr
  obtain ⟨hlib, hgap⟩ := hc.lib n a hn htr
  obtain ⟨hm1, hm2⟩ := traverse_mats hv htr
  have hnC : nodeCap n (c.O.withVals vals) c.els = a.cMat := hm1.symm
  have hnL : nodeInvInd n (c.O.withVals vals) c.els = a.lMat := hm2.symm
  obtain ⟨hcan, hcI, hl, -⟩ := C26_canonical_construction (c.lib n) c.sv c.argsort (c.argmax _) (hc.argmax _) c.draws _ _ _ hC
    hL.isHermitian _ hlib hgap c.fuel t ht
  obtain ⟨-, h78, har, hz⟩ := C78_modes (c.lib n) c.sv c.argsort (c.argmax _) (hc.argmax _) c.draws _ _ _ hC hL _ hlib c.fuel t ht
    c.torch
  obtain ⟨f1, f2, f3⟩ := frame_alg ((isUnit_iff_isUnit_det _).1 hC.isUnit) hcan hcI hl
  change (finishModes c.torch t).keep.length = n at hk
  change ∀ i j : Fin (finishModes c.torch t).keep.length, i ≠ j → (finishModes c.torch t).cInv i j = 0 at hdiag
  change ∀ i : Fin (finishModes c.torch t).keep.length, 0 < (finishModes c.torch t).cInv i i at hpos
  refine ⟨hk, hnC.symm, ?_⟩
  show ∀ i : Fin (finishModes c.torch t).keep.length,
      (∀ x, (a.cMat⁻¹ * (finishModes c.torch t).R) x (i.cast hk) =
        (finishModes c.torch t).cInv i i * (finishModes c.torch t).S x (i.cast hk)) ∧
      (∀ j : Fin (finishModes c.torch t).keep.length, (fun x => (finishModes c.torch t).S x (j.cast hk)) ⬝ᵥ
        (nodeCap n (c.O.withVals vals) c.els *ᵥ fun x => (finishModes c.torch t).S x (i.cast hk)) =
          if j = i then ((finishModes c.torch t).cInv i i)⁻¹ else 0) ∧
      nodeInvInd n (c.O.withVals vals) c.els *ᵥ (fun x => (finishModes c.torch t).S x (i.cast hk)) =
        (finishModes c.torch t).omega i ^ 2 • (nodeCap n (c.O.withVals vals) c.els *ᵥ fun x => (finishModes c.torch t).S x (i.cast hk)) ∧
      ((finishModes c.torch t).omega i ≠ 0 → 0 < (finishModes c.torch t).l i i ∧
        (finishModes c.torch t).omega i = √((finishModes c.torch t).cInv i i * (finishModes c.torch t).l i i))
  have hcl : ∀ i, (finishModes c.torch t).cInv i i * (finishModes c.torch t).l i i = (finishModes c.torch t).omega i ^ 2 := by
    intro i
    by_cases h0 : (finishModes c.torch t).omega i = 0
    · rw [(hz i i h0).1, h0]; simp
    · obtain ⟨p1, p2, p3⟩ := har i h0
      rw [show (finishModes c.torch t).omega i = _ from p3, Real.sq_sqrt (mul_pos p1 p2).le]
      rfl
  have hldiag : ∀ i j, i ≠ j → (finishModes c.torch t).l i j = 0 := by
    intro i j hij
    by_cases h0 : (finishModes c.torch t).omega i = 0
    · exact (hz i j h0).1
    · exact (h78 i j hij h0).2.2.1
  have hh : ∀ i, (finishModes c.torch t).omega i ≠ 0 → 0 < (finishModes c.torch t).l i i ∧
        (finishModes c.torch t).omega i = √((finishModes c.torch t).cInv i i * (finishModes c.torch t).l i i) :=
    fun i h0 => ⟨(har i h0).2.1, (har i h0).2.2⟩
  rw [hnC, hnL]
  clear hb har hz h78
  have hfin := finishModes_none hw c.torch t
  generalize finishModes c.torch t = M at hk hdiag hpos hcl hldiag hh hfin ⊢
  subst hfin
  have hget : ∀ i : Fin (List.finRange n).length, (List.finRange n).get i = i.cast hk := fun i => by
    rw [List.get_finRange]
    rfl
  -- diagonal matrices over all modes
  have hcd : ∀ x y : Fin n, x ≠ y → t.cInv x y = 0 := by
    intro x y hxy
    have := hdiag (x.cast hk.symm) (y.cast hk.symm) (fun h => hxy (by simpa using h))
    have e : t.cInv ((List.finRange n).get (x.cast hk.symm)) ((List.finRange n).get (y.cast hk.symm)) = 0 := this
    have e1 := hget (x.cast hk.symm)
    have e2 := hget (y.cast hk.symm)
    exact (congrArg₂ t.cInv e1.symm e2.symm).trans e
  have hld : ∀ x y : Fin n, x ≠ y → t.l x y = 0 := by
    intro x y hxy
    have := hldiag (x.cast hk.symm) (y.cast hk.symm) (fun h => hxy (by simpa using h))
    have e : t.l ((List.finRange n).get (x.cast hk.symm)) ((List.finRange n).get (y.cast hk.symm)) = 0 := this
    have e1 := hget (x.cast hk.symm)
    have e2 := hget (y.cast hk.symm)
    exact (congrArg₂ t.l e1.symm e2.symm).trans e
  have hcl' : t.cInv * t.l = diagonal fun x : Fin n => t.cInv x x * t.l x x := by
    ext x y
    rw [mul_apply, Finset.sum_eq_single x]
    · by_cases hxy : x = y
      · subst hxy; rw [diagonal_apply_eq]
      · rw [diagonal_apply_ne _ hxy, hld x y hxy, mul_zero]
    · intro z _ hz
      rw [hcd x z (Ne.symm hz), zero_mul]
    · intro h; exact absurd (Finset.mem_univ _) h
  have hcdg : t.cInv = diagonal fun x : Fin n => t.cInv x x := by
    ext x y
    by_cases hxy : x = y
    · subst hxy; rw [diagonal_apply_eq]
    · rw [diagonal_apply_ne _ hxy, hcd x y hxy]
  intro i
  have ec : (restrict t (List.finRange n)).cInv i i = t.cInv (i.cast hk) (i.cast hk) := by
    exact congrArg₂ t.cInv (hget i) (hget i)
  refine ⟨?_, ?_, ?_, hh i⟩
  · intro x
    show (a.cMat⁻¹ * t.R) x (i.cast hk) = (restrict t (List.finRange n)).cInv i i * t.S x (i.cast hk)
    rw [ec, f1]
    conv_lhs => rw [hcdg]
    rw [mul_diagonal, mul_comm]
  · intro j
    show (fun x => t.S x (j.cast hk)) ⬝ᵥ (a.cMat *ᵥ fun x => t.S x (i.cast hk)) = if j = i then ((restrict t (List.finRange n)).cInv i i)⁻¹ else 0
    have e : (fun x => t.S x (j.cast hk)) ⬝ᵥ (a.cMat *ᵥ fun x => t.S x (i.cast hk)) = (t.Sᵀ * a.cMat * t.S) (j.cast hk) (i.cast hk) := by
      rw [Matrix.mul_assoc, mul_apply]
      rfl
    have f := congrFun (congrFun f2 (j.cast hk)) (i.cast hk)
    rw [hcdg, mul_diagonal] at f
    have hp := hpos i
    rw [ec] at hp ⊢
    rw [e, eq_div_of_mul_eq hp.ne' f, one_apply]
    by_cases hji : j = i
    · subst hji; simp
    · rw [if_neg hji, if_neg (fun h => hji (by simpa using h)), zero_div]
  · show a.lMat *ᵥ (fun x => t.S x (i.cast hk)) = (restrict t (List.finRange n)).omega i ^ 2 • (a.cMat *ᵥ fun x => t.S x (i.cast hk))
    rw [← hcl i]
    have el : (restrict t (List.finRange n)).l i i = t.l (i.cast hk) (i.cast hk) := by
      exact congrArg₂ t.l (hget i) (hget i)
    rw [ec, el]
    ext x
    have := congrFun (congrFun f3 x) (i.cast hk)
    rw [hcl', mul_diagonal] at this
    rw [Pi.smul_apply, smul_eq_mul, mul_comm]
    exact this

/-! ### states -/

theorem net_state {ι : Type*} [Fintype ι] [DecidableEq ι] (E : ι → ℝ) (x : ι) (hx : OnlyState E x) (psi : ι → ℂ)
    (hn : overlap psi psi = 1) (hH : (diagonal fun z => ((E z : ℝ) : ℂ)) *ᵥ psi = ((E x : ℝ) : ℂ) • psi) :
    ∃ z : ℂ, ‖z‖ = 1 ∧ ∀ y, psi y = if y = x then z else 0 := by
  have h0 : ∀ y, y ≠ x → psi y = 0 := by
    intro y hy
    have := congrFun hH y
    rw [mulVec_diagonal, Pi.smul_apply, smul_eq_mul] at this
    have h2 : (((E y : ℝ) : ℂ) - ((E x : ℝ) : ℂ)) * psi y = 0 := by linear_combination this
    rcases mul_eq_zero.1 h2 with h | h
    · exact absurd (hx y (by exact_mod_cast sub_eq_zero.1 h)) hy
    · exact h
  refine ⟨psi x, ?_, fun y => ?_⟩
  · unfold overlap at hn
    rw [Finset.sum_eq_single x] at hn
    · rw [← Complex.normSq_eq_conj_mul_self] at hn
      have h1 : Complex.normSq (psi x) = 1 := by exact_mod_cast hn
      rw [Complex.normSq_eq_norm_sq] at h1
      exact (pow_eq_one_iff_of_nonneg (norm_nonneg _) two_ne_zero).1 h1
    · intro y _ hy
      rw [h0 y hy, mul_zero]
    · intro h; exact absurd (Finset.mem_univ _) h
  · split_ifs with h
    · rw [h]
    · exact h0 y h

theorem net_braket {ι : Type*} [Fintype ι] [DecidableEq ι] (A : Matrix ι ι ℂ) (x x' : ι) (psi psi' : ι → ℂ) (z z' : ℂ)
    (hz : ‖z‖ = 1) (hz' : ‖z'‖ = 1)
    (h : ∀ y, psi y = if y = x then z else 0) (h' : ∀ y, psi' y = if y = x' then z' else 0) :
    ‖braket psi A psi'‖ = ‖A x x'‖ := by
  have : braket psi A psi' = (starRingEnd ℂ) z * A x x' * z' := by
    unfold braket
    rw [Finset.sum_eq_single x, Finset.sum_eq_single x']
    · rw [h, h', if_pos rfl, if_pos rfl]
    · intro y _ hy
      rw [h', if_neg hy, mul_zero]
    · intro h; exact absurd (Finset.mem_univ _) h
    · intro y _ hy
      apply Finset.sum_eq_zero
      intro b _
      rw [h, if_neg hy, map_zero, zero_mul, zero_mul]
    · intro h; exact absurd (Finset.mem_univ _) h
  rw [this, norm_mul, norm_mul, hz', mul_one, show ‖(starRingEnd ℂ) z‖ = 1 by rw [RCLike.norm_conj]; exact hz, one_mul]

theorem net_single {k : ℕ} {d : Fin k → ℕ} (i : Fin k) (A : Matrix (Fin (d i)) (Fin (d i)) ℂ) (x x' : Idx d) :
    (∀ j, j ≠ i → x j = x' j) → single d i A x x' = A (x i) (x' i) := by
  intro h
  unfold single tens
  rw [of_apply, Finset.prod_eq_single i]
  · rw [Function.update_self]
  · intro j _ hj
    rw [Function.update_of_ne hj, h j hj, one_apply_eq]
  · intro h; exact absurd (Finset.mem_univ _) h

theorem net_single_zero {k : ℕ} {d : Fin k → ℕ} (i j : Fin k) (A : Matrix (Fin (d i)) (Fin (d i)) ℂ) (x x' : Idx d)
    (hj : j ≠ i) (h : x j ≠ x' j) : single d i A x x' = 0 := by
  unfold single tens
  rw [of_apply, Finset.prod_eq_zero (Finset.mem_univ j)]
  rw [Function.update_of_ne hj, one_apply_ne h]

/-- matrix element of a sum of one-mode operators between states that differ in mode `i` only -/
theorem net_sum_single {k : ℕ} {d : Fin k → ℕ} (g : Fin k → ℂ) (A : ∀ i, Matrix (Fin (d i)) (Fin (d i)) ℂ) (x x' : Idx d) (i : Fin k)
    (hi : x i ≠ x' i) (h : ∀ j, j ≠ i → x j = x' j) :
    (∑ j, g j • single d j (A j)) x x' = g i * A i (x i) (x' i) := by
  rw [Matrix.sum_apply, Finset.sum_eq_single i]
  · rw [Matrix.smul_apply, net_single i _ x x' h, smul_eq_mul]
  · intro j _ hj
    rw [Matrix.smul_apply, net_single_zero j i _ x x' (Ne.symm hj) hi, smul_zero]
  · intro h; exact absurd (Finset.mem_univ _) h

theorem net_sum_zero {k : ℕ} {d : Fin k → ℕ} (g : Fin k → ℂ) (A : ∀ i, Matrix (Fin (d i)) (Fin (d i)) ℂ) (x x' : Idx d) (hx : x ≠ x')
    (h : ∀ i, x i ≠ x' i → (∀ j, j ≠ i → x j = x' j) → A i (x i) (x' i) = 0) :
    (∑ j, g j • single d j (A j)) x x' = 0 := by
  obtain ⟨i, hi⟩ := Function.ne_iff.1 hx
  by_cases hall : ∀ j, j ≠ i → x j = x' j
  · rw [net_sum_single g A x x' i hi hall, h i hi hall, mul_zero]
  · push Not at hall
    obtain ⟨l, hl, hxl⟩ := hall
    rw [Matrix.sum_apply]
    apply Finset.sum_eq_zero
    intro j _
    rw [Matrix.smul_apply]
    by_cases hj : j = i
    · subst hj
      rw [net_single_zero j l _ x x' hl hxl, smul_zero]
    · rw [net_single_zero j i _ x x' (Ne.symm hj) hi, smul_zero]

end SQ
