import Verif.Spec.Grounded
import Verif.Lemmas.Linear
import Verif.Props.ModeCount
import Verif.Props.Symbolic
import Verif.Props.Stability

/-!
# Normal modes and the operators of circuits held by inductors
-/

namespace SQ
open Matrix Spec

/-! ### patterns -/

theorem mp_modes {n : ℕ} {C L : Matrix (Fin n) (Fin n) ℝ} {ω : Fin n → ℝ} {v : Fin n → Fin n → ℝ}
    (h : ModePatterns C L ω v) : NormalModes C L ω := by
  refine ⟨rfl, fun i => (h.positive i).le, h.descending.antitone, v, ?_, h.pattern⟩
  rw [Fintype.linearIndependent_iff]
  intro g hg i
  have h1 : (∑ j, g j • v j) ⬝ᵥ (C *ᵥ v i) = 0 := by rw [hg, zero_dotProduct]
  rw [sum_dotProduct] at h1
  simpa [h.unit] using h1

/-- the modes found by a canonical transformation that makes both matrices diagonal are the normal modes, up to signs -/
theorem mp_unique {n : ℕ} {C L S R cI l : Matrix (Fin n) (Fin n) ℝ} {ω ω' : Fin n → ℝ} {v : Fin n → Fin n → ℝ}
    (hC : IsUnit C.det) (h1 : Sᵀ * R = 1) (h2 : cI = Rᵀ * C⁻¹ * R) (h3 : l = Sᵀ * L * S)
    (hd : ∀ i j, i ≠ j → cI i j = 0) (hdl : ∀ i j, i ≠ j → l i j = 0) (hpos : ∀ i, 0 < cI i i)
    (hω : ∀ i, cI i i * l i i = ω' i ^ 2) (hnn : ∀ i, 0 ≤ ω' i) (hanti : Antitone ω') (hm : ModePatterns C L ω v) :
    ω' = ω ∧ ∃ s : Fin n → ℝ, (∀ j, s j = 1 ∨ s j = -1) ∧ ∀ a j, S a j * √(cI j j) = s j * v j a := by
  have e1 : L * S = C * S * (cI * l) := canon_pattern hC h1 h2 h3
  have hdd : cI * l = diagonal fun i => ω' i ^ 2 := by
    ext i j
    rw [mul_apply, Finset.sum_eq_single i (fun k _ hk => by rw [hd i k hk.symm, zero_mul]) (by simp)]
    by_cases hij : i = j
    · subst hij
      rw [diagonal_apply_eq, hω]
    · rw [diagonal_apply_ne _ hij, hdl i j hij, mul_zero]
  have hSpat : ∀ j, L *ᵥ (fun a => S a j) = ω' j ^ 2 • (C *ᵥ fun a => S a j) := by
    intro j
    funext i
    have := congrFun (congrFun e1 i) j
    rw [hdd, mul_diagonal] at this
    change (L * S) i j = ω' j ^ 2 * (C * S) i j
    rw [this, mul_comm]
  have hSu : IsUnit S.det := by
    have := congrArg det h1
    rw [det_mul, det_transpose, det_one] at this
    exact IsUnit.of_mul_eq_one _ this
  have hnm : NormalModes C L ω' := by
    refine ⟨rfl, hnn, hanti, fun j a => S a j, ?_, hSpat⟩
    have := (linearIndependent_cols_iff_isUnit (A := S)).2 ((isUnit_iff_isUnit_det _).2 hSu)
    exact this
  have hωω : ω' = ω := List.ofFn_injective (normalModes_unique hC hnm (mp_modes hm))
  subst hωω
  refine ⟨rfl, ?_⟩
  -- the capacitance in mode coordinates
  have hgram : cI * (Sᵀ * C * S) = 1 := by
    have e2 : R * Sᵀ = 1 := mul_eq_one_comm.1 h1
    have e3 : Rᵀ * S = 1 := by
      have := congrArg transpose h1
      rwa [transpose_mul, transpose_transpose, transpose_one] at this
    calc cI * (Sᵀ * C * S) = Rᵀ * C⁻¹ * (R * Sᵀ) * C * S := by rw [h2]; simp only [Matrix.mul_assoc]
      _ = Rᵀ * (C⁻¹ * C) * S := by rw [e2, Matrix.mul_one]; simp only [Matrix.mul_assoc]
      _ = 1 := by rw [nonsing_inv_mul _ hC, Matrix.mul_one, e3]
  have hnorm : ∀ j, cI j j * ((fun a => S a j) ⬝ᵥ (C *ᵥ fun a => S a j)) = 1 := by
    intro j
    have := congrFun (congrFun hgram j) j
    rw [mul_apply, Finset.sum_eq_single j (fun k _ hk => by rw [hd j k hk.symm, zero_mul]) (by simp), one_apply_eq] at this
    rw [← this]
    congr 1
    rw [Matrix.mul_assoc]
    rfl
  -- the columns are multiples of the patterns
  let V : Matrix (Fin n) (Fin n) ℝ := Matrix.of fun a j => v j a
  have hVC : Vᵀ * C * V = 1 := by
    ext i j
    rw [Matrix.mul_assoc, one_apply]
    exact hm.unit i j
  have hVL : L * V = C * V * diagonal fun i => ω' i ^ 2 := by
    ext i j
    rw [mul_diagonal]
    have := congrFun (hm.pattern j) i
    rw [Pi.smul_apply, smul_eq_mul, mul_comm] at this
    exact this
  have hV1 : V * (Vᵀ * C) = 1 := mul_eq_one_comm.1 hVC
  have hcol : ∀ j, ∃ x : ℝ, ∀ a, S a j = x * v j a := by
    intro j
    obtain ⟨y, hy⟩ : ∃ y, V *ᵥ y = fun a => S a j :=
      ⟨(Vᵀ * C) *ᵥ fun a => S a j, by rw [mulVec_mulVec, hV1, one_mulVec]⟩
    have hp := hSpat j
    rw [← hy, mulVec_mulVec, mulVec_mulVec, hVL] at hp
    have hp2 := congrArg (fun z => Vᵀ *ᵥ z) hp
    simp only [mulVec_smul, mulVec_mulVec] at hp2
    rw [← Matrix.mul_assoc, ← Matrix.mul_assoc, hVC, Matrix.one_mul, one_mulVec] at hp2
    have hz : ∀ i, i ≠ j → y i = 0 := by
      intro i hi
      have := congrFun hp2 i
      rw [mulVec_diagonal, Pi.smul_apply, smul_eq_mul] at this
      have hne : ω' i ^ 2 ≠ ω' j ^ 2 := by
        intro h0
        have := (sq_eq_sq₀ (hm.positive i).le (hm.positive j).le).1 h0
        exact hi (hm.descending.injective this)
      have h0 : (ω' i ^ 2 - ω' j ^ 2) * y i = 0 := by linear_combination this
      exact (mul_eq_zero.1 h0).resolve_left (sub_ne_zero.2 hne)
    refine ⟨y j, fun a => ?_⟩
    have := congrFun hy a
    rw [← this]
    change ∑ i, V a i * y i = _
    rw [Finset.sum_eq_single j (fun i _ hi => by rw [hz i hi, mul_zero]) (by simp), mul_comm]
    rfl
  choose x hx using hcol
  have hx2 : ∀ j, cI j j * x j ^ 2 = 1 := by
    intro j
    have e : (fun a => S a j) = x j • v j := by
      funext a
      rw [hx]; rfl
    have := hnorm j
    rw [e, mulVec_smul, smul_dotProduct, dotProduct_smul, hm.unit, if_pos rfl] at this
    simp only [smul_eq_mul, mul_one] at this
    rw [← this]; ring
  refine ⟨fun j => x j * √(cI j j), fun j => ?_, fun a j => ?_⟩
  · have h0 : (x j * √(cI j j)) ^ 2 = 1 := by
      rw [mul_pow, Real.sq_sqrt (hpos j).le, mul_comm, hx2]
    exact mul_self_eq_one_iff.1 (by rw [← sq]; exact h0)
  · rw [hx]; ring

theorem gm_omega {c : CircSpec} {vals : ElemId → ℝ} (hc : GoodCircuit c vals) {n : ℕ} {a : Acc n}
    (hn : numNodes c.els = .ok n) (htr : traverse c.torch c.fd (c.O.withVals vals) n c.h c.els = .ok a)
    {ω : Fin n → ℝ} {v : Fin n → Fin n → ℝ} (hm : ModePatterns a.cMat a.lMat ω v) :
    modeFreq (c.lib n) a.cMat a.lMat = ω := by
  obtain ⟨-, hC, hL⟩ := good_mats hc hn htr
  obtain ⟨hlib, hgap⟩ := hc.lib n a hn htr
  have hCu : IsUnit a.cMat.det := isUnit_iff_ne_zero.2 hC.det_pos.ne'
  obtain ⟨-, -, h3, -, h5, h6⟩ := C27_first_transformation (c.lib n) _ _ hC hL (0 : Matrix (Fin 0) (Fin n) ℝ) hlib hgap
  have hnm : NormalModes a.cMat a.lMat (modeFreq (c.lib n) a.cMat a.lMat) := by
    refine ⟨rfl, fun i => ?_, fun i j hij => ?_, fun j i =>
      (setOmega (t1 (c.lib n) a.cMat a.lMat (initTrans a.cMat a.lMat (0 : Matrix (Fin 0) (Fin n) ℝ)))).S i j, ?_, fun j => ?_⟩
    · exact (hlib.svdNonneg i).trans (h3 i).ge
    · refine (h3 j).le.trans ((hlib.svdSorted i j hij).trans (h3 i).ge)
    · exact (linearIndependent_cols_iff_isUnit
        (A := (setOmega (t1 (c.lib n) a.cMat a.lMat (initTrans a.cMat a.lMat (0 : Matrix (Fin 0) (Fin n) ℝ)))).S)).2
        ((isUnit_iff_isUnit_det _).2 h6)
    · have := congrArg (fun z => a.cMat *ᵥ z) (h5 j)
      simp only [mulVec_mulVec, mulVec_smul] at this
      rw [← Matrix.mul_assoc, mul_nonsing_inv _ hCu, Matrix.one_mul] at this
      exact this
  exact List.ofFn_injective (normalModes_unique hCu hnm (mp_modes hm))

/-- couplings that survive the third transformation are not small -/
theorem t3_large {nJ n : ℕ} {argmax : ArgmaxFn nJ} (ha : ArgmaxSpec argmax) (tb : Trans nJ n)
    (hS : IsUnit (t3 argmax tb).S.det) {i : Fin nJ} {j : Fin n} (hj : tb.omega j ≠ 0) (hw : (t3 argmax tb).w i j ≠ 0) :
    1e-11 ≤ |(t3 argmax tb).phiZp j * (t3 argmax tb).w i j| := by
  have hSb : IsUnit tb.S.det := by
    have e : (t3 argmax tb).S = tb.S * diagonal (t3Diag argmax tb) := by
      ext x y
      rw [t3_S, mul_diagonal]
    rw [e, det_mul] at hS
    exact (IsUnit.mul_iff.1 hS).1
  have hd := t3Diag_pos ha tb hSb j
  have hz : (t3 argmax tb).phiZp j = tb.phiZp j / t3Diag argmax tb j := by
    unfold Trans.phiZp Trans.impedance
    rw [t3_cInv ha tb hSb, t3_l]
    have e : (t3Diag argmax tb j)⁻¹ * tb.cInv j j * (t3Diag argmax tb j)⁻¹ /
        (t3Diag argmax tb j * tb.l j j * t3Diag argmax tb j) = tb.cInv j j / tb.l j j / ((t3Diag argmax tb j) ^ 2) ^ 2 := by
      by_cases h0 : tb.l j j = 0
      · simp [h0]
      · field_simp
    rw [e, Real.sqrt_div' _ (by positivity), Real.sqrt_sq (by positivity), ← mul_div_assoc,
      Real.sqrt_div' _ (by positivity), Real.sqrt_sq hd.le, ← mul_div_assoc]
  have hE : (t3Elim tb).w i j = tb.w i j ∧ ¬ tb.absAlpha j i < accHar := by
    by_cases h : tb.omega j ≠ 0 ∧ tb.absAlpha j i < accHar
    · exfalso
      apply hw
      rw [t3_w]
      have : (t3Elim tb).w i j = 0 := if_pos h
      rw [this, zero_mul]
    · exact ⟨if_neg h, fun h0 => h ⟨hj, h0⟩⟩
  rw [hz, t3_w, hE.1]
  have e : tb.phiZp j / t3Diag argmax tb j * (tb.w i j * t3Diag argmax tb j) = tb.phiZp j * tb.w i j := by
    field_simp
  rw [e]
  exact not_lt.1 hE.2

/-- what the transformations compute for a circuit held by inductors -/
theorem gm_trans {c : CircSpec} {vals : ElemId → ℝ} (hc : GoodCircuit c vals) {n : ℕ} {a : Acc n}
    (hn : numNodes c.els = .ok n) (htr : traverse c.torch c.fd (c.O.withVals vals) n c.h c.els = .ok a)
    {t : Trans a.wMat.length n}
    (ht : transformHamil (c.lib n) c.sv c.argsort (c.argmax _) c.draws a.numJunWithoutInd a.cMat a.lMat
      (arrayOf n a.wMat) c.fuel (initTrans a.cMat a.lMat (arrayOf n a.wMat)) = some (.ok t))
    {ω : Fin n → ℝ} {v : Fin n → Fin n → ℝ} (hm : ModePatterns a.cMat a.lMat ω v) :
    t.omega = ω ∧ (∀ i j, i ≠ j → t.cInv i j = 0) ∧
    ∃ s : Fin n → ℝ, (∀ j, s j = 1 ∨ s j = -1) ∧
      (∀ x j, t.S x j * √(t.impedance j) = s j * v j x / √(ω j)) ∧
      ∀ q j, t.w q j * t.phiZp j = neglect (2 * Real.pi / Phi0 * √(hbar / (2 * ω j)) *
        ∑ k, arrayOf n a.wMat q k * (s j * v j k)) := by
  obtain ⟨hv, hC, hL⟩ := good_mats hc hn htr
  obtain ⟨hlib, hgap⟩ := hc.lib n a hn htr
  have hCu : IsUnit a.cMat.det := isUnit_iff_ne_zero.2 hC.det_pos.ne'
  have hom : t.omega = ω := (final_omega ht).trans (gm_omega hc hn htr hm)
  have hne : ∀ j, t.omega j ≠ 0 := fun j => by rw [hom]; exact (hm.positive j).ne'
  obtain ⟨hcan, hcI, hl, -, -, hw⟩ := C26_canonical_construction (c.lib n) c.sv c.argsort (c.argmax _) (hc.argmax _) c.draws
    _ _ _ hC hL.isHermitian _ hlib hgap c.fuel t ht
  have hcan : t.Sᵀ * t.R = 1 := hcan
  have h78 := C78_modes (c.lib n) c.sv c.argsort (c.argmax _) (hc.argmax _) c.draws _ _ _ hC hL _ hlib c.fuel t ht true
  obtain ⟨-, h2, h3, -⟩ := h78
  have hfin : finishModes true t = restrict t (List.finRange n) := by
    unfold finishModes
    rw [if_neg (by rintro ⟨-, h⟩; cases h)]
  rw [hfin] at h2 h3
  obtain ⟨g, hget⟩ : ∃ g : Fin n → Fin (List.finRange n).length, ∀ j, (List.finRange n).get (g j) = j :=
    ⟨fun j => j.cast List.length_finRange.symm, fun j => by simp⟩
  have hd : ∀ i j, i ≠ j → t.cInv i j = 0 ∧ t.l i j = 0 := by
    intro i j hij
    have hi : t.omega ((List.finRange n).get (g i)) ≠ 0 := by rw [hget]; exact hne i
    have := h2 (g i) (g j) (fun h0 => hij (by rw [← hget i, ← hget j]; exact congrArg _ h0)) hi
    have e1 : t.cInv ((List.finRange n).get (g i)) ((List.finRange n).get (g j)) = 0 := this.1
    have e2 : t.l ((List.finRange n).get (g i)) ((List.finRange n).get (g j)) = 0 := this.2.2.1
    rw [hget, hget] at e1 e2
    exact ⟨e1, e2⟩
  have hh : ∀ j, 0 < t.cInv j j ∧ 0 < t.l j j ∧ t.omega j = √(t.cInv j j * t.l j j) := by
    intro j
    have hi : t.omega ((List.finRange n).get (g j)) ≠ 0 := by rw [hget]; exact hne j
    have e : 0 < t.cInv ((List.finRange n).get (g j)) ((List.finRange n).get (g j)) ∧
      0 < t.l ((List.finRange n).get (g j)) ((List.finRange n).get (g j)) ∧
      t.omega ((List.finRange n).get (g j)) = √(t.cInv ((List.finRange n).get (g j)) ((List.finRange n).get (g j)) *
          t.l ((List.finRange n).get (g j)) ((List.finRange n).get (g j))) := h3 (g j) hi
    rw [hget] at e
    exact e
  have hprod : ∀ j, t.cInv j j * t.l j j = t.omega j ^ 2 := by
    intro j
    rw [(hh j).2.2, Real.sq_sqrt (mul_pos (hh j).1 (hh j).2.1).le]
  obtain ⟨-, s, hs, hS⟩ := mp_unique (ω' := t.omega) hCu hcan hcI hl (fun i j h => (hd i j h).1) (fun i j h => (hd i j h).2)
    (fun j => (hh j).1) hprod (fun j => by rw [hom]; exact (hm.positive j).le) (by rw [hom]; exact hm.descending.antitone) hm
  have himp : ∀ j, t.impedance j = t.cInv j j / ω j := by
    intro j
    have hp := hprod j
    have h1 := (hh j).1
    have h2 := (hh j).2.1
    have h4 := hm.positive j
    rw [hom] at hp
    unfold Trans.impedance
    have : t.cInv j j / t.l j j = (t.cInv j j / ω j) ^ 2 := by
      rw [div_pow, ← hp]; field_simp
    rw [this, Real.sqrt_sq (by positivity)]
  have hSimp : ∀ x j, t.S x j * √(t.impedance j) = s j * v j x / √(ω j) := by
    intro x j
    rw [himp, Real.sqrt_div' _ (hm.positive j).le, ← mul_div_assoc, hS]
  have hSu : IsUnit t.S.det := by
    have := congrArg det hcan
    rw [det_mul, det_transpose, det_one] at this
    exact IsUnit.of_mul_eq_one _ this
  -- the coupling before small ones are dropped
  have hg : ∀ q j, t.phiZp j * (arrayOf n a.wMat * t.S) q j = 2 * Real.pi / Phi0 * √(hbar / (2 * ω j)) *
      ∑ k, arrayOf n a.wMat q k * (s j * v j k) := by
    intro q j
    have h4 := hm.positive j
    have e1 : t.phiZp j = 2 * Real.pi / Phi0 * (√(hbar / 2) * √(t.impedance j)) := by
      unfold Trans.phiZp
      rw [Real.sqrt_mul (by unfold hbar; positivity)]
    have e2 : √(hbar / (2 * ω j)) = √(hbar / 2) / √(ω j) := by
      rw [← div_div, Real.sqrt_div' _ h4.le]
    rw [e1, e2, mul_apply]
    have e3 : ∀ k, arrayOf n a.wMat q k * (s j * v j k) = √(ω j) * (arrayOf n a.wMat q k * (t.S k j * √(t.impedance j))) := by
      intro k
      rw [hSimp]
      have : √(ω j) ≠ 0 := (Real.sqrt_pos.2 h4).ne'
      field_simp
    rw [Finset.sum_congr rfl fun k _ => e3 k, ← Finset.mul_sum]
    have e4 : ∑ k, arrayOf n a.wMat q k * (t.S k j * √(t.impedance j)) =
        (∑ k, arrayOf n a.wMat q k * t.S k j) * √(t.impedance j) := by
      rw [Finset.sum_mul]
      exact Finset.sum_congr rfl fun k _ => by ring
    rw [e4]
    have : √(ω j) ≠ 0 := (Real.sqrt_pos.2 h4).ne'
    field_simp
  refine ⟨hom, fun i j h => (hd i j h).1, s, hs, hSimp, fun q j => ?_⟩
  rw [← hg]
  unfold neglect
  by_cases hsm : |t.phiZp j * (arrayOf n a.wMat * t.S) q j| < 1e-11
  · rw [if_pos hsm]
    by_cases h0 : t.w q j = 0
    · rw [h0, zero_mul]
    · exfalso
      rcases hw j q (hne j) with h' | ⟨h', -⟩
      · obtain ⟨tb, rfl, -⟩ := transformHamil_ok ht
        have := t3_large (hc.argmax _) tb hSu (i := q) (j := j) (hne j) h0
        rw [h'] at this
        exact absurd hsm (not_lt.2 this)
      · exact h0 h'
  · rw [if_neg hsm]
    rcases hw j q (hne j) with h' | ⟨-, h'⟩
    · rw [h', mul_comm]
    · exact absurd h' hsm

end SQ
