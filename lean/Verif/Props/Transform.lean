import Verif.Lemmas.Transform2
import Verif.Lemmas.ExampleCircuit
import Verif.Lemmas.LibExists

/-!
# Properties of the coordinate transformations (C26, C27, C28, C31, C32)
-/

namespace SQ
open Matrix Spec

variable {nJ n : ℕ}

/-! ## C26 canonical transformations -/

/-- Any sequence of applied canonical transformations keeps the flux and charge transformations
mutually inverse-transpose, keeps the transformed matrices equal to RᵀC⁻¹R, SᵀLS and WS, and keeps
the energies and the flux-charge pairing. -/
theorem C26_canonical_sequences (C L : Matrix (Fin n) (Fin n) ℝ) (W : Matrix (Fin nJ) (Fin n) ℝ)
    (steps : List (Matrix (Fin n) (Fin n) ℝ × Matrix (Fin n) (Fin n) ℝ))
    (hsteps : ∀ p ∈ steps, Canonical p.1 p.2) :
    let t := steps.foldl (fun t p => applyT p.1 p.2 t) (initTrans C L W)
    Canonical t.S t.R ∧ t.cInv = t.Rᵀ * C⁻¹ * t.R ∧ t.l = t.Sᵀ * L * t.S ∧ t.w = W * t.S ∧
    (∀ x, x ⬝ᵥ (t.l *ᵥ x) = (t.S *ᵥ x) ⬝ᵥ (L *ᵥ (t.S *ᵥ x))) ∧
    (∀ q, q ⬝ᵥ (t.cInv *ᵥ q) = (t.R *ᵥ q) ⬝ᵥ (C⁻¹ *ᵥ (t.R *ᵥ q))) ∧
    (∀ x q, (t.S *ᵥ x) ⬝ᵥ (t.R *ᵥ q) = x ⬝ᵥ q) := by
  intro t
  have key : CanonInv C L t ∧ t.w = W * t.S := by
    have gen : ∀ (steps : List (Matrix (Fin n) (Fin n) ℝ × Matrix (Fin n) (Fin n) ℝ))
        (t0 : Trans nJ n), (∀ p ∈ steps, Canonical p.1 p.2) → CanonInv C L t0 → t0.w = W * t0.S →
        CanonInv C L (steps.foldl (fun t p => applyT p.1 p.2 t) t0) ∧
        (steps.foldl (fun t p => applyT p.1 p.2 t) t0).w =
          W * (steps.foldl (fun t p => applyT p.1 p.2 t) t0).S := by
      intro steps
      induction steps with
      | nil => intro t0 _ h1 h2; exact ⟨h1, h2⟩
      | cons p ps ih =>
        intro t0 hs h1 h2
        refine ih _ (fun q hq => hs q (List.mem_cons_of_mem _ hq))
          (canonInv_applyT h1 (hs p List.mem_cons_self)) ?_
        rw [wS_applyT, h2, Matrix.mul_assoc]; rfl
    exact gen steps _ hsteps (canonInv_init C L W) (by simp [initTrans])
  obtain ⟨h, hw⟩ := key
  refine ⟨h.canon, h.cap, h.ind, hw, ?_, ?_, ?_⟩
  · intro x
    rw [h.ind, ← mulVec_mulVec, ← mulVec_mulVec, dotProduct_mulVec, vecMul_transpose]
  · intro q
    rw [h.cap, ← mulVec_mulVec, ← mulVec_mulVec, dotProduct_mulVec, vecMul_transpose]
  · intro x q
    rw [dotProduct_mulVec, ← mulVec_transpose, mulVec_mulVec]
    have := congrArg transpose h.canon
    rw [transpose_mul, transpose_transpose, transpose_one] at this
    rw [this, one_mulVec]

/-- The transformations chosen at construction are canonical, and the stored matrices are the
transformed ones; the junction matrix agrees with WS up to the documented rounding: charge-mode
entries within 1e-6 (or all zero when every junction has a parallel inductor), harmonic-mode
entries equal, or zero when their displacement amplitude is below 1e-11. -/
theorem C26_canonical_construction (lib : NumLib n) (sv : SvdFn) (argsort : ArgsortFn)
    (argmax : ArgmaxFn nJ) (ha : ArgmaxSpec argmax) (draws : Draws) (numJ : ℕ)
    (C L : Matrix (Fin n) (Fin n) ℝ) (hC : C.PosDef) (hL : L.IsHermitian)
    (W : Matrix (Fin nJ) (Fin n) ℝ) (hlib : LibSpec lib C L) (hgap : SpectralGap lib L)
    (fuel : ℕ) (t : Trans nJ n)
    (h : transformHamil lib sv argsort argmax draws numJ C L W fuel (initTrans C L W) =
      some (.ok t)) :
    Canonical t.S t.R ∧ t.cInv = t.Rᵀ * C⁻¹ * t.R ∧ t.l = t.Sᵀ * L * t.S ∧
    (∀ j i, t.omega j = 0 → numJ ≠ 0 → |t.w i j - (W * t.S) i j| < 1e-6) ∧
    (∀ j i, t.omega j = 0 → numJ = 0 → t.w i j = 0) ∧
    (∀ j i, t.omega j ≠ 0 → t.w i j = (W * t.S) i j ∨
      (t.w i j = 0 ∧ |t.phiZp j * (W * t.S) i j| < 1e-11)) := by
  obtain ⟨tb, rfl, hcase⟩ := transformHamil_ok h
  have h1 := afterT1_canon hC hL hlib hgap W
  have hw1 := afterT1_w lib C L W
  -- facts about the state before the third transformation
  have hb : CanonInv C L tb ∧
      (∀ j i, tb.omega j = 0 → numJ ≠ 0 → |tb.w i j - (W * tb.S) i j| < 1e-6) ∧
      (∀ j i, tb.omega j = 0 → numJ = 0 → tb.w i j = 0) ∧
      (∀ j i, tb.omega j ≠ 0 → tb.w i j = (W * tb.S) i j) := by
    rcases hcase with ⟨hJ, ht2⟩ | ⟨h0, rfl⟩
    · obtain ⟨s, r, hsr, hsu, hgs, -, rfl⟩ := t2_ok ht2
      have hc := canonInv_applyT h1 hsr
      have hws : (applyT s r (afterT1 lib C L W)).w = W * (applyT s r (afterT1 lib C L W)).S := by
        rw [wS_applyT, hw1, Matrix.mul_assoc]; rfl
      refine ⟨⟨hc.canon, hc.cap, hc.ind⟩, ?_, ?_, ?_⟩
      · intro j i hj hn
        have hj' : (afterT1 lib C L W).omega j = 0 := hj
        change |roundZeroOne numJ _ (applyT s r (afterT1 lib C L W)).w i j - (W *
          (applyT s r (afterT1 lib C L W)).S) i j| < 1e-6
        rw [← hws]
        generalize (applyT s r (afterT1 lib C L W)).w = w
        unfold roundZeroOne accGS
        simp only [Matrix.of_apply, hj', if_true, hn, if_false]
        have e1 : (0 : ℝ) < 1e-6 := by norm_num
        split_ifs <;> first
          | (rw [sub_self, abs_zero]; exact e1)
          | (rename_i h; rw [abs_lt] at *; constructor <;> linarith)
      · intro j i hj hn
        have hj' : (afterT1 lib C L W).omega j = 0 := hj
        change roundZeroOne numJ _ (applyT s r (afterT1 lib C L W)).w i j = 0
        unfold roundZeroOne accGS
        simp only [Matrix.of_apply, hj', if_true, hn]
        norm_num
      · intro j i hj
        have hj' : (afterT1 lib C L W).omega j ≠ 0 := hj
        change roundZeroOne numJ _ (applyT s r (afterT1 lib C L W)).w i j = (W *
          (applyT s r (afterT1 lib C L W)).S) i j
        rw [← hws]
        unfold roundZeroOne
        simp [hj']
    · subst h0
      refine ⟨h1, fun j i => i.elim0, fun j i => i.elim0, fun j i => i.elim0⟩
  obtain ⟨hcan, hch, hch0, hhar⟩ := hb
  have hSu := canonInv_unit hcan
  have hdp := t3Diag_pos ha tb hSu
  have hfin : CanonInv C L (t3 argmax tb) := by
    rw [t3_eq]
    exact canonInv_applyT (canonInv_elim hcan) (canon_diag hdp)
  have hWS : ∀ i j, (W * (t3 argmax tb).S) i j = (W * tb.S) i j * t3Diag argmax tb j := by
    intro i j
    have : (t3 argmax tb).S = tb.S * diagonal (t3Diag argmax tb) := rfl
    rw [this, ← Matrix.mul_assoc, mul_diagonal]
  refine ⟨hfin.canon, hfin.cap, hfin.ind, ?_, ?_, ?_⟩
  · intro j i hj hn
    have hj' : tb.omega j = 0 := hj
    have hd : t3Diag argmax tb j = 1 := by simp [t3Diag, hj']
    rw [t3_w, hWS, hd, mul_one, mul_one]
    have he : (t3Elim tb).w i j = tb.w i j := by simp [t3Elim, hj']
    rw [he]; exact hch j i hj' hn
  · intro j i hj hn
    have hj' : tb.omega j = 0 := hj
    have he : (t3Elim tb).w i j = tb.w i j := by simp [t3Elim, hj']
    rw [t3_w, he, hch0 j i hj' hn, zero_mul]
  · intro j i hj
    have hj' : tb.omega j ≠ 0 := hj
    rw [t3_w, hWS, ← hhar j i hj']
    by_cases hsmall : tb.absAlpha j i < accHar
    · right
      have he : (t3Elim tb).w i j = 0 := by simp [t3Elim, hj', hsmall]
      refine ⟨by rw [he, zero_mul], ?_⟩
      have hd := hdp j
      have hphi : (t3 argmax tb).phiZp j * t3Diag argmax tb j = tb.phiZp j := by
        unfold Trans.phiZp Trans.impedance
        rw [t3_cInv ha tb hSu, t3_l]
        exact phiZp_scale _ _ _ hd
      calc |(t3 argmax tb).phiZp j * (tb.w i j * t3Diag argmax tb j)|
          = |tb.phiZp j * tb.w i j| := by rw [← hphi]; congr 1; ring
        _ < 1e-11 := hsmall
    · left
      have he : (t3Elim tb).w i j = tb.w i j := by simp [t3Elim, hsmall]
      rw [he]

example : ∃ steps : List (Matrix (Fin 2) (Fin 2) ℝ × Matrix (Fin 2) (Fin 2) ℝ), steps.length = 2 ∧
    (∀ p ∈ steps, Canonical p.1 p.2) ∧ ∃ p ∈ steps, p.1 ≠ 1 := by
  refine ⟨[(!![1, 1; 0, 1], !![1, 0; -1, 1]), (!![2, 0; 0, 1], !![1/2, 0; 0, 1])], rfl, ?_, _,
    List.mem_cons_self, ?_⟩
  · intro p hp
    simp only [List.mem_cons, List.not_mem_nil, or_false] at hp
    rcases hp with rfl | rfl <;> (unfold Canonical; ext i j; fin_cases i <;> fin_cases j <;>
      simp [mul_apply, Fin.sum_univ_two])
  · intro h; have := congrFun (congrFun h 0) 1; simp at this

/-- the LC/junction circuit goes through the whole chain: its charge mode keeps coupling one -/
example (sv : SvdFn) (hsv : SvdSpec sv) (argsort : ArgsortFn) (ha : ArgsortSpec argsort)
    (argmax : ArgmaxFn 1) (hm : ArgmaxSpec argmax) (draws : Draws) :
    lcFinal.l = lcFinal.Sᵀ * lcL * lcFinal.S ∧ |lcFinal.w 0 1 - (lcW * lcFinal.S) 0 1| < 1e-6 := by
  obtain ⟨-, -, h1, h2, -⟩ := C26_canonical_construction lcLib sv argsort argmax hm draws 1 1 lcL
    PosDef.one lcL_psd.isHermitian lcW lcLib_spec lcLib_gap 3 lcFinal
    (lc_result hsv ha argmax draws 0)
  exact ⟨h1, h2 1 0 (by simp [lcFinal]) one_ne_zero⟩

/-- a circuit without junctions: two nodes, one inductor to ground, whatever the routines are -/
example (sv : SvdFn) (argsort : ArgsortFn) (draws : Draws) : ∃ (argmax : ArgmaxFn 0) (t : Trans 0 2),
    transformHamil lcLib sv argsort argmax draws 0 1 lcL (Matrix.of fun i => i.elim0) 0
      (initTrans 1 lcL (Matrix.of fun i => i.elim0)) = some (.ok t) ∧
    Canonical t.S t.R ∧ t.l = t.Sᵀ * lcL * t.S := by
  obtain ⟨argmax, hm⟩ := exists_argmax 0
  refine ⟨argmax, _, rfl, ?_⟩
  obtain ⟨h1, -, h2, -⟩ := C26_canonical_construction lcLib sv argsort argmax hm draws 0 1 lcL
    PosDef.one lcL_psd.isHermitian _ lcLib_spec lcLib_gap 0 _ rfl
  exact ⟨h1, h2⟩

/-! ## C27 first transformation -/

/-- After the first transformation both matrices are diagonal, the harmonic modes come first, their
frequencies are the singular values of L^(1/2) C^(-1/2) and their squares are eigenvalues of C⁻¹L
with eigenvectors the columns of the transformation; the charge modes have frequency zero and number
dim ker L. -/
theorem C27_first_transformation (lib : NumLib n) (C L : Matrix (Fin n) (Fin n) ℝ)
    (hC : C.PosDef) (hL : L.PosSemidef) (W : Matrix (Fin nJ) (Fin n) ℝ)
    (hlib : LibSpec lib C L) (hgap : SpectralGap lib L) :
    let t := setOmega (t1 lib C L (initTrans C L W))
    (∀ i j, i ≠ j → t.cInv i j = 0 ∧ t.l i j = 0) ∧ (∀ i, 0 < t.cInv i i ∧ 0 ≤ t.l i i) ∧
    (∀ i, t.omega i = lib.svdD (lib.sqrtm L * (lib.sqrtm C)⁻¹) i) ∧
    (∀ i, t.omega i ≠ 0 ↔ (i : ℕ) < L.rank) ∧
    (∀ j, (C⁻¹ * L) *ᵥ (fun i => t.S i j) = (t.omega j) ^ 2 • (fun i => t.S i j)) ∧
    IsUnit t.S.det := by
  intro t
  have hLh := hL.isHermitian
  have hcan : CanonInv C L t := afterT1_canon hC hLh hlib hgap W
  have hc : t.cInv = _ := afterT1_cInv hC hLh hlib W
  have hl : t.l = _ := afterT1_l hC hLh hlib W
  have ho : ∀ i, t.omega i = _ := afterT1_omega hC hLh hlib W
  have hsg := singStart_gap hC hLh hlib hgap
  have ho' : ∀ i, t.omega i = lib.svdD (scaledL lib C L) i := by
    intro i
    rw [ho, hsg]
    split
    · have : ¬ 0 < lib.svdD (scaledL lib C L) i := by
        rw [svdD_pos_iff hC hlib]; omega
      exact le_antisymm (hlib.svdNonneg i) (not_lt.1 this)
    · rfl
  refine ⟨?_, ?_, ho', ?_, ?_, canonInv_unit hcan⟩
  · intro i j hij
    rw [hc, hl]
    exact ⟨diagonal_apply_ne _ hij, diagonal_apply_ne _ hij⟩
  · intro i
    have := scaleD_pos hC hLh hlib i
    rw [hc, hl, diagonal_apply_eq, diagonal_apply_eq]
    refine ⟨by positivity, ?_⟩
    split
    · exact le_refl _
    · positivity
  · intro i
    rw [ho', ← svdD_pos_iff hC hlib]
    exact ⟨fun hne => lt_of_le_of_ne (hlib.svdNonneg i) (Ne.symm hne), ne_of_gt⟩
  · intro j
    -- C⁻¹ L S = S (cInv l)
    have hRS : t.R * t.Sᵀ = 1 := mul_eq_one_comm.1 hcan.canon
    have hSR : t.S * t.Rᵀ = 1 := by
      have := congrArg transpose hRS
      rwa [transpose_mul, transpose_transpose, transpose_one] at this
    have h1 : t.S * (t.cInv * t.l) = C⁻¹ * L * t.S := by
      rw [hcan.cap, hcan.ind]
      calc t.S * (t.Rᵀ * C⁻¹ * t.R * (t.Sᵀ * L * t.S))
          = (t.S * t.Rᵀ) * C⁻¹ * (t.R * t.Sᵀ) * L * t.S := by simp only [Matrix.mul_assoc]
        _ = _ := by rw [hSR, hRS, Matrix.one_mul, Matrix.mul_one]
    have hd : t.cInv * t.l = diagonal (fun i => t.omega i ^ 2) := by
      rw [hc, hl, diagonal_mul_diagonal]
      congr 1; funext i
      rw [ho]
      have := (scaleD_pos hC hLh hlib i).ne'
      split
      · simp
      · field_simp
    rw [hd] at h1
    funext i
    have := congrFun (congrFun h1 i) j
    rw [mul_diagonal] at this
    rw [Pi.smul_apply, smul_eq_mul, mul_comm, this]
    rfl

/-- Without the spectral gap assumption the matrices are still diagonal and harmonic modes still
precede charge modes; soft modes below the detection threshold are treated as charge modes. -/
theorem C27_first_transformation_any_spectrum (lib : NumLib n) (C L : Matrix (Fin n) (Fin n) ℝ)
    (hC : C.PosDef) (hL : L.PosSemidef) (W : Matrix (Fin nJ) (Fin n) ℝ)
    (hlib : LibSpec lib C L) :
    let t := setOmega (t1 lib C L (initTrans C L W))
    (∀ i j, i ≠ j → t.cInv i j = 0 ∧ t.l i j = 0) ∧
    (∀ i j, i ≤ j → t.omega i = 0 → t.omega j = 0) ∧
    (∀ i, t.omega i ≠ 0 → t.omega i = lib.svdD (lib.sqrtm L * (lib.sqrtm C)⁻¹) i) := by
  intro t
  have hLh := hL.isHermitian
  have hc : t.cInv = _ := afterT1_cInv hC hLh hlib W
  have hl : t.l = _ := afterT1_l hC hLh hlib W
  have ho : ∀ i, t.omega i = _ := afterT1_omega hC hLh hlib W
  refine ⟨?_, ?_, ?_⟩
  · intro i j hij
    rw [hc, hl]
    exact ⟨diagonal_apply_ne _ hij, diagonal_apply_ne _ hij⟩
  · intro i j hij h0
    have h1 := (afterT1_omega_zero_iff hC hLh hlib W i).1 h0
    refine (afterT1_omega_zero_iff hC hLh hlib W j).2 (h1.trans ?_)
    exact hij
  · intro i hne
    rw [ho] at hne ⊢
    split
    · rename_i hs; simp [hs] at hne
    · rfl

/-- the LC/junction circuit: one harmonic mode of frequency one, one charge mode -/
example : (setOmega (t1 lcLib 1 lcL (initTrans 1 lcL lcW))).omega 0 ≠ 0 ∧
    (setOmega (t1 lcLib 1 lcL (initTrans 1 lcL lcW))).omega 1 = 0 := by
  obtain ⟨-, -, h, -⟩ := C27_first_transformation lcLib 1 lcL PosDef.one lcL_psd lcW lcLib_spec
    lcLib_gap
  rw [h, h]
  simp [lcLib, lcL]

example : (setOmega (t1 lcLib 1 lcL (initTrans 1 lcL lcW))).l 0 1 = 0 :=
  ((C27_first_transformation_any_spectrum lcLib 1 lcL PosDef.one lcL_psd lcW lcLib_spec).1 0 1
    (by decide)).2

/-! ## C28 couplings of charge modes -/

/-- Whenever construction returns, all junction couplings of charge modes are -1, 0 or 1, also after
uncoupled modes have been removed. -/
theorem C28_charge_couplings (lib : NumLib n) (sv : SvdFn) (argsort : ArgsortFn)
    (argmax : ArgmaxFn nJ) (draws : Draws) (numJ : ℕ)
    (C L : Matrix (Fin n) (Fin n) ℝ) (W : Matrix (Fin nJ) (Fin n) ℝ) (fuel : ℕ) (t : Trans nJ n)
    (h : transformHamil lib sv argsort argmax draws numJ C L W fuel (initTrans C L W) =
      some (.ok t)) :
    (∀ j i, t.omega j = 0 → t.w i j = -1 ∨ t.w i j = 0 ∨ t.w i j = 1) ∧
    (∀ torch, ∀ k i, (finishModes torch t).omega k = 0 →
      (finishModes torch t).w i k = -1 ∨ (finishModes torch t).w i k = 0 ∨
      (finishModes torch t).w i k = 1) := by
  have key : ∀ j i, t.omega j = 0 → t.w i j = -1 ∨ t.w i j = 0 ∨ t.w i j = 1 := by
    obtain ⟨tb, rfl, hcase⟩ := transformHamil_ok h
    rcases hcase with ⟨hJ, ht2⟩ | ⟨h0, rfl⟩
    · obtain ⟨s, r, hsr, hsu, hgs, -, rfl⟩ := t2_ok ht2
      intro j i hj
      have hj' : (afterT1 lib C L W).omega j = 0 := hj
      rw [t3_w]
      have hd : t3Diag argmax { applyT s r (afterT1 lib C L W) with
        w := roundZeroOne numJ (afterT1 lib C L W).omega (applyT s r (afterT1 lib C L W)).w } j
          = 1 := by
        unfold t3Diag
        exact if_pos hj'
      rw [hd, mul_one]
      have hg := hgs j hj' i
      have he : (t3Elim { applyT s r (afterT1 lib C L W) with
        w := roundZeroOne numJ (afterT1 lib C L W).omega (applyT s r (afterT1 lib C L W)).w }).w
          i j = roundZeroOne numJ (afterT1 lib C L W).omega ((afterT1 lib C L W).w * s) i j := by
        rw [← wS_applyT s r]
        change (if _ ∧ _ then _ else _) = _
        exact if_neg (fun hh => hh.1 hj')
      rw [he]
      generalize roundZeroOne numJ (afterT1 lib C L W).omega ((afterT1 lib C L W).w * s) i j = x
        at hg
      by_cases hx : x = 0
      · exact Or.inr (Or.inl hx)
      · have : |x| = 1 := by
          by_contra h1
          exact hg ⟨abs_ne_zero.2 hx, h1⟩
        rcases eq_or_eq_neg_of_abs_eq this with h | h
        · exact Or.inr (Or.inr h)
        · exact Or.inl h
    · subst h0
      intro j i; exact i.elim0
  refine ⟨key, ?_⟩
  intro torch
  obtain ⟨keep, hm, -⟩ := finishModes_eq torch t
  rw [hm]
  exact fun k i hk => key _ _ hk

example (sv : SvdFn) (hsv : SvdSpec sv) (argsort : ArgsortFn) (ha : ArgsortSpec argsort)
    (argmax : ArgmaxFn 1) (draws : Draws) :
    lcFinal.w 0 1 = -1 ∨ lcFinal.w 0 1 = 0 ∨ lcFinal.w 0 1 = 1 :=
  (C28_charge_couplings lcLib sv argsort argmax draws 1 1 lcL lcW 3 lcFinal
    (lc_result hsv ha argmax draws 0)).1 1 0 (by simp [lcFinal])

/-- What rounding does: in a charge-mode column a number within 1e-6 of -1, 0 or 1 becomes that
number and any other number is kept (so it is later rejected); harmonic columns are untouched. When
no junction lacks a parallel inductor, charge-mode columns are set to zero. -/
theorem C28_rounding (numJ : ℕ) (omega : Fin n → ℝ) (w : Matrix (Fin nJ) (Fin n) ℝ) (i : Fin nJ)
    (j : Fin n) :
    (omega j ≠ 0 → roundZeroOne numJ omega w i j = w i j) ∧
    (omega j = 0 → numJ = 0 → roundZeroOne numJ omega w i j = 0) ∧
    (omega j = 0 → numJ ≠ 0 →
      (∀ v : ℝ, v = -1 ∨ v = 0 ∨ v = 1 → |w i j - v| < 1e-6 → roundZeroOne numJ omega w i j = v) ∧
      ((∀ v : ℝ, v = -1 ∨ v = 0 ∨ v = 1 → 1e-6 ≤ |w i j - v|) →
        roundZeroOne numJ omega w i j = w i j)) := by
  refine ⟨?_, ?_, ?_⟩
  · intro h
    simp [roundZeroOne, h]
  · intro h h0
    simp only [roundZeroOne, of_apply, h, h0, if_true, accGS]
    norm_num
  · intro h h0
    simp only [roundZeroOne, of_apply, h, h0, if_true, if_false, accGS]
    generalize w i j = x
    constructor
    · rintro v (rfl | rfl | rfl) hv
      · rw [abs_lt] at hv
        have h1 : ¬ |x| < 1e-6 := by rw [abs_lt]; norm_num at hv ⊢; intro; linarith
        have h2 : ¬ |x - 1| < 1e-6 := by rw [abs_lt]; norm_num at hv ⊢; intro; linarith
        have h3 : |x + 1| < 1e-6 := by rw [abs_lt]; norm_num at hv ⊢; constructor <;> linarith
        rw [if_neg h1, if_neg h2, if_pos h3]
      · rw [sub_zero] at hv
        rw [if_pos hv]
        norm_num
      · have hv' := hv
        rw [abs_lt] at hv'
        have h1 : ¬ |x| < 1e-6 := by rw [abs_lt]; norm_num at hv' ⊢; intro; linarith
        rw [if_neg h1, if_pos hv]
        norm_num
    · intro hx
      have h1 : ¬ |x| < 1e-6 := by have := hx 0 (by simp); rw [sub_zero] at this; exact not_lt.2 this
      have h2 : ¬ |x - 1| < 1e-6 := not_lt.2 (hx 1 (by simp))
      have h3 : ¬ |x + 1| < 1e-6 := by
        have := hx (-1) (by simp); rw [sub_neg_eq_add] at this; exact not_lt.2 this
      rw [if_neg h1, if_neg h2, if_neg h3]

/-- all cases occur: 1 + 1e-7 becomes 1, 1/2 stays -/
example : roundZeroOne 1 ![0, 0, 7] !![1 + 1e-7, 1 / 2, 1 + 1e-7] = !![1, 1 / 2, 1 + 1e-7] := by
  ext i j
  fin_cases i
  fin_cases j
  · exact ((C28_rounding 1 ![0, 0, 7] !![1 + 1e-7, 1 / 2, 1 + 1e-7] 0 0).2.2 rfl one_ne_zero).1 1
      (by simp) (by simp; norm_num [abs_of_pos])
  · refine ((C28_rounding 1 ![0, 0, 7] !![1 + 1e-7, 1 / 2, 1 + 1e-7] 0 1).2.2 rfl one_ne_zero).2 ?_
    rintro v (rfl | rfl | rfl) <;> (simp; norm_num [abs_of_pos, abs_of_neg])
  · exact (C28_rounding 1 ![0, 0, 7] !![1 + 1e-7, 1 / 2, 1 + 1e-7] 0 2).1 (by simp)

/-! ## C31 third transformation -/

/-- The third transformation multiplies each mode by a positive number (so no division by zero
happened), leaves charge modes alone, makes the strongest junction coupling of a coupled harmonic
mode exactly one in absolute value, and keeps the mode frequencies. -/
theorem C31_third_transformation (argmax : ArgmaxFn nJ) (ha : ArgmaxSpec argmax)
    (t : Trans nJ n) (hS : IsUnit t.S.det)
    (hpos : ∀ j, t.omega j ≠ 0 → 0 < t.cInv j j ∧ 0 < t.l j j) :
    let t' := t3 argmax t
    (∃ c : Fin n → ℝ, (∀ j, 0 < c j) ∧ (∀ j, t.omega j = 0 → c j = 1) ∧
      (∀ i j, t'.S i j = t.S i j * c j) ∧ (∀ i j, t'.R i j = t.R i j / c j) ∧
      (∀ i j, t'.cInv i j = t.cInv i j / (c i * c j)) ∧
      (∀ i j, t'.l i j = t.l i j * (c i * c j)) ∧
      (∀ i j, t'.w i j = t.w i j * c j ∨
        (t'.w i j = 0 ∧ t.omega j ≠ 0 ∧ |t.phiZp j * t.w i j| < 1e-11))) ∧
    (∀ j, t.omega j = 0 → ∀ i, t'.w i j = t.w i j) ∧
    (∀ j, t.omega j ≠ 0 → (∃ i, |t.phiZp j * t.w i j| > 1e-11) →
      (∀ i, |t'.w i j| ≤ 1) ∧ ∃ i, |t'.w i j| = 1) ∧
    (∀ j, t'.cInv j j * t'.l j j = t.cInv j j * t.l j j) ∧ t'.omega = t.omega := by
  intro t'
  have hdp := t3Diag_pos ha t hS
  refine ⟨⟨t3Diag argmax t, hdp, ?_, t3_S argmax t, ?_, ?_, ?_, ?_⟩, ?_, ?_, ?_, rfl⟩
  · intro j hj; simp [t3Diag, hj]
  · intro i j
    change (t.R * ((diagonal (t3Diag argmax t))ᵀ)⁻¹) i j = _
    rw [diag_transpose_inv hdp, mul_diagonal, div_eq_mul_inv]
  · intro i j
    rw [t3_cInv ha t hS, mul_comm ((t3Diag argmax t i)⁻¹), mul_assoc, ← mul_inv, div_eq_mul_inv]
  · intro i j
    rw [t3_l]; ring
  · intro i j
    by_cases hsm : t.omega j ≠ 0 ∧ t.absAlpha j i < accHar
    · right
      refine ⟨?_, hsm.1, hsm.2⟩
      rw [t3_w]
      have : (t3Elim t).w i j = 0 := if_pos hsm
      rw [this, zero_mul]
    · left
      rw [t3_w]
      have : (t3Elim t).w i j = t.w i j := if_neg hsm
      rw [this]
  · intro j hj i
    rw [t3_w]
    have h1 : t3Diag argmax t j = 1 := by simp [t3Diag, hj]
    have h2 : (t3Elim t).w i j = t.w i j := if_neg (fun hh => hh.1 hj)
    rw [h1, h2, mul_one]
  · intro j hj ⟨i0, hi0⟩
    have : Nonempty (Fin nJ) := ⟨i0⟩
    have hJ : nJ ≠ 0 := by have := i0.isLt; omega
    obtain ⟨hc, hl⟩ := hpos j hj
    have hphi : 0 < t.phiZp j := by
      unfold Trans.phiZp Trans.impedance
      have := Phi0_pos; have := hbar_pos
      have := Real.pi_pos
      positivity
    have hbig : vmax (t.absAlpha j) > accHar := lt_of_lt_of_le hi0 (vmax_ge (t.absAlpha j) i0)
    set k := argmax hJ (t.absAlpha j) with hk
    have hmax : ∀ i, t.absAlpha j i ≤ t.absAlpha j k := ha hJ (t.absAlpha j)
    have hkbig : accHar < t.absAlpha j k := lt_of_lt_of_le hi0 (hmax i0)
    have hek : (t3Elim t).w k j = t.w k j := if_neg (fun hh => absurd hh.2 (not_lt.2 hkbig.le))
    have hsc : t3Diag argmax t j = 1 / |t.w k j| := by
      unfold t3Diag t3Scale
      rw [if_neg hj, dif_pos hJ, if_pos hbig, ← hk, hek]
    have habs : ∀ i, t.absAlpha j i = t.phiZp j * |t.w i j| := by
      intro i
      change |t.phiZp j * t.w i j| = _
      rw [abs_mul, abs_of_pos hphi]
    have hwk : 0 < |t.w k j| := by
      rw [abs_pos]; intro h0
      rw [habs, h0, abs_zero, mul_zero] at hkbig
      unfold accHar at hkbig; norm_num at hkbig
    have hle : ∀ i, |t.w i j| ≤ |t.w k j| := by
      intro i
      have := hmax i
      rw [habs, habs] at this
      exact le_of_mul_le_mul_left this hphi
    refine ⟨?_, k, ?_⟩
    · intro i
      rw [t3_w, hsc, abs_mul, abs_of_pos (one_div_pos.2 hwk), mul_one_div, div_le_one hwk]
      refine le_trans ?_ (hle i)
      by_cases hsm : t.omega j ≠ 0 ∧ t.absAlpha j i < accHar
      · have : (t3Elim t).w i j = 0 := if_pos hsm
        rw [this, abs_zero]; exact abs_nonneg _
      · have : (t3Elim t).w i j = t.w i j := if_neg hsm
        rw [this]
    · rw [t3_w, hsc, hek, abs_mul, abs_of_pos (one_div_pos.2 hwk), mul_one_div, div_self hwk.ne']
  · intro j
    rw [t3_cInv ha t hS, t3_l]
    have := (hdp j).ne'
    field_simp

/-- a harmonic mode coupled to two junctions with strengths 2 and 3: after scaling the larger
coupling is one -/
example (argmax : ArgmaxFn 2) (ha : ArgmaxSpec argmax) :
    ∃ i, |(t3 argmax (⟨1, 1, !![2; 3], 1, 1, fun _ => 1⟩ : Trans 2 1)).w i 0| = 1 := by
  obtain ⟨-, -, h, -⟩ := C31_third_transformation argmax ha
    (⟨1, 1, !![2; 3], 1, 1, fun _ => 1⟩ : Trans 2 1) (by simp) (by intro j _; simp)
  refine (h 0 (by simp) ⟨0, ?_⟩).2
  have hphi : (1e-11 : ℝ) < (⟨1, 1, !![2; 3], 1, 1, fun _ => 1⟩ : Trans 2 1).phiZp 0 := by
    unfold Trans.phiZp Trans.impedance
    have e1 : √(hbar / 2 * √((1 : Matrix (Fin 1) (Fin 1) ℝ) 0 0 /
        (1 : Matrix (Fin 1) (Fin 1) ℝ) 0 0)) = √(hbar / 2) := by simp
    rw [show √(hbar / 2 * √((⟨1, 1, !![2; 3], 1, 1, fun _ => 1⟩ : Trans 2 1).cInv 0 0 /
      (⟨1, 1, !![2; 3], 1, 1, fun _ => 1⟩ : Trans 2 1).l 0 0)) = √(hbar / 2) from e1]
    have h1 : (1e-18 : ℝ) ≤ √(hbar / 2) := Real.le_sqrt_of_sq_le (by unfold hbar; norm_num)
    have h2 : (1e15 : ℝ) ≤ 2 * Real.pi / Phi0 := by
      rw [le_div_iff₀ Phi0_pos]
      have := Real.two_le_pi
      have : (1e15 : ℝ) * Phi0 ≤ 4 := by unfold Phi0; norm_num
      linarith
    calc (1e-11 : ℝ) < 1e15 * 1e-18 := by norm_num
      _ ≤ _ := mul_le_mul h2 h1 (by norm_num) (by positivity)
  rw [abs_mul, abs_of_pos (lt_trans (by norm_num) hphi)]
  simp
  linarith

/-! ## C32 removal of uncoupled modes -/

/-- Under NumPy with a junction present, exactly the modes with a non-zero junction coupling are
kept, in their original order, with the corresponding sub-blocks; otherwise nothing is removed. -/
theorem C32_uncoupled_removal (t : Trans nJ n) :
    (nJ ≠ 0 → (∀ j, j ∈ (finishModes false t).keep ↔ ∃ i, t.w i j ≠ 0)) ∧
    ((nJ = 0 → (finishModes false t).keep = List.finRange n) ∧
      (finishModes true t).keep = List.finRange n) ∧
    ∀ torch, let m := finishModes torch t
      m.keep.Pairwise (· < ·) ∧
      (∀ k, m.omega k = t.omega (m.keep.get k)) ∧
      (∀ i k, m.w i k = t.w i (m.keep.get k)) ∧
      (∀ k k', m.cInv k k' = t.cInv (m.keep.get k) (m.keep.get k') ∧
        m.l k k' = t.l (m.keep.get k) (m.keep.get k')) := by
  classical
  have hunc : ∀ j, j ∈ uncoupled t.w ↔ ∀ i, t.w i j = 0 := by
    intro j
    unfold uncoupled
    simp only [List.mem_filter, List.mem_finRange, true_and, decide_eq_true_eq]
    constructor
    · intro hc i
      have h2 : (Finset.univ.filter (fun i => t.w i j = 0)) = Finset.univ := by
        apply Finset.eq_univ_of_card
        rw [Fintype.card_fin]; convert hc
      have := Finset.mem_univ i
      rw [← h2] at this
      simpa using this
    · intro hall
      have h2 : (Finset.univ.filter (fun i => t.w i j = 0)) = Finset.univ := by
        ext i; simp [hall i]
      have h3 : (Finset.univ.filter (fun i => t.w i j = 0)).card = nJ := by
        rw [h2]; simp
      convert h3
  refine ⟨?_, ⟨?_, ?_⟩, ?_⟩
  · intro hJ j
    have : (finishModes false t).keep =
        (List.finRange n).filter (fun j => !(uncoupled t.w).contains j) := by
      unfold finishModes; rw [if_pos ⟨hJ, rfl⟩]; rfl
    rw [this]
    simp only [List.mem_filter, List.mem_finRange, true_and, Bool.not_eq_true', List.contains_eq_mem,
      decide_eq_false_iff_not, hunc]
    push Not
    rfl
  · intro h0
    unfold finishModes; rw [if_neg (fun h => h.1 h0)]; rfl
  · unfold finishModes; rw [if_neg (fun h => by simp at h)]; rfl
  · intro torch
    obtain ⟨keep, hm, hp⟩ := finishModes_eq torch t
    rw [hm]
    exact ⟨hp, fun _ => rfl, fun _ _ => rfl, fun _ _ => ⟨rfl, rfl⟩⟩

/-- in the LC/junction circuit the harmonic mode is uncoupled: NumPy keeps only mode 1, PyTorch
keeps both -/
example : (finishModes false lcFinal).keep = [1] ∧ (finishModes true lcFinal).keep = [0, 1] := by
  obtain ⟨h1, ⟨-, h2⟩, h3⟩ := C32_uncoupled_removal lcFinal
  have hmem := h1 one_ne_zero
  refine ⟨?_, by rw [h2]; decide⟩
  apply List.Pairwise.eq_of_mem_iff (r := (· < ·)) (h3 false).1 (by simp)
  intro j
  rw [hmem]
  fin_cases j
  · simp [lcFinal, lcW]
  · simp only [List.mem_singleton, Fin.mk_one, iff_true]
    exact ⟨0, by simp [lcFinal, lcW]⟩

end SQ
