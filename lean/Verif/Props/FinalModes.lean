import Verif.Props.Transform
import Verif.Lemmas.T2
import Verif.Props.Ops
import Verif.Props.Phase

/-! # Property C78: structure of the final modes -/

namespace SQ
open Matrix Spec

variable {nJ n : ℕ}

/-- identity outside the block of rows and columns from `m` on -/
def BlockFrom (m : ℕ) (s : Matrix (Fin n) (Fin n) ℝ) : Prop :=
  ∀ i j : Fin n, ((i : ℕ) < m ∨ (j : ℕ) < m) → s i j = if i = j then 1 else 0

theorem blockFrom_inv {m : ℕ} {s r : Matrix (Fin n) (Fin n) ℝ} (hs : BlockFrom m s) (h : sᵀ * r = 1) :
    BlockFrom m r := by
  have h' : r * sᵀ = 1 := mul_eq_one_comm.1 h
  intro i j hij
  rcases hij with hi | hj
  · have := congrFun (congrFun h i) j
    rw [mul_apply, one_apply] at this
    rw [← this, Finset.sum_eq_single i]
    · rw [transpose_apply, hs i i (.inl hi), if_pos rfl, one_mul]
    · intro k _ hk
      rw [transpose_apply, hs k i (.inr hi), if_neg hk, zero_mul]
    · simp
  · have := congrFun (congrFun h' i) j
    rw [mul_apply, one_apply] at this
    rw [← this, Finset.sum_eq_single j]
    · rw [transpose_apply, hs j j (.inl hj), if_pos rfl, mul_one]
    · intro k _ hk
      rw [transpose_apply, hs j k (.inl hj), if_neg (Ne.symm hk), mul_zero]
    · simp

theorem blockFrom_blockS2 {omega : Fin n → ℝ} {m : ℕ} (hm : m ≤ n) (h : ∀ j, omega j = 0 ↔ m ≤ (j : ℕ))
    (F : Matrix (Fin (chargeCols omega).length) (Fin (chargeCols omega).length) ℝ) :
    BlockFrom m (blockS2 (chargeCols_length_le omega) F) := by
  intro i j hij
  have hl := chargeCols_len hm h
  unfold blockS2
  rw [of_apply, dif_neg]
  intro ⟨h1, h2⟩
  rw [hl] at h1 h2
  omega

theorem blockFrom_conj {m : ℕ} {s : Matrix (Fin n) (Fin n) ℝ} (hs : BlockFrom m s) (d : Fin n → ℝ) (i j : Fin n) :
    (((i : ℕ) < m ∨ (j : ℕ) < m) → (sᵀ * diagonal d * s) i j = if i = j then d i else 0) ∧
    ((∀ k : Fin n, m ≤ (k : ℕ) → d k = 0) → m ≤ (i : ℕ) → (sᵀ * diagonal d * s) i j = 0) := by
  have e : (sᵀ * diagonal d * s) i j = ∑ k, s k i * d k * s k j := by
    rw [mul_apply]
    simp only [mul_diagonal, transpose_apply]
  rw [e]
  refine ⟨?_, ?_⟩
  · rintro (hi | hj)
    · rw [Finset.sum_eq_single i]
      · rw [hs i i (.inl hi), if_pos rfl, hs i j (.inl hi)]
        by_cases hij : i = j <;> simp [hij]
      · intro k _ hk
        rw [hs k i (.inr hi), if_neg hk, zero_mul, zero_mul]
      · simp
    · rw [Finset.sum_eq_single j]
      · rw [hs j j (.inl hj), if_pos rfl, hs j i (.inl hj)]
        rcases eq_or_ne i j with hij | hij
        · simp [hij]
        · simp [hij, Ne.symm hij]
      · intro k _ hk
        rw [hs k j (.inr hj), if_neg hk, mul_zero]
      · simp
  · intro hd hi
    apply Finset.sum_eq_zero
    intro k _
    by_cases hk : (k : ℕ) < m
    · have : k ≠ i := by rintro rfl; omega
      rw [hs k i (.inl hk), if_neg this, zero_mul, zero_mul]
    · rw [hd k (by omega), mul_zero, zero_mul]

/-- the modes before the third transformation -/
theorem beforeT3_structure {lib : NumLib n} {sv : SvdFn} {argsort : ArgsortFn} {draws : Draws} {numJ : ℕ}
    {C L : Matrix (Fin n) (Fin n) ℝ} (hC : C.PosDef) (hL : L.PosSemidef) {W : Matrix (Fin nJ) (Fin n) ℝ}
    (hlib : LibSpec lib C L) {fuel : ℕ} {tb : Trans nJ n}
    (h : (nJ ≠ 0 ∧ t2 sv argsort draws numJ W (matS1 lib C L) fuel 0 (afterT1 lib C L W) = some (.ok tb)) ∨
      (nJ = 0 ∧ tb = afterT1 lib C L W)) :
    ∃ m, (∀ i, tb.omega i = 0 ↔ m ≤ (i : ℕ)) ∧
      (∀ i j : Fin n, i ≠ j → ((i : ℕ) < m ∨ (j : ℕ) < m) → tb.cInv i j = 0 ∧ tb.l i j = 0) ∧
      (∀ i : Fin n, (i : ℕ) < m → 0 < tb.cInv i i ∧ 0 < tb.l i i ∧ tb.omega i = √(tb.cInv i i * tb.l i i)) ∧
      (∀ i j : Fin n, m ≤ (i : ℕ) → tb.l i j = 0) ∧ IsUnit tb.S.det := by
  have hLh := hL.isHermitian
  have hc := afterT1_cInv hC hLh hlib W
  have hl := afterT1_l hC hLh hlib W
  have hom := afterT1_omega hC hLh hlib W
  have ho := afterT1_omega_zero_iff hC hLh hlib W
  set m := singStart lib C L with hm
  have hmn : m ≤ n := by
    have := singStart_le (C := C) hLh hlib
    have h2 := L.rank_le_card_width
    simp only [Fintype.card_fin] at h2
    omega
  have hSu : IsUnit (afterT1 lib C L W).S.det := by
    rw [afterT1_S]; exact matS1_isUnit hC hLh hlib
  have hsvd : ∀ i : Fin n, (i : ℕ) < m → 0 < lib.svdD (scaledL lib C L) i := by
    intro i hi
    have := hom i
    rw [if_neg (by omega)] at this
    have h0 : (afterT1 lib C L W).omega i ≠ 0 := by rw [ne_eq, ho i]; omega
    rw [this] at h0
    exact lt_of_le_of_ne (hlib.svdNonneg i) (Ne.symm h0)
  refine ⟨m, ?_⟩
  -- one canonical block transformation covers all cases
  have key : ∃ s r : Matrix (Fin n) (Fin n) ℝ, BlockFrom m s ∧ BlockFrom m r ∧ IsUnit s.det ∧
      tb.cInv = rᵀ * (afterT1 lib C L W).cInv * r ∧ tb.l = sᵀ * (afterT1 lib C L W).l * s ∧
      tb.omega = (afterT1 lib C L W).omega ∧ tb.S = (afterT1 lib C L W).S * s := by
    have h1 : BlockFrom m (1 : Matrix (Fin n) (Fin n) ℝ) := fun i j _ => one_apply
    rcases h with ⟨-, h⟩ | ⟨-, rfl⟩
    · obtain ⟨s, r, hsr, hsu, -, hs, rfl⟩ := t2_ok h
      have hbs : BlockFrom m s := by
        rcases hs with rfl | ⟨F, rfl⟩
        · exact h1
        · exact blockFrom_blockS2 hmn ho F
      exact ⟨s, r, hbs, blockFrom_inv hbs hsr, hsu, rfl, rfl, rfl, rfl⟩
    · exact ⟨1, 1, h1, h1, by simp, by simp, by simp, rfl, by simp⟩
  obtain ⟨s, r, hs, hr, hsu, e1, e2, e3, e4⟩ := key
  rw [e1, e2, e3, e4, hc, hl]
  refine ⟨ho, fun i j hij h => ?_, fun i hi => ?_, fun i j hi => ?_, ?_⟩
  · rw [(blockFrom_conj hr _ i j).1 h, (blockFrom_conj hs _ i j).1 h, if_neg hij, if_neg hij]
    exact ⟨rfl, rfl⟩
  · rw [(blockFrom_conj hr _ i i).1 (.inl hi), (blockFrom_conj hs _ i i).1 (.inl hi), if_pos rfl, if_pos rfl, hom i,
      if_neg (by omega), if_neg (by omega)]
    have hd := scaleD_pos hC hLh hlib i
    have hv := hsvd i hi
    refine ⟨inv_pos.2 hd, by positivity, ?_⟩
    rw [← mul_assoc, inv_mul_cancel₀ hd.ne', one_mul, Real.sqrt_sq hv.le]
  · exact (blockFrom_conj hs _ i j).2 (fun k hk => if_pos hk) hi
  · rw [det_mul]; exact hSu.mul hsu

/-- C78: in every constructed circuit the harmonic modes come before the charge modes; a harmonic mode has
no capacitive or inductive coupling to any other mode, and is an oscillator of positive inverse
capacitance and inverse inductance at its frequency; charge modes carry no inductive energy. -/
theorem C78_modes (lib : NumLib n) (sv : SvdFn) (argsort : ArgsortFn) (argmax : ArgmaxFn nJ) (ha : ArgmaxSpec argmax)
    (draws : Draws) (numJ : ℕ) (C L : Matrix (Fin n) (Fin n) ℝ) (hC : C.PosDef) (hL : L.PosSemidef)
    (W : Matrix (Fin nJ) (Fin n) ℝ) (hlib : LibSpec lib C L) (fuel : ℕ) (t : Trans nJ n)
    (h : transformHamil lib sv argsort argmax draws numJ C L W fuel (initTrans C L W) = some (.ok t)) (torch : Bool) :
    let M := finishModes torch t
    (∀ i j, i ≤ j → M.omega i = 0 → M.omega j = 0) ∧
    (∀ i j, i ≠ j → M.omega i ≠ 0 → M.cInv i j = 0 ∧ M.cInv j i = 0 ∧ M.l i j = 0 ∧ M.l j i = 0) ∧
    (∀ i, M.omega i ≠ 0 → Spec.Harmonic M.data i) ∧
    (∀ i j, M.omega i = 0 → M.l i j = 0 ∧ M.l j i = 0) := by
  obtain ⟨tb, rfl, hcase⟩ := transformHamil_ok h
  obtain ⟨m, h1, h2, h3, h4, hS⟩ := beforeT3_structure hC hL hlib hcase
  obtain ⟨keep, hM, hp⟩ := finishModes_eq torch (t3 argmax tb)
  have hd := t3Diag_pos ha tb hS
  -- the same for the full set of modes
  have g1 : ∀ i j : Fin n, i ≤ j → (t3 argmax tb).omega i = 0 → (t3 argmax tb).omega j = 0 := by
    intro i j hij hi
    rw [t3_omega, h1] at hi ⊢
    have : (i : ℕ) ≤ j := hij
    omega
  have hlt : ∀ i, (t3 argmax tb).omega i ≠ 0 ↔ (i : ℕ) < m := by
    intro i
    rw [t3_omega, ne_eq, h1, not_le]
  have g2 : ∀ i j : Fin n, i ≠ j → (t3 argmax tb).omega i ≠ 0 → (t3 argmax tb).cInv i j = 0 ∧ (t3 argmax tb).cInv j i = 0 ∧
      (t3 argmax tb).l i j = 0 ∧ (t3 argmax tb).l j i = 0 := by
    intro i j hij hi
    rw [hlt] at hi
    obtain ⟨a1, a2⟩ := h2 i j hij (.inl hi)
    obtain ⟨b1, b2⟩ := h2 j i (Ne.symm hij) (.inr hi)
    rw [t3_cInv ha tb hS, t3_cInv ha tb hS, t3_l, t3_l, a1, a2, b1, b2]
    simp
  have g3 : ∀ i : Fin n, (t3 argmax tb).omega i ≠ 0 → 0 < (t3 argmax tb).cInv i i ∧ 0 < (t3 argmax tb).l i i ∧
      (t3 argmax tb).omega i = √((t3 argmax tb).cInv i i * (t3 argmax tb).l i i) := by
    intro i hi
    rw [hlt] at hi
    obtain ⟨a1, a2, a3⟩ := h3 i hi
    have hdi := hd i
    rw [t3_cInv ha tb hS, t3_l, t3_omega]
    refine ⟨by positivity, by positivity, ?_⟩
    rw [a3]
    congr 1
    field_simp
  have g4 : ∀ i j : Fin n, (t3 argmax tb).omega i = 0 → (t3 argmax tb).l i j = 0 ∧ (t3 argmax tb).l j i = 0 := by
    intro i j hi
    rw [t3_omega, h1] at hi
    have hji : tb.l j i = 0 := by
      by_cases hj : (j : ℕ) < m
      · exact (h2 j i (by rintro rfl; omega) (.inl hj)).2
      · exact h4 j i (by omega)
    rw [t3_l, t3_l, h4 i j hi, hji]
    simp
  suffices key : ∀ M : Modes nJ n, M = restrict (t3 argmax tb) keep →
      (∀ i j, i ≤ j → M.omega i = 0 → M.omega j = 0) ∧
      (∀ i j, i ≠ j → M.omega i ≠ 0 → M.cInv i j = 0 ∧ M.cInv j i = 0 ∧ M.l i j = 0 ∧ M.l j i = 0) ∧
      (∀ i, M.omega i ≠ 0 → Spec.Harmonic M.data i) ∧
      (∀ i j, M.omega i = 0 → M.l i j = 0 ∧ M.l j i = 0) from key _ hM
  rintro _ rfl
  have hmono : ∀ i j : Fin keep.length, i ≤ j → keep.get i ≤ keep.get j := by
    intro i j hij
    rcases hij.lt_or_eq with hlt | rfl
    · exact (List.pairwise_iff_get.1 hp i j hlt).le
    · exact le_rfl
  have hinj : ∀ i j : Fin keep.length, i ≠ j → keep.get i ≠ keep.get j := by
    intro i j hij
    rcases lt_or_gt_of_ne hij with h | h
    · exact (List.pairwise_iff_get.1 hp i j h).ne
    · exact (List.pairwise_iff_get.1 hp j i h).ne'
  exact ⟨fun i j hij => g1 _ _ (hmono i j hij), fun i j hij => g2 _ _ (hinj i j hij), fun i hi => g3 _ hi,
    fun i j hi => g4 _ _ hi⟩

/-- C78: the LC part of the Hamiltonian of a constructed circuit is the energy of the independent
oscillators (without zero-point energy) plus the charging energy ½ Σ cInv Q Q over the charge modes. -/
theorem C78_lc_hamiltonian (lib : NumLib n) (sv : SvdFn) (argsort : ArgsortFn) (argmax : ArgmaxFn nJ) (ha : ArgmaxSpec argmax)
    (draws : Draws) (numJ : ℕ) (C L : Matrix (Fin n) (Fin n) ℝ) (hC : C.PosDef) (hL : L.PosSemidef)
    (W : Matrix (Fin nJ) (Fin n) ℝ) (hlib : LibSpec lib C L) (hgap : SpectralGap lib L) (fuel : ℕ) (t : Trans nJ n)
    (h : transformHamil lib sv argsort argmax draws numJ C L W fuel (initTrans C L W) = some (.ok t)) (torch : Bool)
    (m : Fin (finishModes torch t).keep.length → ℕ) (ng : Fin (finishModes torch t).keep.length → ℝ) :
    let D := (finishModes torch t).data
    let mem := buildMem D m ng
    lcHamil D mem =
      ∑ i, (if D.omega i ≠ 0 then ((D.omega i : ℝ) : ℂ) • mem.N i else 0) +
      (1 / 2 : ℂ) • ∑ i, ∑ j, (if D.omega i = 0 ∧ D.omega j = 0
        then ((D.cInv i j : ℝ) : ℂ) • (mem.Q i * mem.Q j) else 0) := by
  intro D mem
  obtain ⟨-, h2, -⟩ := C78_modes lib sv argsort argmax ha draws numJ C L hC hL W hlib fuel t h torch
  have hsym : t.cInv.IsSymm := by
    obtain ⟨-, hc, -⟩ := C26_canonical_construction lib sv argsort argmax ha draws numJ C L hC hL.isHermitian W hlib hgap fuel t h
    rw [hc]
    have hCs : (C⁻¹)ᵀ = C⁻¹ := by
      rw [transpose_nonsing_inv]
      congr 1
      have := hC.isHermitian
      rw [IsHermitian, conjTranspose_eq_transpose_of_trivial] at this
      exact this
    unfold IsSymm
    rw [transpose_mul, transpose_mul, transpose_transpose, hCs, Matrix.mul_assoc]
  have hDs : D.cInv.IsSymm := by
    obtain ⟨-, -, hk⟩ := C32_uncoupled_removal t
    ext i j
    rw [transpose_apply]
    have h1 : D.cInv j i = _ := ((hk torch).2.2.2 j i).1
    have h2 : D.cInv i j = _ := ((hk torch).2.2.2 i j).1
    rw [h1, h2]
    exact hsym.apply _ _
  rw [C39_lc_hamiltonian D hDs]
  congr 2
  apply Finset.sum_congr rfl
  intro i _
  apply Finset.sum_congr rfl
  intro j _
  by_cases hi : D.omega i = 0
  · by_cases hj : D.omega j = 0
    · rw [if_neg (fun h => h.2 hi), if_pos ⟨hi, hj⟩]
    · have hij : j ≠ i := by rintro rfl; exact hj hi
      have h0 : D.cInv i j = 0 := (h2 j i hij hj).2.1
      rw [if_neg (fun h => h.2 hi), if_neg (fun h => hj h.2), h0]
      simp
  · rw [if_neg (fun h : D.omega i = 0 ∧ D.omega j = 0 => hi h.1)]
    by_cases hij : i = j
    · rw [if_pos ⟨hij, hi⟩]
    · have h0 : D.cInv i j = 0 := (h2 i j hij hi).1
      rw [if_neg (fun h => hij h.1), h0]
      simp

/-- C76 for constructed circuits: the wave functions of normalised eigenvectors are normalised whenever the
harmonic modes have at most 250 levels. -/
theorem C76_constructed_partial (lib : NumLib n) (sv : SvdFn) (argsort : ArgsortFn) (argmax : ArgmaxFn nJ) (ha : ArgmaxSpec argmax)
    (draws : Draws) (numJ : ℕ) (C L : Matrix (Fin n) (Fin n) ℝ) (hC : C.PosDef) (hL : L.PosSemidef)
    (W : Matrix (Fin nJ) (Fin n) ℝ) (hlib : LibSpec lib C L) (fuel : ℕ) (t : Trans nJ n)
    (h : transformHamil lib sv argsort argmax draws numJ C L W fuel (initTrans C L W) = some (.ok t)) (torch : Bool)
    (hyperu : ℝ → ℝ → ℝ → ℝ) (m : Fin (finishModes torch t).keep.length → ℕ)
    (hm : ∀ i, (finishModes torch t).omega i ≠ 0 → m i ≤ 250) (u v : ℕ → ℂ) :
    ∫ phi, starRingEnd ℂ (eigPhaseCoord hyperu (finishModes torch t).data m u phi)
        * eigPhaseCoord hyperu (finishModes torch t).data m v phi ∂(phaseMeasure (finishModes torch t).data)
      = ∑ x : Idx m, starRingEnd ℂ (entry u x) * entry v x := by
  obtain ⟨-, -, h3, -⟩ := C78_modes lib sv argsort argmax ha draws numJ C L hC hL W hlib fuel t h torch
  exact C76_inner_partial hyperu (fun i hi => ⟨h3 i hi, hm i hi⟩) u v

/-- the LC/junction circuit meets the hypotheses, with one harmonic and one charge mode under PyTorch -/
example (sv : SvdFn) (hsv : SvdSpec sv) (argsort : ArgsortFn) (ha : ArgsortSpec argsort)
    (argmax : ArgmaxFn 1) (hm : ArgmaxSpec argmax) (draws : Draws) :
    ∀ i, (finishModes true lcFinal).omega i ≠ 0 → Harmonic (finishModes true lcFinal).data i :=
  (C78_modes lcLib sv argsort argmax hm draws 1 1 lcL PosDef.one lcL_psd lcW lcLib_spec 3 lcFinal
    (lc_result hsv ha argmax draws 0) true).2.2.1

end SQ
