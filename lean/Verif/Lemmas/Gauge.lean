import Verif.Lemmas.Reversal

/-!
# Gauge transformations

Multiplying the charge states of the charge modes with phases shifts the phases of junctions and keeps the spectrum.
-/

namespace SQ
open Matrix Complex SQ.Spec

section
variable {ι : Type*} [Fintype ι] [DecidableEq ι]

/-- conjugation with the diagonal unitary `u` -/
noncomputable def gaugeHom (u : ι → ℂ) (hu : ∀ x, (starRingEnd ℂ) (u x) * u x = 1) : Matrix ι ι ℂ →+* Matrix ι ι ℂ where
  toFun A := Matrix.of fun x y => u x * A x y * (starRingEnd ℂ) (u y)
  map_one' := by
    ext x y
    simp only [of_apply, one_apply]
    by_cases h : x = y
    · subst h; rw [if_pos rfl, mul_one, mul_comm]; exact hu x
    · simp [h]
  map_mul' A B := by
    ext x y
    simp only [of_apply, mul_apply]
    rw [Finset.mul_sum, Finset.sum_mul]
    refine Finset.sum_congr rfl fun z _ => ?_
    linear_combination (-(u x) * A x z * B z y * (starRingEnd ℂ) (u y)) * hu z
  map_zero' := by ext x y; simp
  map_add' A B := by ext x y; simp [mul_add, add_mul]

variable (u : ι → ℂ) (hu : ∀ x, (starRingEnd ℂ) (u x) * u x = 1)

theorem gaugeHom_apply (A : Matrix ι ι ℂ) (x y : ι) : gaugeHom u hu A x y = u x * A x y * (starRingEnd ℂ) (u y) := rfl

theorem gaugeHom_smul (c : ℂ) (A : Matrix ι ι ℂ) : gaugeHom u hu (c • A) = c • gaugeHom u hu A := by
  ext x y
  simp only [gaugeHom_apply, Matrix.smul_apply, smul_eq_mul]
  ring

theorem gaugeHom_conjTranspose (A : Matrix ι ι ℂ) : gaugeHom u hu Aᴴ = (gaugeHom u hu A)ᴴ := by
  ext x y
  simp only [gaugeHom_apply, conjTranspose_apply, RCLike.star_def, map_mul, Complex.conj_conj]
  ring

theorem gaugeHom_diagonal (d : ι → ℂ) : gaugeHom u hu (diagonal d) = diagonal d := by
  ext x y
  rw [gaugeHom_apply]
  by_cases h : x = y
  · subst h
    rw [diagonal_apply_eq]
    linear_combination d x * hu x
  · simp [h]

theorem gaugeHom_mulVec (A : Matrix ι ι ℂ) (v : ι → ℂ) :
    gaugeHom u hu A *ᵥ (fun x => u x * v x) = fun x => u x * (A *ᵥ v) x := by
  funext x
  simp only [mulVec, dotProduct, gaugeHom_apply]
  rw [Finset.mul_sum]
  refine Finset.sum_congr rfl fun z _ => ?_
  linear_combination (u x * A x z * v z) * hu z

/-- a gauge transformation keeps the spectrum -/
theorem levels_gauge {H : Matrix ι ι ℂ} {vs : List (ι → ℂ)} {ws : List ℝ} (h : Levels H vs ws) :
    Levels (gaugeHom u hu H) (vs.map fun v x => u x * v x) ws where
  card := by rw [List.length_map]; exact h.card
  len := by rw [List.length_map]; exact h.len
  sorted := h.sorted
  orth := by
    intro i j
    have hi : (i : ℕ) < vs.length := i.isLt.trans_eq (List.length_map ..)
    have hj : (j : ℕ) < vs.length := j.isLt.trans_eq (List.length_map ..)
    have := h.orth ⟨i, hi⟩ ⟨j, hj⟩
    simp only [List.get_eq_getElem, List.getElem_map] at this ⊢
    simp only [Fin.mk.injEq, Fin.ext_iff] at this ⊢
    rw [← this]
    refine Finset.sum_congr rfl fun a _ => ?_
    rw [map_mul]
    linear_combination ((starRingEnd ℂ) (vs[(i : ℕ)] a) * vs[(j : ℕ)] a) * hu a
  eigen := by
    intro i hi
    rw [List.length_map] at hi
    rw [List.getElem_map, gaugeHom_mulVec, h.eigen i hi]
    funext x
    simp
    ring

end

section
variable {k nJ : ℕ} {m : Fin k → ℕ}

theorem gauge_prod (u : ∀ i, Fin (m i) → ℂ) (hu : ∀ i x, (starRingEnd ℂ) (u i x) * u i x = 1) (x : Idx m) :
    (starRingEnd ℂ) (∏ i, u i (x i)) * ∏ i, u i (x i) = 1 := by
  rw [map_prod, ← Finset.prod_mul_distrib]
  exact Finset.prod_eq_one fun i _ => hu i (x i)

/-- one transformation per mode -/
noncomputable def gaugeTens (u : ∀ i, Fin (m i) → ℂ) (hu : ∀ i x, (starRingEnd ℂ) (u i x) * u i x = 1) : Op m →+* Op m :=
  gaugeHom (fun x : Idx m => ∏ i, u i (x i)) (gauge_prod u hu)

variable (u : ∀ i, Fin (m i) → ℂ) (hu : ∀ i x, (starRingEnd ℂ) (u i x) * u i x = 1)

theorem gaugeTens_tens (A : Factors m) : gaugeTens u hu (tens A) = tens (fun i => gaugeHom (u i) (hu i) (A i)) := by
  ext x y
  unfold gaugeTens
  rw [gaugeHom_apply]
  unfold tens
  simp only [of_apply, gaugeHom_apply, map_prod]
  rw [Finset.prod_mul_distrib, Finset.prod_mul_distrib]

theorem gaugeTens_single (i : Fin k) (B : Matrix (Fin (m i)) (Fin (m i)) ℂ) :
    gaugeTens u hu (single m i B) = single m i (gaugeHom (u i) (hu i) B) := by
  unfold single
  rw [gaugeTens_tens]
  congr 1
  funext j
  by_cases h : j = i
  · subst h; simp
  · simp [Function.update_of_ne h]

theorem gaugeTens_smul (c : ℂ) (A : Op m) : gaugeTens u hu (c • A) = c • gaugeTens u hu A := gaugeHom_smul _ _ _ _

theorem tens_smulAll (c : Fin k → ℂ) (A : Factors m) : tens (fun i => c i • A i) = (∏ i, c i) • tens A := by
  ext x y
  unfold tens
  simp only [of_apply, Matrix.smul_apply, smul_eq_mul]
  rw [Finset.prod_mul_distrib]

end

section
variable {k nJ : ℕ}

/-- the phase of charge state `x` -/
noncomputable def gaugePhase (θ : ℝ) {N : ℕ} (x : Fin N) : ℂ := Complex.exp (I * ((θ * (x : ℕ) : ℝ) : ℂ))

theorem gaugePhase_norm (θ : ℝ) {N : ℕ} (x : Fin N) : (starRingEnd ℂ) (gaugePhase θ x) * gaugePhase θ x = 1 := by
  unfold gaugePhase
  rw [← Complex.exp_conj, ← Complex.exp_add, map_mul, Complex.conj_I, Complex.conj_ofReal]
  rw [show -I * ((θ * (x : ℕ) : ℝ) : ℂ) + I * ((θ * (x : ℕ) : ℝ) : ℂ) = 0 by ring, Complex.exp_zero]

theorem gaugePhase_zero {N : ℕ} (x : Fin N) : gaugePhase 0 x = 1 := by simp [gaugePhase]

theorem gaugePhase_step (θ d : ℝ) {N : ℕ} (x y : Fin N) (h : ((x : ℕ) : ℝ) - (y : ℕ) = d) :
    gaugePhase θ x * (starRingEnd ℂ) (gaugePhase θ y) = phase (θ * d) := by
  unfold gaugePhase phase
  rw [← Complex.exp_conj, ← Complex.exp_add, map_mul, Complex.conj_I, Complex.conj_ofReal, ← h]
  congr 1
  push_cast; ring

theorem gauge_dOp (θ : ℝ) (N : ℕ) (w : ℝ) (hw : w = 0 ∨ w = 1 ∨ w = -1) :
    gaugeHom (gaugePhase θ) (gaugePhase_norm θ) (dOp N w) = phase (θ * w) • dOp N w := by
  unfold dOp
  rcases hw with rfl | rfl | rfl
  · rw [if_pos rfl, map_one, mul_zero]
    simp [phase]
  · rw [if_neg one_ne_zero]
    simp only
    rw [if_neg (by norm_num : ¬ (1 : ℝ) < 0)]
    ext x y
    rw [gaugeHom_apply, Matrix.smul_apply, conjTranspose_apply, of_apply, smul_eq_mul]
    by_cases h : ((x : ℕ) : ℤ) - 1 = ((y : ℕ) : ℤ)
    · rw [if_pos h, star_one, mul_one, mul_one]
      refine gaugePhase_step θ 1 x y ?_
      have : ((x : ℕ) : ℤ) = (y : ℕ) + 1 := by omega
      have : ((x : ℕ) : ℝ) = (y : ℕ) + 1 := by exact_mod_cast this
      rw [this]; ring
    · rw [if_neg h]; simp
  · rw [if_neg (by norm_num)]
    simp only
    rw [if_pos (by norm_num : (-1 : ℝ) < 0)]
    ext x y
    rw [gaugeHom_apply, Matrix.smul_apply, of_apply, smul_eq_mul]
    by_cases h : ((y : ℕ) : ℤ) - 1 = ((x : ℕ) : ℤ)
    · rw [if_pos h, mul_one, mul_one]
      refine gaugePhase_step θ (-1) x y ?_
      have : ((y : ℕ) : ℤ) = (x : ℕ) + 1 := by omega
      have : ((y : ℕ) : ℝ) = (x : ℕ) + 1 := by exact_mod_cast this
      rw [this]; ring
    · rw [if_neg h]; simp

theorem gaugeHom_trivial {ι : Type*} [Fintype ι] [DecidableEq ι] {u : ι → ℂ} (hu) (h : ∀ x, u x = 1) (A : Matrix ι ι ℂ) :
    gaugeHom u hu A = A := by
  ext x y
  rw [gaugeHom_apply, h, h]; simp

/-- gauge transformation with phase `θ i` per charge of mode `i` -/
noncomputable abbrev gaugeOp (m : Fin k → ℕ) (θ : Fin k → ℝ) : Op m →+* Op m :=
  gaugeTens (fun i => gaugePhase (θ i)) (fun i => gaugePhase_norm (θ i))

variable (D : ModeData nJ k) (m : Fin k → ℕ) (ng : Fin k → ℝ) {θ : Fin k → ℝ} (hθ : ∀ i, D.omega i ≠ 0 → θ i = 0)

include hθ

theorem gauge_charge (i : Fin k) : gaugeHom (gaugePhase (θ i)) (gaugePhase_norm (θ i)) (chargeOpIso D m ng i) =
    chargeOpIso D m ng i := by
  by_cases h : D.omega i = 0
  · unfold chargeOpIso
    rw [if_pos h, gaugeHom_smul, map_sub, gaugeHom_smul, map_one]
    unfold qCharge
    rw [gaugeHom_diagonal]
  · exact gaugeHom_trivial _ (fun x => by rw [hθ i h]; exact gaugePhase_zero x) _

theorem gauge_num (i : Fin k) : gaugeHom (gaugePhase (θ i)) (gaugePhase_norm (θ i)) (numOpIso D m i) = numOpIso D m i := by
  unfold numOpIso
  split
  · unfold qCharge; rw [gaugeHom_diagonal]
  · unfold qNum; rw [gaugeHom_diagonal]

theorem gauge_flux (i : Fin k) : gaugeHom (gaugePhase (θ i)) (gaugePhase_norm (θ i)) (fluxOpIso D m i) = fluxOpIso D m i := by
  by_cases h : D.omega i = 0
  · unfold fluxOpIso
    rw [if_pos h, map_one]
  · exact gaugeHom_trivial _ (fun x => by rw [hθ i h]; exact gaugePhase_zero x) _

theorem gaugeOp_Q (i : Fin k) : gaugeOp m θ ((buildMem D m ng).Q i) = (buildMem D m ng).Q i := by
  rw [buildMem_Q, gaugeTens_single, gauge_charge D m ng hθ]

theorem gaugeOp_N (i : Fin k) : gaugeOp m θ ((buildMem D m ng).N i) = (buildMem D m ng).N i := by
  rw [buildMem_N, gaugeTens_single, gauge_num D m hθ]

theorem gaugeOp_phi (i : Fin k) : gaugeOp m θ ((buildMem D m ng).phi i) = (buildMem D m ng).phi i := by
  rw [buildMem_phi, gaugeTens_single, gauge_flux D m hθ]

theorem gaugeOp_lc : gaugeOp m θ (lcHamil D (buildMem D m ng)) = lcHamil D (buildMem D m ng) := by
  rw [lcHamil_pairs, map_sum]
  refine Finset.sum_congr rfl fun i _ => ?_
  rw [map_sum]
  refine Finset.sum_congr rfl fun j _ => ?_
  split
  · unfold lcPair
    split
    · split
      · rw [gaugeTens_smul, map_mul, gaugeOp_Q D m ng hθ]
      · rw [gaugeTens_smul, gaugeOp_N D m ng hθ]
    · rw [gaugeTens_smul, map_mul, gaugeOp_Q D m ng hθ, gaugeOp_Q D m ng hθ]
  · exact map_zero _

theorem gaugeOp_exp (i : Fin nJ) (hw : ∀ j, D.omega j = 0 → D.w i j = 0 ∨ D.w i j = 1 ∨ D.w i j = -1) :
    gaugeOp m θ ((buildMem D m ng).exp i) = phase (∑ j, θ j * D.w i j) • (buildMem D m ng).exp i := by
  show gaugeOp m θ (tens (expFactor D m i)) = _ • tens (expFactor D m i)
  rw [gaugeTens_tens]
  have h1 : ∀ j, gaugeHom (gaugePhase (θ j)) (gaugePhase_norm (θ j)) (expFactor D m i j) =
      phase (θ j * D.w i j) • expFactor D m i j := by
    intro j
    by_cases h : D.omega j = 0
    · unfold expFactor
      rw [if_pos h]
      exact gauge_dOp _ _ _ (hw j h)
    · rw [gaugeHom_trivial _ (fun x => by rw [hθ j h]; exact gaugePhase_zero x), hθ j h]
      simp [phase]
  simp only [h1]
  rw [tens_smulAll]
  congr 1
  unfold phase
  rw [← Complex.exp_sum]
  congr 1
  push_cast
  rw [Finset.mul_sum]

theorem gaugeOp_cos (i : Fin nJ) (hw : ∀ j, D.omega j = 0 → D.w i j = 0 ∨ D.w i j = 1 ∨ D.w i j = -1) (x : ℝ) :
    gaugeOp m θ (cosOp (buildMem D m ng) i x) = cosOp (buildMem D m ng) i (x + ∑ j, θ j * D.w i j) := by
  unfold cosOp
  have e := gaugeOp_exp D m ng hθ i hw
  unfold gaugeOp gaugeTens at e ⊢
  have e2 : phase (x + ∑ j, θ j * D.w i j) = phase x * phase (∑ j, θ j * D.w i j) := by
    unfold phase
    rw [← Complex.exp_add]
    congr 1
    push_cast; ring
  rw [gaugeHom_smul, map_add, gaugeHom_conjTranspose, gaugeHom_smul, e, e2, mul_smul]

end

section
variable {nJ n b : ℕ}

/-- **Gauge invariance**: shifting the external phase of every junction by a combination of the phases of the charge modes
transforms the Hamiltonian unitarily -/
theorem gauge_ham (C : Matrix (Fin n) (Fin n) ℝ) (M : Modes nJ n) (hk : M.keep.length ≤ n)
    (m : Fin M.keep.length → ℕ) (ng : Fin M.keep.length → ℝ) (val : ElemId → ℝ) (phi phi' : Fin b → ℝ)
    (inds : List (IndKey b)) (juns : List (JunKey b nJ)) (hv : ∀ key ∈ inds, ValidEdge n key.edge)
    (θ : Fin M.keep.length → ℝ) (hθ : ∀ i, M.omega i ≠ 0 → θ i = 0)
    (hi : ∀ key ∈ inds, phi' key.bId = phi key.bId)
    (hw : ∀ key ∈ juns, ∀ j, M.omega j = 0 → M.w key.wId j = 0 ∨ M.w key.wId j = 1 ∨ M.w key.wId j = -1)
    (hj : ∀ key ∈ juns, phi' key.bId = phi key.bId + ∑ j, θ j * M.w key.wId j) {H H' : Op m}
    (hH : fullHamiltonian C M m ng val phi inds juns = .ok H)
    (hH' : fullHamiltonian C M m ng val phi' inds juns = .ok H') : H' = gaugeOp m θ H := by
  unfold fullHamiltonian at hH hH'
  rw [hamiltonianOf_eq C M hk _ _ _ _ _ _ hv] at hH hH'
  rw [← Except.ok.inj hH, ← Except.ok.inj hH', map_add, map_add, gaugeOp_lc M.data m ng hθ, antiTens_list_sum,
    antiTens_list_sum]
  congr 3
  · refine List.map_congr_left fun key hkey => ?_
    rw [gaugeTens_smul, indOpOf_eq C M hk _ (hv key hkey), map_sum, hi key hkey]
    congr 1
    refine Finset.sum_congr rfl fun i _ => ?_
    rw [gaugeTens_smul, gaugeOp_phi M.data m ng hθ]
  · refine List.map_congr_left fun key hkey => ?_
    rw [gaugeTens_smul, gaugeOp_cos M.data m ng hθ key.wId (hw key hkey), hj key hkey]
    rfl

end

end SQ
