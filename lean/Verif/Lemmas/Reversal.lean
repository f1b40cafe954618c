import Verif.Lemmas.Hamil
import Verif.Lemmas.Grad
import Verif.Lemmas.Perturb

/-!
# Lemmas on antiunitary symmetries of the operators
-/

namespace SQ
open Matrix Complex SQ.Spec

section
variable {ι : Type*} [Fintype ι] [DecidableEq ι]

/-- permute basis states, change signs, and conjugate -/
noncomputable def antiHom (e : ι ≃ ι) (s : ι → ℝ) (hs : ∀ x, s x * s x = 1) : Matrix ι ι ℂ →+* Matrix ι ι ℂ where
  toFun A := Matrix.of fun x y => ((s x * s y : ℝ) : ℂ) * (starRingEnd ℂ) (A (e x) (e y))
  map_one' := by
    ext x y
    simp only [of_apply, one_apply]
    by_cases h : x = y
    · subst h; simp [hs x]
    · simp [h]
  map_mul' A B := by
    ext x y
    simp only [of_apply, mul_apply, map_sum, map_mul]
    rw [Finset.mul_sum, ← Equiv.sum_comp e]
    refine Finset.sum_congr rfl fun z _ => ?_
    have h : ((s z : ℂ)) * s z = 1 := by exact_mod_cast hs z
    push_cast
    linear_combination (-(s x : ℂ) * s y * (starRingEnd ℂ) (A (e x) (e z)) * (starRingEnd ℂ) (B (e z) (e y))) * h
  map_zero' := by ext x y; simp
  map_add' A B := by ext x y; simp [mul_add]

variable (e : ι ≃ ι) (s : ι → ℝ) (hs : ∀ x, s x * s x = 1)

theorem antiHom_apply (A : Matrix ι ι ℂ) (x y : ι) :
    antiHom e s hs A x y = ((s x * s y : ℝ) : ℂ) * (starRingEnd ℂ) (A (e x) (e y)) := rfl

theorem antiHom_smul (c : ℂ) (A : Matrix ι ι ℂ) :
    antiHom e s hs (c • A) = (starRingEnd ℂ) c • antiHom e s hs A := by
  ext x y
  simp only [antiHom_apply, Matrix.smul_apply, smul_eq_mul, map_mul]
  ring

theorem antiHom_real (c : ℝ) (A : Matrix ι ι ℂ) :
    antiHom e s hs ((c : ℂ) • A) = (c : ℂ) • antiHom e s hs A := by
  rw [antiHom_smul, Complex.conj_ofReal]

theorem antiHom_conjTranspose (A : Matrix ι ι ℂ) : antiHom e s hs Aᴴ = (antiHom e s hs A)ᴴ := by
  ext x y
  simp only [antiHom_apply, conjTranspose_apply, RCLike.star_def, map_mul, Complex.conj_conj, Complex.conj_ofReal]
  push_cast; ring

theorem antiHom_exp (A : Matrix ι ι ℂ) :
    antiHom e s hs (NormedSpace.exp A) = NormedSpace.exp (antiHom e s hs A) := by
  letI : SeminormedRing (Matrix ι ι ℂ) := Matrix.linftyOpSemiNormedRing
  letI : NormedRing (Matrix ι ι ℂ) := Matrix.linftyOpNormedRing
  letI : NormedAlgebra ℂ (Matrix ι ι ℂ) := Matrix.linftyOpNormedAlgebra
  letI : NormedAlgebra ℚ (Matrix ι ι ℂ) := NormedAlgebra.restrictScalars ℚ ℂ _
  refine NormedSpace.map_exp (antiHom e s hs) ?_ A
  refine continuous_pi fun x => continuous_pi fun y => ?_
  show Continuous fun A : Matrix ι ι ℂ => ((s x * s y : ℝ) : ℂ) * (starRingEnd ℂ) (A (e x) (e y))
  exact continuous_const.mul (Complex.continuous_conj.comp ((continuous_apply (e y)).comp (continuous_apply (e x))))

/-- the transformed eigenvector -/
noncomputable def antiVec (v : ι → ℂ) : ι → ℂ := fun x => (s x : ℂ) * (starRingEnd ℂ) (v (e x))

theorem antiHom_mulVec (A : Matrix ι ι ℂ) (v : ι → ℂ) :
    antiHom e s hs A *ᵥ antiVec e s v = antiVec e s (A *ᵥ v) := by
  funext x
  simp only [mulVec, dotProduct, antiHom_apply, antiVec, map_sum, map_mul]
  rw [Finset.mul_sum, ← Equiv.sum_comp e (fun y => (s x : ℂ) * ((starRingEnd ℂ) (A (e x) y) * (starRingEnd ℂ) (v y)))]
  refine Finset.sum_congr rfl fun z _ => ?_
  have h : ((s z : ℂ)) * s z = 1 := by exact_mod_cast hs z
  push_cast
  linear_combination ((s x : ℂ) * (starRingEnd ℂ) (A (e x) (e z)) * (starRingEnd ℂ) (v (e z))) * h

include hs in
theorem antiVec_overlap (u v : ι → ℂ) :
    ∑ a, (starRingEnd ℂ) (antiVec e s u a) * antiVec e s v a = (starRingEnd ℂ) (∑ a, (starRingEnd ℂ) (u a) * v a) := by
  rw [map_sum, ← Equiv.sum_comp e (fun a => (starRingEnd ℂ) ((starRingEnd ℂ) (u a) * v a))]
  refine Finset.sum_congr rfl fun z _ => ?_
  have h : ((s z : ℂ)) * s z = 1 := by exact_mod_cast hs z
  simp only [antiVec, map_mul, Complex.conj_conj, Complex.conj_ofReal]
  linear_combination (u (e z) * (starRingEnd ℂ) (v (e z))) * h

/-- an antiunitary transformation keeps the spectrum -/
theorem levels_anti {H : Matrix ι ι ℂ} {vs : List (ι → ℂ)} {ws : List ℝ} (h : Levels H vs ws) :
    Levels (antiHom e s hs H) (vs.map (antiVec e s)) ws where
  card := by rw [List.length_map]; exact h.card
  len := by rw [List.length_map]; exact h.len
  sorted := h.sorted
  orth := by
    intro i j
    have hi : (i : ℕ) < vs.length := i.isLt.trans_eq (List.length_map ..)
    have hj : (j : ℕ) < vs.length := j.isLt.trans_eq (List.length_map ..)
    have := h.orth ⟨i, hi⟩ ⟨j, hj⟩
    simp only [List.get_eq_getElem, List.getElem_map] at this ⊢
    rw [antiVec_overlap e s hs, this]
    simp only [Fin.mk.injEq, Fin.ext_iff]
    split <;> simp
  eigen := by
    intro i hi
    rw [List.length_map] at hi
    rw [List.getElem_map, antiHom_mulVec, h.eigen i hi]
    funext x
    simp [antiVec]
    ring

/-- adding a constant shifts the spectrum -/
theorem levels_shift {H : Matrix ι ι ℂ} {vs : List (ι → ℂ)} {ws : List ℝ} (h : Levels H vs ws) (d : ℝ) :
    Levels (H + (d : ℂ) • 1) vs (ws.map (· + d)) where
  card := h.card
  len := by rw [List.length_map]; exact h.len
  sorted := by
    rw [List.pairwise_map]
    exact h.sorted.imp fun hab => by linarith
  orth := h.orth
  eigen := by
    intro i hi
    rw [add_mulVec, h.eigen i hi, List.getElem_map, smul_mulVec, one_mulVec, ← add_smul]
    push_cast; rfl

end

section
variable {k nJ : ℕ} {m : Fin k → ℕ}

/-- one transformation per mode -/
noncomputable def antiTens (e : ∀ i, Fin (m i) ≃ Fin (m i)) (s : ∀ i, Fin (m i) → ℝ)
    (hs : ∀ i x, s i x * s i x = 1) : Op m →+* Op m :=
  antiHom (Equiv.piCongrRight e) (fun x => ∏ i, s i (x i)) (fun x => by
    rw [← Finset.prod_mul_distrib]
    exact Finset.prod_eq_one fun i _ => hs i (x i))

variable (e : ∀ i, Fin (m i) ≃ Fin (m i)) (s : ∀ i, Fin (m i) → ℝ) (hs : ∀ i x, s i x * s i x = 1)

theorem antiTens_tens (A : Factors m) :
    antiTens e s hs (tens A) = tens (fun i => antiHom (e i) (s i) (hs i) (A i)) := by
  ext x y
  unfold antiTens
  rw [antiHom_apply]
  unfold tens
  simp only [of_apply, antiHom_apply, map_prod]
  rw [Finset.prod_mul_distrib]
  congr 1
  push_cast
  rw [Finset.prod_mul_distrib]

theorem antiTens_single (i : Fin k) (B : Matrix (Fin (m i)) (Fin (m i)) ℂ) :
    antiTens e s hs (single m i B) = single m i (antiHom (e i) (s i) (hs i) B) := by
  unfold single
  rw [antiTens_tens]
  congr 1
  funext j
  by_cases h : j = i
  · subst h; simp
  · simp [Function.update_of_ne h]

theorem antiTens_real (c : ℝ) (A : Op m) : antiTens e s hs ((c : ℂ) • A) = (c : ℂ) • antiTens e s hs A :=
  antiHom_real _ _ _ _ _

end

/-! ### reversal of the fluxes -/

section
variable {k nJ : ℕ}

theorem antiHom_destroy {N : ℕ} (hs) :
    antiHom (Equiv.refl (Fin N)) (fun x => (-1 : ℝ) ^ (x : ℕ)) hs (qDestroy N) = -qDestroy N := by
  ext x y
  rw [antiHom_apply]
  simp only [Equiv.refl_apply, Matrix.neg_apply, qDestroy, of_apply]
  split
  · rename_i h
    rw [Complex.conj_ofReal, ← h, pow_succ]
    have : ((-1 : ℝ) ^ (x : ℕ)) * ((-1) ^ (x : ℕ)) = 1 := hs x
    rw [show ((-1 : ℝ) ^ (x : ℕ)) * ((-1) ^ (x : ℕ) * -1) = -1 by rw [← mul_assoc, this]; norm_num]
    push_cast; ring
  · simp

theorem antiHom_create {N : ℕ} (hs) :
    antiHom (Equiv.refl (Fin N)) (fun x => (-1 : ℝ) ^ (x : ℕ)) hs (qCreate N) = -qCreate N := by
  unfold qCreate
  rw [antiHom_conjTranspose, antiHom_destroy, conjTranspose_neg]

theorem conj_destroy {N : ℕ} (hs) :
    antiHom (Equiv.refl (Fin N)) (fun _ => 1) hs (qDestroy N) = qDestroy N := by
  ext x y
  rw [antiHom_apply]
  simp only [Equiv.refl_apply, qDestroy, of_apply]
  split
  · rw [Complex.conj_ofReal]; simp
  · simp

theorem conj_create {N : ℕ} (hs) :
    antiHom (Equiv.refl (Fin N)) (fun _ => 1) hs (qCreate N) = qCreate N := by
  unfold qCreate
  rw [antiHom_conjTranspose, conj_destroy]

theorem antiHom_diag {N : ℕ} (s : Fin N → ℝ) (hs) (f : Fin N → ℝ) :
    antiHom (Equiv.refl (Fin N)) s hs (diagonal fun x => (f x : ℂ)) = diagonal fun x => (f x : ℂ) := by
  ext x y
  rw [antiHom_apply]
  by_cases h : x = y
  · subst h
    have : (s x : ℂ) * s x = 1 := by exact_mod_cast hs x
    simp [this]
  · simp [h]

theorem qCharge_real (N : ℕ) : qCharge N = diagonal fun x : Fin N => (((x : ℕ) - ((N : ℝ) - 1) / 2 : ℝ) : ℂ) := by
  unfold qCharge
  congr 1
  funext x
  push_cast; rfl

theorem qNum_real (N : ℕ) : qNum N = diagonal fun x : Fin N => (((x : ℕ) : ℝ) : ℂ) := by
  unfold qNum
  congr 1

theorem dOp_conj (N : ℕ) (w : ℝ) (hs) :
    antiHom (Equiv.refl (Fin N)) (fun _ => 1) hs (dOp N w) = dOp N w := by
  have hd : antiHom (Equiv.refl (Fin N)) (fun _ => 1) hs
      (Matrix.of fun r c : Fin N => if (c : ℤ) - 1 = r then (1 : ℂ) else 0) =
      Matrix.of fun r c : Fin N => if (c : ℤ) - 1 = r then (1 : ℂ) else 0 := by
    ext x y
    rw [antiHom_apply]
    simp only [Equiv.refl_apply, of_apply]
    split <;> simp
  unfold dOp
  split
  · exact map_one _
  · simp only
    split
    · exact hd
    · rw [antiHom_conjTranspose, hd]

/-- signs of the flux reversal: parity of the excitation number of harmonic modes -/
noncomputable def fluxSign (D : ModeData nJ k) (m : Fin k → ℕ) (i : Fin k) (x : Fin (m i)) : ℝ :=
  open Classical in if D.omega i = 0 then 1 else (-1) ^ (x : ℕ)

theorem fluxSign_sq (D : ModeData nJ k) (m : Fin k → ℕ) (i : Fin k) (x : Fin (m i)) :
    fluxSign D m i x * fluxSign D m i x = 1 := by
  unfold fluxSign
  split
  · norm_num
  · rw [← mul_pow]; norm_num

theorem fluxSign_charge {D : ModeData nJ k} {m : Fin k → ℕ} {i : Fin k} (h : D.omega i = 0) :
    fluxSign D m i = fun _ => 1 := by funext x; simp [fluxSign, h]

theorem fluxSign_harm {D : ModeData nJ k} {m : Fin k → ℕ} {i : Fin k} (h : D.omega i ≠ 0) :
    fluxSign D m i = fun x : Fin (m i) => (-1 : ℝ) ^ (x : ℕ) := by funext x; simp [fluxSign, h]

theorem rev_destroy {D : ModeData nJ k} {m : Fin k → ℕ} {i : Fin k} (h : D.omega i ≠ 0) (hs) :
    antiHom (Equiv.refl (Fin (m i))) (fluxSign D m i) hs (qDestroy (m i)) = -qDestroy (m i) := by
  have gen : ∀ (s : Fin (m i) → ℝ) (hs), (s = fun x : Fin (m i) => (-1 : ℝ) ^ (x : ℕ)) →
      antiHom (Equiv.refl (Fin (m i))) s hs (qDestroy (m i)) = -qDestroy (m i) := by
    rintro _ hs rfl
    exact antiHom_destroy hs
  exact gen _ hs (fluxSign_harm h)

theorem rev_create {D : ModeData nJ k} {m : Fin k → ℕ} {i : Fin k} (h : D.omega i ≠ 0) (hs) :
    antiHom (Equiv.refl (Fin (m i))) (fluxSign D m i) hs (qCreate (m i)) = -qCreate (m i) := by
  unfold qCreate
  rw [antiHom_conjTranspose, rev_destroy h, conjTranspose_neg]

/-- reversal of one mode -/
noncomputable abbrev revMode (D : ModeData nJ k) (m : Fin k → ℕ) (i : Fin k) :=
  antiHom (Equiv.refl (Fin (m i))) (fluxSign D m i) (fluxSign_sq D m i)

theorem rev_charge (D : ModeData nJ k) (m : Fin k → ℕ) (ng : Fin k → ℝ) (i : Fin k) :
    revMode D m i (chargeOpIso D m ng i) = chargeOpIso D m ng i := by
  unfold chargeOpIso
  split
  · rw [antiHom_real, map_sub, antiHom_real, map_one, qCharge_real, antiHom_diag]
  · rename_i h
    split
    · exact map_zero _
    · rw [antiHom_smul, map_sub]
      rw [rev_destroy h, rev_create h, map_mul, Complex.conj_ofReal, map_neg, Complex.conj_I, neg_neg,
        neg_sub_neg, neg_mul, neg_smul, ← smul_neg, neg_sub]

theorem rev_num (D : ModeData nJ k) (m : Fin k → ℕ) (i : Fin k) :
    revMode D m i (numOpIso D m i) = numOpIso D m i := by
  unfold numOpIso
  split
  · rw [qCharge_real, antiHom_diag]
  · rw [qNum_real, antiHom_diag]

theorem rev_flux_charge {D : ModeData nJ k} {m : Fin k → ℕ} {i : Fin k} (h : D.omega i = 0) :
    fluxOpIso D m i = 1 := by unfold fluxOpIso; rw [if_pos h]

theorem rev_flux_harm {D : ModeData nJ k} {m : Fin k → ℕ} {i : Fin k} (h : D.omega i ≠ 0) :
    revMode D m i (fluxOpIso D m i) = -fluxOpIso D m i := by
  unfold fluxOpIso
  rw [if_neg h]
  split
  · simp
  · rw [antiHom_real, map_add]
    rw [rev_destroy h, rev_create h, ← neg_add, smul_neg]

theorem alpha_conj (D : ModeData nJ k) (i : Fin nJ) (j : Fin k) :
    (starRingEnd ℂ) (D.alpha i j) = -D.alpha i j := by
  unfold ModeData.alpha
  simp only [map_mul, Complex.conj_I, Complex.conj_ofReal]
  ring

theorem rev_exp (D : ModeData nJ k) (m : Fin k → ℕ) (i : Fin nJ) (j : Fin k) :
    revMode D m j (expFactor D m i j) = expFactor D m i j := by
  unfold expFactor
  split
  · rename_i h
    have h1 := fluxSign_charge (m := m) h
    unfold revMode
    simp only [h1]
    exact dOp_conj _ _ _
  · rename_i h
    split
    · exact map_one _
    · unfold qDisplace
      rw [antiHom_exp, map_sub, antiHom_smul, antiHom_smul, alpha_conj, map_neg, alpha_conj, neg_neg]
      rw [rev_destroy h, rev_create h, neg_smul_neg, smul_neg, neg_smul, sub_neg_eq_add]

/-! ### reversal of the charges -/

/-- inversion of the charge number of the charge modes -/
noncomputable def chargeFlip (D : ModeData nJ k) (m : Fin k → ℕ) (i : Fin k) : Fin (m i) ≃ Fin (m i) :=
  open Classical in if D.omega i = 0 then Fin.revPerm else Equiv.refl _

noncomputable abbrev flipMode (D : ModeData nJ k) (m : Fin k → ℕ) (i : Fin k) :=
  antiHom (chargeFlip D m i) (fun _ => 1) (fun _ => one_mul 1)

theorem flip_qCharge (N : ℕ) (hs) :
    antiHom (Fin.revPerm : Fin N ≃ Fin N) (fun _ => 1) hs (qCharge N) = -qCharge N := by
  rw [qCharge_real]
  ext x y
  rw [antiHom_apply]
  by_cases h : x = y
  · subst h
    simp only [Fin.revPerm_apply, diagonal_apply_eq, Complex.conj_ofReal, Matrix.neg_apply]
    rw [Fin.val_rev, Nat.cast_sub (by have := x.isLt; omega)]
    push_cast; ring
  · simp [h]

theorem flip_charge (D : ModeData nJ k) (m : Fin k → ℕ) (ng ng' : Fin k → ℝ) (i : Fin k)
    (hng : D.omega i = 0 → ng' i = -ng i) :
    flipMode D m i (chargeOpIso D m ng' i) = -chargeOpIso D m ng i := by
  unfold chargeOpIso flipMode chargeFlip
  by_cases h : D.omega i = 0
  · simp only [h, if_true, hng h]
    rw [antiHom_real, map_sub, antiHom_real, map_one, flip_qCharge, ← smul_neg]
    congr 1
    push_cast
    rw [neg_smul]; abel
  · simp only [h, if_false]
    split
    · simp
    · rw [antiHom_smul, map_sub, conj_destroy, conj_create, map_mul, Complex.conj_ofReal, map_neg, Complex.conj_I,
        neg_neg, neg_mul, neg_smul, neg_neg]

theorem flip_num {D : ModeData nJ k} {m : Fin k → ℕ} {i : Fin k} (h : D.omega i ≠ 0) :
    flipMode D m i (numOpIso D m i) = numOpIso D m i := by
  unfold numOpIso flipMode chargeFlip
  simp only [h, if_false]
  rw [qNum_real, antiHom_diag]

theorem flip_flux (D : ModeData nJ k) (m : Fin k → ℕ) (i : Fin k) :
    flipMode D m i (fluxOpIso D m i) = fluxOpIso D m i := by
  unfold fluxOpIso flipMode chargeFlip
  by_cases h : D.omega i = 0
  · simp only [h, if_true]; exact map_one _
  · simp only [h, if_false]
    split
    · simp
    · rw [antiHom_real, map_add, conj_destroy, conj_create]

theorem flip_dOp (N : ℕ) (w : ℝ) (hs) :
    antiHom (Fin.revPerm : Fin N ≃ Fin N) (fun _ => 1) hs (dOp N w) = (dOp N w)ᴴ := by
  have hd : antiHom (Fin.revPerm : Fin N ≃ Fin N) (fun _ => 1) hs
      (Matrix.of fun r c : Fin N => if (c : ℤ) - 1 = r then (1 : ℂ) else 0) =
      (Matrix.of fun r c : Fin N => if (c : ℤ) - 1 = r then (1 : ℂ) else 0)ᴴ := by
    ext x y
    rw [antiHom_apply]
    have hx := x.isLt
    have hy := y.isLt
    simp only [Fin.revPerm_apply, of_apply, conjTranspose_apply, Fin.val_rev]
    have : (((N - ((y : ℕ) + 1) : ℕ) : ℤ) - 1 = ((N - ((x : ℕ) + 1) : ℕ) : ℤ)) ↔ ((x : ℕ) : ℤ) - 1 = ((y : ℕ) : ℤ) := by
      omega
    simp only [this]
    split <;> simp
  unfold dOp
  split
  · rw [map_one, conjTranspose_one]
  · simp only
    split
    · exact hd
    · rw [antiHom_conjTranspose, hd]

theorem flip_exp (D : ModeData nJ k) (m : Fin k → ℕ) (i : Fin nJ) (j : Fin k) :
    flipMode D m j (expFactor D m i j) = (expFactor D m i j)ᴴ := by
  unfold expFactor flipMode chargeFlip
  by_cases h : D.omega j = 0
  · simp only [h, if_true]; exact flip_dOp _ _ _
  · simp only [h, if_false]
    split
    · rw [map_one, conjTranspose_one]
    · rw [qDisplace_conjTranspose]
      unfold qDisplace
      rw [antiHom_exp, map_sub, antiHom_smul, antiHom_smul, alpha_conj, map_neg,
        conj_destroy, conj_create]

/-! ### operators on the whole space -/

/-- reversal of the fluxes -/
noncomputable abbrev fluxRev (D : ModeData nJ k) (m : Fin k → ℕ) : Op m →+* Op m :=
  antiTens (fun _ => Equiv.refl _) (fluxSign D m) (fluxSign_sq D m)

/-- reversal of the charges -/
noncomputable abbrev chargeRev (D : ModeData nJ k) (m : Fin k → ℕ) : Op m →+* Op m :=
  antiTens (chargeFlip D m) (fun _ _ => 1) (fun _ _ => one_mul 1)

theorem single_negOp {m : Fin k → ℕ} (i : Fin k) (B : Matrix (Fin (m i)) (Fin (m i)) ℂ) :
    single m i (-B) = -single m i B := by
  have := tens_update_smul (m := m) (fun _ => 1) i (-1) B
  rw [neg_one_smul, neg_one_smul] at this
  exact this

theorem fluxRev_Q (D : ModeData nJ k) (m : Fin k → ℕ) (ng : Fin k → ℝ) (i : Fin k) :
    fluxRev D m ((buildMem D m ng).Q i) = (buildMem D m ng).Q i := by
  rw [buildMem_Q, antiTens_single, rev_charge]

theorem fluxRev_N (D : ModeData nJ k) (m : Fin k → ℕ) (ng : Fin k → ℝ) (i : Fin k) :
    fluxRev D m ((buildMem D m ng).N i) = (buildMem D m ng).N i := by
  rw [buildMem_N, antiTens_single, rev_num]

theorem fluxRev_phi {D : ModeData nJ k} {m : Fin k → ℕ} {ng : Fin k → ℝ} {i : Fin k} (h : D.omega i ≠ 0) :
    fluxRev D m ((buildMem D m ng).phi i) = -(buildMem D m ng).phi i := by
  rw [buildMem_phi, antiTens_single, rev_flux_harm h, single_negOp]

theorem phi_charge {D : ModeData nJ k} {m : Fin k → ℕ} {ng : Fin k → ℝ} {i : Fin k} (h : D.omega i = 0) :
    (buildMem D m ng).phi i = 1 := by
  rw [buildMem_phi, rev_flux_charge h, single_one]

theorem fluxRev_exp (D : ModeData nJ k) (m : Fin k → ℕ) (ng : Fin k → ℝ) (i : Fin nJ) :
    fluxRev D m ((buildMem D m ng).exp i) = (buildMem D m ng).exp i := by
  show fluxRev D m (tens (expFactor D m i)) = tens (expFactor D m i)
  rw [antiTens_tens]
  exact congrArg tens (funext fun j => rev_exp D m i j)

theorem fluxRev_cos (D : ModeData nJ k) (m : Fin k → ℕ) (ng : Fin k → ℝ) (i : Fin nJ) {x y : ℝ}
    (h : phase y = (starRingEnd ℂ) (phase x)) :
    fluxRev D m (cosOp (buildMem D m ng) i x) = cosOp (buildMem D m ng) i y := by
  unfold cosOp
  have e := fluxRev_exp D m ng i
  unfold fluxRev antiTens at e ⊢
  rw [antiHom_smul, map_add, antiHom_conjTranspose, antiHom_smul, e, h]
  congr 1
  rw [map_div₀, map_one, Complex.conj_ofNat]

theorem chargeRev_Q (D : ModeData nJ k) (m : Fin k → ℕ) (ng ng' : Fin k → ℝ) (i : Fin k)
    (hng : D.omega i = 0 → ng' i = -ng i) :
    chargeRev D m ((buildMem D m ng').Q i) = -(buildMem D m ng).Q i := by
  rw [buildMem_Q, antiTens_single, buildMem_Q, ← single_negOp]
  congr 1
  exact flip_charge D m ng ng' i hng

theorem chargeRev_N {D : ModeData nJ k} {m : Fin k → ℕ} {ng ng' : Fin k → ℝ} {i : Fin k} (h : D.omega i ≠ 0) :
    chargeRev D m ((buildMem D m ng').N i) = (buildMem D m ng).N i := by
  rw [buildMem_N, antiTens_single, buildMem_N]
  congr 1
  exact flip_num h

theorem chargeRev_phi (D : ModeData nJ k) (m : Fin k → ℕ) (ng ng' : Fin k → ℝ) (i : Fin k) :
    chargeRev D m ((buildMem D m ng').phi i) = (buildMem D m ng).phi i := by
  rw [buildMem_phi, antiTens_single, buildMem_phi]
  congr 1
  exact flip_flux D m i

theorem chargeRev_exp (D : ModeData nJ k) (m : Fin k → ℕ) (ng ng' : Fin k → ℝ) (i : Fin nJ) :
    chargeRev D m ((buildMem D m ng').exp i) = ((buildMem D m ng).exp i)ᴴ := by
  show chargeRev D m (tens (expFactor D m i)) = (tens (expFactor D m i))ᴴ
  rw [antiTens_tens, tens_conjTranspose]
  exact congrArg tens (funext fun j => flip_exp D m i j)

theorem chargeRev_cos (D : ModeData nJ k) (m : Fin k → ℕ) (ng ng' : Fin k → ℝ) (i : Fin nJ) (x : ℝ) :
    chargeRev D m (cosOp (buildMem D m ng') i x) = cosOp (buildMem D m ng) i x := by
  unfold cosOp
  have e := chargeRev_exp D m ng ng' i
  unfold chargeRev antiTens at e ⊢
  rw [antiHom_smul, map_add, antiHom_conjTranspose, antiHom_smul, e, conjTranspose_smul, conjTranspose_smul,
    conjTranspose_conjTranspose, add_comm]
  congr 1
  · rw [map_div₀, map_one, Complex.conj_ofNat]
  · simp only [RCLike.star_def, Complex.conj_conj]

theorem fluxRev_lc (D : ModeData nJ k) (m : Fin k → ℕ) (ng : Fin k → ℝ) :
    fluxRev D m (lcHamil D (buildMem D m ng)) = lcHamil D (buildMem D m ng) := by
  rw [lcHamil_pairs, map_sum]
  refine Finset.sum_congr rfl fun i _ => ?_
  rw [map_sum]
  refine Finset.sum_congr rfl fun j _ => ?_
  split
  · unfold lcPair
    split
    · split
      · rw [antiTens_real, map_mul, fluxRev_Q]
      · rw [antiTens_real, fluxRev_N]
    · rw [antiTens_real, map_mul, fluxRev_Q, fluxRev_Q]
  · exact map_zero _

theorem chargeRev_lc (D : ModeData nJ k) (m : Fin k → ℕ) (ng ng' : Fin k → ℝ)
    (hng : ∀ i, D.omega i = 0 → ng' i = -ng i) :
    chargeRev D m (lcHamil D (buildMem D m ng')) = lcHamil D (buildMem D m ng) := by
  rw [lcHamil_pairs, lcHamil_pairs, map_sum]
  refine Finset.sum_congr rfl fun i _ => ?_
  rw [map_sum]
  refine Finset.sum_congr rfl fun j _ => ?_
  split
  · unfold lcPair
    split
    · split
      · rw [antiTens_real, map_mul, chargeRev_Q D m ng ng' i (hng i), neg_mul_neg]
      · rename_i h
        rw [antiTens_real, chargeRev_N h]
    · rw [antiTens_real, map_mul, chargeRev_Q D m ng ng' i (hng i), chargeRev_Q D m ng ng' j (hng j), neg_mul_neg]
  · exact map_zero _

end

section
variable {nJ n b : ℕ}

theorem antiTens_list_sum {k : ℕ} {m : Fin k → ℕ} (f : Op m →+* Op m) {α : Type*} (l : List α) (g : α → Op m) :
    f (l.map g).sum = (l.map fun a => f (g a)).sum := by
  rw [map_list_sum, List.map_map]; rfl

/-- coefficient of the constant that the placeholder flux operators of charge modes contribute -/
noncomputable def placeholder (M : Modes nJ n) (hk : M.keep.length ≤ n) (e : Edge) : ℝ :=
  open Classical in ∑ i : Fin M.keep.length, if M.omega i = 0 then
    coupleAt "inductive" (fun r => M.S r ⟨i, lt_of_lt_of_le i.isLt hk⟩) e else 0

theorem fluxRev_ind (C : Matrix (Fin n) (Fin n) ℝ) (M : Modes nJ n) (hk : M.keep.length ≤ n)
    (m : Fin M.keep.length → ℕ) (ng : Fin M.keep.length → ℝ) {key : IndKey b} (hv : ValidEdge n key.edge) :
    fluxRev M.data m (indOpOf C M (buildMem M.data m ng) key) =
      -indOpOf C M (buildMem M.data m ng) key + ((2 * placeholder M hk key.edge : ℝ) : ℂ) • 1 := by
  classical
  rw [indOpOf_eq C M hk _ hv, map_sum, ← Finset.sum_neg_distrib, placeholder, Finset.mul_sum, Complex.ofReal_sum,
    Finset.sum_smul, ← Finset.sum_add_distrib]
  refine Finset.sum_congr rfl fun i _ => ?_
  rw [antiTens_real]
  by_cases h : M.omega i = 0
  · rw [phi_charge (D := M.data) h, map_one, if_pos h]
    push_cast
    rw [two_mul, add_smul]; abel
  · rw [fluxRev_phi (D := M.data) h, if_neg h]
    simp

/-- reversing the flux at every branch transforms the Hamiltonian antiunitarily, up to a constant -/
theorem fluxRev_ham (C : Matrix (Fin n) (Fin n) ℝ) (M : Modes nJ n) (hk : M.keep.length ≤ n)
    (m : Fin M.keep.length → ℕ) (ng : Fin M.keep.length → ℝ) (val : ElemId → ℝ) (phi phi' : Fin b → ℝ)
    (inds : List (IndKey b)) (juns : List (JunKey b nJ)) (hv : ∀ key ∈ inds, ValidEdge n key.edge)
    (hi : ∀ key ∈ inds, phi' key.bId = -phi key.bId)
    (hj : ∀ key ∈ juns, phase (phi' key.bId) = (starRingEnd ℂ) (phase (phi key.bId))) {H H' : Op m}
    (hH : fullHamiltonian C M m ng val phi inds juns = .ok H)
    (hH' : fullHamiltonian C M m ng val phi' inds juns = .ok H') :
    H' = fluxRev M.data m H + (((inds.map fun key =>
      -(1 / val key.el * phi key.bId * (Phi0 / 2 / Real.pi) / √hbar * (2 * placeholder M hk key.edge))).sum : ℝ) : ℂ) • 1 := by
  unfold fullHamiltonian at hH hH'
  rw [hamiltonianOf_eq C M hk _ _ _ _ _ _ hv] at hH hH'
  rw [← Except.ok.inj hH, ← Except.ok.inj hH', map_add, map_add, fluxRev_lc, antiTens_list_sum, antiTens_list_sum]
  have h1 : (juns.map fun key => fluxRev M.data m ((-(val key.el : ℂ)) • cosOp (buildMem M.data m ng) key.wId (phi key.bId))) =
      juns.map fun key => (-(val key.el : ℂ)) • cosOp (buildMem M.data m ng) key.wId (phi' key.bId) := by
    refine List.map_congr_left fun key hkey => ?_
    rw [← Complex.ofReal_neg, antiTens_real, fluxRev_cos _ _ _ _ (hj key hkey)]
  rw [h1]
  have h2 : ∀ l : List (IndKey b), (∀ key ∈ l, ValidEdge n key.edge) → (∀ key ∈ l, phi' key.bId = -phi key.bId) →
      (l.map fun key => ((1 / val key.el * phi' key.bId * (Phi0 / 2 / Real.pi) / √hbar : ℝ) : ℂ) •
        indOpOf C M (buildMem M.data m ng) key).sum =
      (l.map fun key => fluxRev M.data m (((1 / val key.el * phi key.bId * (Phi0 / 2 / Real.pi) / √hbar : ℝ) : ℂ) •
        indOpOf C M (buildMem M.data m ng) key)).sum + (((l.map fun key =>
      -(1 / val key.el * phi key.bId * (Phi0 / 2 / Real.pi) / √hbar * (2 * placeholder M hk key.edge))).sum : ℝ) : ℂ) • 1 := by
    intro l
    induction l with
    | nil => intro _ _; simp
    | cons key ks ih =>
      intro hv hi
      have hi0 := hi key (List.mem_cons_self ..)
      have := ih (fun k hk => hv k (List.mem_cons_of_mem _ hk)) (fun k hk => hi k (List.mem_cons_of_mem _ hk))
      simp only [List.map_cons, List.sum_cons]
      rw [this, antiTens_real, fluxRev_ind C M hk m ng (hv key (List.mem_cons_self ..)), hi0]
      push_cast
      rw [smul_add, smul_smul, add_smul]
      have e1 : ∀ x : ℂ, (1 / (val key.el : ℂ) * -(phi key.bId : ℂ) * (Phi0 / 2 / Real.pi) / (√hbar : ℝ)) =
        -(1 / (val key.el : ℂ) * (phi key.bId : ℂ) * (Phi0 / 2 / Real.pi) / (√hbar : ℝ)) := fun _ => by ring
      rw [e1 0, neg_smul, smul_neg, neg_smul]
      abel
  rw [h2 inds hv hi]
  abel

/-- reversing every charge offset transforms the Hamiltonian antiunitarily -/
theorem chargeRev_ham (C : Matrix (Fin n) (Fin n) ℝ) (M : Modes nJ n) (hk : M.keep.length ≤ n)
    (m : Fin M.keep.length → ℕ) (ng ng' : Fin M.keep.length → ℝ) (val : ElemId → ℝ) (phi : Fin b → ℝ)
    (inds : List (IndKey b)) (juns : List (JunKey b nJ)) (hv : ∀ key ∈ inds, ValidEdge n key.edge)
    (hng : ∀ i, M.omega i = 0 → ng' i = -ng i) {H H' : Op m}
    (hH : fullHamiltonian C M m ng val phi inds juns = .ok H)
    (hH' : fullHamiltonian C M m ng' val phi inds juns = .ok H') :
    H = chargeRev M.data m H' := by
  unfold fullHamiltonian at hH hH'
  rw [hamiltonianOf_eq C M hk _ _ _ _ _ _ hv] at hH hH'
  rw [← Except.ok.inj hH, ← Except.ok.inj hH', map_add, map_add, chargeRev_lc M.data m ng ng' hng, antiTens_list_sum, antiTens_list_sum]
  congr 3
  · refine List.map_congr_left fun key hkey => ?_
    rw [antiTens_real, indOpOf_eq C M hk _ (hv key hkey), indOpOf_eq C M hk _ (hv key hkey), map_sum]
    congr 1
    refine Finset.sum_congr rfl fun i _ => ?_
    rw [antiTens_real, chargeRev_phi M.data m ng]
  · refine List.map_congr_left fun key _ => ?_
    rw [← Complex.ofReal_neg, antiTens_real, chargeRev_cos M.data m ng]

end

end SQ
