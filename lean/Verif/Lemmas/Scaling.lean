import Verif.Lemmas.Relabel
import Verif.Lemmas.Merge
import Verif.Lemmas.Reversal
import Verif.Lemmas.LcState
import Verif.Spec.Fluxonium
import Verif.Spec.Scaling

/-!
# Scaling all energies
-/

namespace SQ
open Matrix Spec

theorem placedCap_scaled {O : Objs} (hcaps : CapsOK O) {lam : ℝ} {v v' : ElemId → ℝ} (h : ScaledEnergies O lam v v')
    (i : ElemId) : placedCap (O.withVals v') i = lam⁻¹ * placedCap (O.withVals v) i := by
  have h1 : ∀ j, (O.elem j).kind ≠ .jj → v' j = lam⁻¹ * v j := fun j hj => by rw [h.2 j hj, div_eq_inv_mul]
  have h2 := h1 _ (hcaps i)
  unfold placedCap
  change (match (O.elem i).kind with | .cap => v' i | _ => v' (O.elem i).cap) =
    lam⁻¹ * (match (O.elem i).kind with | .cap => v i | _ => v (O.elem i).cap)
  cases hk : (O.elem i).kind
  · exact h1 i (by rw [hk]; decide)
  · exact h2
  · exact h2

theorem capacitances_scaled {O : Objs} (hcaps : CapsOK O) {lam : ℝ} {v v' : ElemId → ℝ} (h : ScaledEnergies O lam v v')
    (els : Elements) (n : ℕ) : capacitances (O.withVals v') els n = lam⁻¹ • capacitances (O.withVals v) els n := by
  unfold capacitances
  rw [List.smul_sum, List.map_map]
  refine congrArg List.sum (List.map_congr_left fun q _ => ?_)
  simp only [Function.comp]
  rw [placedCap_scaled hcaps h, mul_smul]

theorem invCap_scaled {O : Objs} (hcaps : CapsOK O) {lam : ℝ} (hl : 0 < lam) {v v' : ElemId → ℝ} (h : ScaledEnergies O lam v v')
    (els : Elements) (n : ℕ) (hC : (capacitances (O.withVals v) els n).PosDef) :
    junctionInvCap (O.withVals v') els n = lam • junctionInvCap (O.withVals v) els n := by
  have e : (capacitances (O.withVals v') els n)⁻¹ = lam • (capacitances (O.withVals v) els n)⁻¹ := by
    rw [capacitances_scaled hcaps h]
    have hu : IsUnit (capacitances (O.withVals v) els n).det := hC.det_pos.ne'.isUnit
    refine Matrix.inv_eq_left_inv ?_
    rw [smul_mul_smul_comm, nonsing_inv_mul _ hu, mul_inv_cancel₀ hl.ne', one_smul]
  change junctionIncidence O els n * (capacitances (O.withVals v') els n)⁻¹ * (junctionIncidence O els n)ᵀ =
    lam • (junctionIncidence O els n * (capacitances (O.withVals v) els n)⁻¹ * (junctionIncidence O els n)ᵀ)
  rw [e, Matrix.mul_smul, Matrix.smul_mul]

theorem edgeEJ_scaled {O : Objs} {lam : ℝ} {v v' : ElemId → ℝ} (h : ScaledEnergies O lam v v') (els : Elements) (e : Edge) :
    edgeEJ O els v' e = lam * edgeEJ O els v e := by
  unfold edgeEJ
  rw [← smul_eq_mul, List.smul_sum, List.map_map]
  refine congrArg List.sum (List.map_congr_left fun q hq => ?_)
  rw [List.mem_filter] at hq
  have := hq.2
  simp only [decide_eq_true_eq] at this
  exact h.1 _ this.1

theorem islandHamiltonian_scaled {q k : ℕ} (σ : Fin q ≃ Fin k) (G : Matrix (Fin q) (Fin q) ℝ) (E : Fin q → ℝ)
    (m : Fin k → ℕ) (ng : Fin k → ℝ) (lam : ℝ) :
    islandHamiltonian σ (lam • G) (fun i => lam * E i) m ng = (lam : ℂ) • islandHamiltonian σ G E m ng := by
  unfold islandHamiltonian pairEnergy
  rw [smul_sub, smul_comm, Finset.smul_sum (r := (lam : ℂ)), Finset.smul_sum (r := (lam : ℂ))]
  congr 1
  · refine congrArg _ (Finset.sum_congr rfl fun i _ => ?_)
    rw [Finset.smul_sum]
    refine Finset.sum_congr rfl fun j _ => ?_
    rw [smul_smul]
    simp
  · refine Finset.sum_congr rfl fun i _ => ?_
    rw [smul_smul]
    push_cast; rfl

theorem levels_island_scaled {q k : ℕ} {σ : Fin q ≃ Fin k} {G : Matrix (Fin q) (Fin q) ℝ} {E : Fin q → ℝ}
    {m : Fin k → ℕ} {ng : Fin k → ℝ} {lam : ℝ} (hl : 0 ≤ lam) {vs : List (Idx m → ℂ)} {ws : List ℝ}
    (h : Levels (islandHamiltonian σ G E m ng) vs ws) :
    Levels (islandHamiltonian σ (lam • G) (fun i => lam * E i) m ng) vs (ws.map (lam * ·)) := by
  rw [islandHamiltonian_scaled]
  exact levels_scale h hl

theorem lcFrequency_scaled {lam : ℝ} (hl : 0 < lam) (L C : ℝ) : lcFrequency (L / lam) (C / lam) = lam * lcFrequency L C := by
  unfold lcFrequency
  have : L / lam * (C / lam) = L * C / lam ^ 2 := by field_simp
  rw [this, Real.sqrt_div' _ (by positivity), Real.sqrt_sq hl.le, one_div, inv_div]
  ring

theorem lcPhaseZp_scaled {lam : ℝ} (hl : 0 < lam) (L C : ℝ) : lcPhaseZp (L / lam) (C / lam) = lcPhaseZp L C := by
  unfold lcPhaseZp
  rw [div_div_div_cancel_right₀ hl.ne']

theorem fluxoniumHamiltonian_scaled {k : ℕ} (m : Fin k → ℕ) (i : Fin k) (L C EJ s ext : ℝ) {lam : ℝ} (hl : 0 < lam) :
    fluxoniumHamiltonian m i (L / lam) (C / lam) (lam * EJ) s ext = (lam : ℂ) • fluxoniumHamiltonian m i L C EJ s ext := by
  unfold fluxoniumHamiltonian
  simp only [lcFrequency_scaled hl, lcPhaseZp_scaled hl, smul_sub, smul_smul]
  push_cast
  simp only [mul_assoc]

/-- parity of the excitation number -/
theorem parity_sq {k : ℕ} (m : Fin k → ℕ) (i : Fin k) (x : Fin (m i)) : (-1 : ℝ) ^ (x : ℕ) * (-1) ^ (x : ℕ) = 1 := by
  rw [← mul_pow]; norm_num

/-- conjugation and parity -/
noncomputable abbrev parityHom {k : ℕ} (m : Fin k → ℕ) : Op m →+* Op m :=
  antiTens (fun i => Equiv.refl (Fin (m i))) (fun _ x => (-1 : ℝ) ^ (x : ℕ)) (parity_sq m)

theorem parity_single {k : ℕ} (m : Fin k → ℕ) (i : Fin k) (B : Matrix (Fin (m i)) (Fin (m i)) ℂ) :
    parityHom m (onMode m i B) = onMode m i (antiHom (Equiv.refl (Fin (m i))) (fun x => (-1 : ℝ) ^ (x : ℕ)) (parity_sq m i) B) :=
  antiTens_single _ _ _ i B

/-- conjugation and parity reverse the external flux -/
theorem fluxonium_parity {k : ℕ} (m : Fin k → ℕ) (i : Fin k) (L C EJ s ext : ℝ) :
    parityHom m (fluxoniumHamiltonian m i L C EJ s ext) = fluxoniumHamiltonian m i L C EJ s (-ext) := by
  have hE : antiHom (Equiv.refl (Fin (m i))) (fun x => (-1 : ℝ) ^ (x : ℕ)) (parity_sq m i)
      (NormedSpace.exp ((Complex.I * (s * lcPhaseZp L C : ℝ)) • (qDestroy (m i) + qCreate (m i)))) =
      NormedSpace.exp ((Complex.I * (s * lcPhaseZp L C : ℝ)) • (qDestroy (m i) + qCreate (m i))) := by
    rw [antiHom_exp, antiHom_smul, map_add, antiHom_destroy, antiHom_create, map_mul, Complex.conj_I, Complex.conj_ofReal,
      ← neg_add, smul_neg, neg_mul, neg_smul, neg_neg]
  have hP : parityHom m (Complex.exp (Complex.I * (ext : ℝ)) • onMode m i
      (NormedSpace.exp ((Complex.I * (s * lcPhaseZp L C : ℝ)) • (qDestroy (m i) + qCreate (m i))))) =
      Complex.exp (Complex.I * ((-ext : ℝ))) • onMode m i
      (NormedSpace.exp ((Complex.I * (s * lcPhaseZp L C : ℝ)) • (qDestroy (m i) + qCreate (m i)))) := by
    have h1 : parityHom m (Complex.exp (Complex.I * (ext : ℝ)) • onMode m i
        (NormedSpace.exp ((Complex.I * (s * lcPhaseZp L C : ℝ)) • (qDestroy (m i) + qCreate (m i))))) =
        (starRingEnd ℂ) (Complex.exp (Complex.I * (ext : ℝ))) • parityHom m (onMode m i
        (NormedSpace.exp ((Complex.I * (s * lcPhaseZp L C : ℝ)) • (qDestroy (m i) + qCreate (m i))))) :=
      antiHom_smul _ _ _ _ _
    rw [h1, parity_single, hE, ← Complex.exp_conj, map_mul, Complex.conj_I, Complex.conj_ofReal]
    congr 2
    push_cast; ring
  have hN : parityHom m (onMode m i (qCreate (m i)) * onMode m i (qDestroy (m i))) =
      onMode m i (qCreate (m i)) * onMode m i (qDestroy (m i)) := by
    have neg1 : ∀ A : Matrix (Fin (m i)) (Fin (m i)) ℂ, onMode m i (-A) = -onMode m i A := by
      intro A
      have := single_smul (m := m) i (-1) A
      rw [neg_one_smul, neg_one_smul] at this
      exact this
    rw [map_mul, parity_single, parity_single, antiHom_destroy, antiHom_create, neg1, neg1, neg_mul_neg]
  have hct : ∀ A : Op m, parityHom m Aᴴ = (parityHom m A)ᴴ := fun A => antiHom_conjTranspose _ _ _ A
  have hr : ∀ (x : ℝ) (A : Op m), parityHom m ((x : ℂ) • A) = (x : ℂ) • parityHom m A := fun x A => antiTens_real _ _ _ x A
  have hhalf : ∀ A : Op m, parityHom m ((1 / 2 : ℂ) • A) = (1 / 2 : ℂ) • parityHom m A := by
    intro A
    have := hr (1 / 2) A
    push_cast at this
    exact this
  unfold fluxoniumHamiltonian
  simp only
  rw [map_sub, hr, hr, hhalf, map_add, hct, hP, hN]

/-- reversing the sign of the phase is reversing the external flux -/
theorem fluxonium_sign {k : ℕ} (m : Fin k → ℕ) (i : Fin k) (L C EJ s ext : ℝ) :
    fluxoniumHamiltonian m i L C EJ (-s) ext = fluxoniumHamiltonian m i L C EJ s (-ext) := by
  have hP : ∀ s ext : ℝ, (Complex.exp (Complex.I * (ext : ℝ)) • onMode m i
      (NormedSpace.exp ((Complex.I * (s * lcPhaseZp L C : ℝ)) • (qDestroy (m i) + qCreate (m i)))))ᴴ =
      Complex.exp (Complex.I * ((-ext : ℝ))) • onMode m i
      (NormedSpace.exp ((Complex.I * (-s * lcPhaseZp L C : ℝ)) • (qDestroy (m i) + qCreate (m i)))) := by
    intro s ext
    rw [conjTranspose_smul, onMode_conjT, ← Matrix.exp_conjTranspose, conjTranspose_smul, conjTranspose_add]
    have e1 : (qDestroy (m i))ᴴ + (qCreate (m i))ᴴ = qDestroy (m i) + qCreate (m i) := by
      unfold qCreate
      rw [conjTranspose_conjTranspose, add_comm]
    rw [e1]
    congr 1
    · rw [RCLike.star_def, ← Complex.exp_conj, map_mul, Complex.conj_I, Complex.conj_ofReal]
      congr 1
      push_cast; ring
    · congr 3
      rw [RCLike.star_def, map_mul, Complex.conj_I, Complex.conj_ofReal]
      push_cast; ring
  unfold fluxoniumHamiltonian
  simp only
  rw [hP, hP, neg_neg, neg_neg, add_comm]

/-- the spectrum of the fluxonium does not depend on the sign of the phase -/
theorem fluxonium_levels {k : ℕ} (m : Fin k → ℕ) (i : Fin k) (L C EJ s s' ext : ℝ) (hs : s = 1 ∨ s = -1) (hs' : s' = 1 ∨ s' = -1)
    {vs : List (Idx m → ℂ)} {ws : List ℝ} (h : Levels (fluxoniumHamiltonian m i L C EJ s ext) vs ws) :
    ∃ vs', Levels (fluxoniumHamiltonian m i L C EJ s' ext) vs' ws := by
  have key : ∀ s, Levels (fluxoniumHamiltonian m i L C EJ s ext) vs ws →
      ∃ vs', Levels (fluxoniumHamiltonian m i L C EJ (-s) ext) vs' ws := by
    intro s h
    rw [fluxonium_sign, ← fluxonium_parity]
    exact ⟨_, levels_anti _ _ _ h⟩
  rcases hs with rfl | rfl <;> rcases hs' with rfl | rfl
  · exact ⟨vs, h⟩
  · exact key 1 h
  · have := key (-1) h
    rwa [neg_neg] at this
  · exact ⟨vs, h⟩

end SQ
