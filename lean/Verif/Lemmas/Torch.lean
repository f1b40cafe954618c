import Verif.Model.Torch
import Verif.Spec.Torch
import Verif.Lemmas.Eigen
import Mathlib.Analysis.Calculus.Deriv.Pi
import Mathlib.Analysis.Calculus.Deriv.Prod
import Mathlib.Analysis.SpecialFunctions.ExpDeriv

/-! # Lemmas on backward passes -/

namespace SQ
open Matrix Complex SQ.Spec Filter Topology

theorem mapM_all_ok {α β : Type*} (f : α → Except PyErr β) (g : α → β) :
    ∀ l : List α, (∀ x ∈ l, f x = .ok (g x)) → l.mapM f = .ok (l.map g)
  | [], _ => rfl
  | x :: l, h => by
    rw [List.mapM_cons, h x (by simp), mapM_all_ok f g l fun y hy => h y (by simp [hy])]
    rfl

theorem finRange_map_getD {q : ℕ} {β : Type*} (g : Fin q → β) (d : β) (e : Fin q) :
    ((List.finRange q).map g).getD e d = g e := by
  simp [List.getD]

variable {q : ℕ} {ι : Type*} [Fintype ι] [DecidableEq ι]

omit [DecidableEq ι] in
/-- the backward pass runs if all derivatives can be computed -/
theorem backward_ok {evecs : List (ι → ℂ)} {efreqs : List ℝ} {dH : Matrix ι ι ℂ} {eps : ℝ}
    {mx : Option ℕ} {dw : Fin q → ℝ} {dv : Fin q → ι → ℂ} (gw : Fin q → ℂ) (gv : Fin q → ι → ℂ)
    (h1 : ∀ e : Fin q, partialOmega evecs dH ((e : ℕ) : ℤ) false = .ok (dw e))
    (h2 : ∀ e : Fin q, (e : ℕ) < mx.getD q → partialVec evecs efreqs dH ((e : ℕ) : ℤ) eps = .ok (dv e)) :
    eigenSolverBackward evecs efreqs dH eps mx gw gv = .ok (eigenBackward gw gv dw dv (mx.getD q)) := by
  unfold eigenSolverBackward
  rw [mapM_all_ok _ dw _ fun e _ => h1 e]
  simp only
  rw [mapM_all_ok _ (fun e : Fin q => if (e : ℕ) < mx.getD q then dv e else 0)]
  · simp only [finRange_map_getD]
    congr 1
    unfold eigenBackward
    congr 2
    refine Finset.sum_congr rfl fun e _ => Finset.sum_congr rfl fun x _ => ?_
    by_cases h : (e : ℕ) < mx.getD q
    · rw [if_pos h, if_pos h]
      beta_reduce
      rw [if_pos h]
    · rw [if_neg h, if_neg h]
  · intro e _
    split
    · exact h2 e ‹_›
    · rfl

theorem spectrum_expand (D : Spectrum q ι →L[ℝ] ℝ) (dw : Fin q → ℝ) (dv : Fin q → ι → ℂ) :
    D (dw, dv) = (∑ e : Fin q, (dw e : ℂ) * (starRingEnd ℂ) (gradW D e) +
      ∑ e : Fin q, ∑ x, dv e x * (starRingEnd ℂ) (gradV D e x)).re := by
  have h : ((dw, dv) : Spectrum q ι) = (∑ e, dw e • ((Pi.single e 1, 0) : Spectrum q ι)) +
      ∑ e, ∑ x, ((dv e x).re • ((0, Pi.single e (Pi.single x 1)) : Spectrum q ι) +
        (dv e x).im • ((0, Pi.single e (Pi.single x I)) : Spectrum q ι)) := by
    refine Prod.ext ?_ ?_
    · funext e
      simp [Prod.fst_sum, Finset.sum_apply, Pi.single_apply]
    · funext e x
      have hs : ∀ (e' : Fin q) (x' : ι) (z : ℂ),
          (Pi.single e' (Pi.single x' z) : Fin q → ι → ℂ) e x = if e = e' ∧ x = x' then z else 0 := by
        intro e' x' z
        by_cases h1 : e = e'
        · subst h1
          by_cases h2 : x = x'
          · subst h2; simp
          · simp [h2]
        · simp [h1]
      simp only [Prod.snd_add, Prod.snd_sum, Prod.smul_snd, Pi.add_apply, Finset.sum_apply,
        Pi.smul_apply, smul_zero, Pi.zero_apply, Finset.sum_const_zero, zero_add, hs]
      rw [Finset.sum_eq_single e, Finset.sum_eq_single x]
      · simp only [and_self, if_true, real_smul, mul_one]
        exact (re_add_im _).symm
      · intro b _ hb; simp [Ne.symm hb]
      · intro h; exact absurd (Finset.mem_univ _) h
      · intro b _ hb
        refine Finset.sum_eq_zero fun x' _ => ?_
        simp [Ne.symm hb]
      · intro h; exact absurd (Finset.mem_univ _) h
  rw [h, map_add, map_sum, map_sum, add_re, re_sum, re_sum]
  congr 1
  · refine Finset.sum_congr rfl fun e _ => ?_
    rw [map_smul]
    simp [gradW]
  · refine Finset.sum_congr rfl fun e _ => ?_
    rw [map_sum, re_sum]
    refine Finset.sum_congr rfl fun x _ => ?_
    rw [map_add, map_smul, map_smul]
    simp [gradV]

omit [DecidableEq ι] in
/-- the derivative of a phase invariant loss vanishes along changes of the phases -/
theorem phase_direction {L : Spectrum q ι → ℝ} (hL : PhaseInvariant L) {D : Spectrum q ι →L[ℝ] ℝ}
    {w : Fin q → ℝ} {v : Fin q → ι → ℂ} (hD : HasFDerivAt L D (w, v)) (c : Fin q → ℝ) :
    D (0, fun e => ((c e : ℂ) * I) • v e) = 0 := by
  let γ : ℝ → Spectrum q ι := fun t => (w, fun e => Complex.exp ((t : ℂ) * ((c e : ℂ) * I)) • v e)
  have h0 : γ 0 = (w, v) := by simp [γ]
  have hγ : HasDerivAt γ (0, fun e => ((c e : ℂ) * I) • v e) 0 := by
    refine (hasDerivAt_const (0 : ℝ) w).prodMk ?_
    refine hasDerivAt_pi.2 fun e => hasDerivAt_pi.2 fun x => ?_
    have h1 : HasDerivAt (fun t : ℝ => Complex.exp ((t : ℂ) * ((c e : ℂ) * I))) ((c e : ℂ) * I) 0 := by
      have h2 : HasDerivAt (fun t : ℝ => (t : ℂ) * ((c e : ℂ) * I)) (1 * ((c e : ℂ) * I)) 0 :=
        (hasDerivAt_id' (0 : ℝ)).ofReal_comp.mul_const _
      have h3 := h2.cexp
      refine h3.congr_deriv ?_
      simp
    exact h1.mul_const (v e x)
  have h1 : HasDerivAt (fun t => L (γ t)) (D (0, fun e => ((c e : ℂ) * I) • v e)) 0 :=
    (h0 ▸ hD : HasFDerivAt L D (γ 0)).comp_hasDerivAt 0 hγ
  have h2 : (fun t => L (γ t)) = fun _ => L (w, v) := by
    funext t
    refine hL w v _ fun e => ?_
    rw [← mul_assoc, ← ofReal_mul]
    exact norm_exp_ofReal_mul_I _
  rw [h2] at h1
  exact h1.unique (hasDerivAt_const _ _)

end SQ
