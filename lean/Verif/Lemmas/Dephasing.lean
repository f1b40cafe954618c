import Verif.Props.SecondDeriv
import Mathlib.Analysis.Calculus.Deriv.Abs

/-! # Lemmas for dephasing rates and their gradients -/

namespace SQ
open Matrix Complex Spec

theorem partialOmegaMN_eq {ι : Type*} [Fintype ι] {evecs : List (ι → ℂ)} {p q : ℤ} {s s' : ι → ℂ}
    (h1 : pyGet evecs p = .ok s) (h2 : pyGet evecs q = .ok s') (G : Matrix ι ι ℂ) :
    partialOmegaMN evecs G (p, q) = .ok (sens s s' G) := by
  unfold partialOmegaMN sens
  simp only [h1, h2, innerOp_eq]

theorem fluxRate_eq (c : NoiseCirc) {p q : ℤ} {s s' : Idx c.m → ℂ}
    (h1 : pyGet c.evecs p = .ok s) (h2 : pyGet c.evecs q = .ok s') (ls : List (Fin c.nl)) (acc : ℝ) :
    c.fluxRate (p, q) ls acc = .ok (acc + (ls.map (fun l => dephasing c.env (c.noise.loopA l)
      (sens s s' (partialH c.C c.M c.mem c.val c.B c.loopVals c.P c.inds c.juns none (.loop l))))).sum) := by
  induction ls generalizing acc with
  | nil => simp [NoiseCirc.fluxRate]
  | cons l ls ih =>
    rw [NoiseCirc.fluxRate, partialOmegaMN_eq h1 h2, List.map_cons, List.sum_cons, ← add_assoc]
    exact ih _

theorem ccRate_eq (c : NoiseCirc) {p q : ℤ} {s s' : Idx c.m → ℂ}
    (h1 : pyGet c.evecs p = .ok s) (h2 : pyGet c.evecs q = .ok s') (ks : List (JunKey c.b c.nJ)) (acc : ℝ) :
    c.ccRate (p, q) ks acc = .ok (acc + (ks.map (fun key =>
      dephasing c.env (c.noise.junA key.el * c.val key.el)
      (sens s s' (partialH c.C c.M c.mem c.val c.B c.loopVals c.P c.inds c.juns (some key.bId)
        (.jun key.el))))).sum) := by
  induction ks generalizing acc with
  | nil => simp [NoiseCirc.ccRate]
  | cons k ks ih =>
    rw [NoiseCirc.ccRate, partialOmegaMN_eq h1 h2, List.map_cons, List.sum_cons, ← add_assoc]
    exact ih _

theorem sens_norm {ι : Type*} [Fintype ι] (s s' : ι → ℂ) {G : Matrix ι ι ℂ} (hG : G.IsHermitian) :
    ‖innerOp s G s - innerOp s' G s'‖ = |sens s s' G| := by
  unfold sens
  rw [innerOp_eq, innerOp_eq, braket_self_re hG s, braket_self_re hG s', ← ofReal_sub, ofReal_re,
    norm_real]
  rfl

theorem dephasing_abs (env : NoiseEnv) (A w : ℝ) : dephasing env A |w| = dephasing env A w := by
  unfold dephasing
  rw [abs_mul, abs_abs, ← abs_mul]

theorem partialHng_herm {nJ k : ℕ} (D : ModeData nJ k) (m : Fin k → ℕ) (ng : Fin k → ℝ)
    (cInv : Matrix (Fin k) (Fin k) ℝ) (i : Fin k) : (partialHng cInv (buildMem D m ng) i).IsHermitian := by
  rw [partialHng_eq]
  unfold Matrix.IsHermitian
  rw [conjTranspose_sum]
  refine Finset.sum_congr rfl fun j _ => ?_
  rw [conjTranspose_smul, Q_herm]
  simp

theorem chargeRate_eq (c : NoiseCirc) (hH : ∀ i, (partialHng c.M.cInv c.mem i).IsHermitian)
    (s s' : Idx c.m → ℂ) :
    open Classical in
    c.chargeRate s s' = (((List.finRange c.M.keep.length).filter (fun i => c.M.omega i = 0)).map
      (fun (i : Fin c.M.keep.length) => dephasing c.env (c.noise.chargeA i * 2 * eCharge)
        (sens s s' (partialHng c.M.cInv c.mem i)))).sum := by
  classical
  unfold NoiseCirc.chargeRate
  simp only [sens_norm s s' (hH _), dephasing_abs]
  rw [foldl_if_sum, zero_add]
  induction List.finRange c.M.keep.length with
  | nil => rfl
  | cons a l ih =>
    rw [List.map_cons, List.sum_cons, ih]
    by_cases h : c.M.omega a = 0
    · simp [h]
    · simp [h]

/-- derivative of one dephasing rate -/
theorem dephasing_deriv (env : NoiseEnv) {A w : ℝ → ℝ} {dA dw x : ℝ} (hA : HasDerivAt A dA x)
    (hw : HasDerivAt w dw x) (hA0 : 0 < A x) (hw0 : w x ≠ 0) :
    HasDerivAt (fun t => dephasing env (A t) (w t)) (partialDephasingRate env (A x) dA (w x) dw) x := by
  have h1 := hw.fun_mul hA
  have hne : w x * A x ≠ 0 := mul_ne_zero hw0 hA0.ne'
  have h2 := (hasDerivAt_abs hne).comp x h1
  have h3 := h2.mul_const env.logFactor
  refine h3.congr_deriv ?_
  have hs : SignType.sign (w x * A x) = SignType.sign (w x) := by
    rw [sign_mul, sign_pos hA0, mul_one]
  unfold partialDephasingRate
  rw [hs]
  ring

/-- the loop over noise sources: if amplitude and first-derivative operator of each source are
differentiable with the listed derivatives, the result is the derivative of the sum of the rates -/
theorem sumChannels_deriv (c : NoiseCirc) (grad : GradEl c.nl) {H : ℝ → Op c.m} {x : ℝ}
    (hH : (H x).IsHermitian)
    (hd : HasDerivOp H (partialH c.C c.M c.mem c.val c.B c.loopVals c.P c.inds c.juns none grad) x)
    {lam lam' : ℝ → ℝ} {psi psi' : ℝ → Idx c.m → ℂ} {dpsi dpsi' : Idx c.m → ℂ}
    (hbr : EigenBranch H lam psi dpsi x) (hbr' : EigenBranch H lam' psi' dpsi' x)
    (hb : Eigenbasis (H x) c.evecs c.efreqs) (p q : Fin c.evecs.length) (hp : c.evecs.get p = psi x)
    (hq : c.evecs.get q = psi' x)
    (hsimple : ∀ k k' : Fin c.evecs.length, k ≠ k' →
      c.efreqs.get (k.cast hb.len.symm) ≠ c.efreqs.get (k'.cast hb.len.symm))
    {α : Type*} (keys : List α) (ch : α → Channel c.m) (A : α → ℝ → ℝ) (G : α → ℝ → Op c.m)
    (hA : ∀ a ∈ keys, A a x = (ch a).A ∧ HasDerivAt (A a) (ch a).dA x ∧ 0 < A a x)
    (hG : ∀ a ∈ keys, G a x = (ch a).G ∧ HasDerivOp (G a) (ch a).d2 x ∧ (G a x).IsHermitian ∧
      sens (psi x) (psi' x) (G a x) ≠ 0) (acc : ℝ) :
    ∃ r, c.sumChannels grad ((p : ℕ), (q : ℕ)) 0 (keys.map ch) acc = .ok (acc + r) ∧
      HasDerivAt (fun t => (keys.map (fun a => dephasing c.env (A a t) (sens (psi t) (psi' t) (G a t)))).sum)
        r x := by
  have h1 : pyGet c.evecs ((p : ℕ) : ℤ) = .ok (psi x) := by
    rw [pyGet_nat p.isLt]; exact congrArg _ hp
  have h2 : pyGet c.evecs ((q : ℕ) : ℤ) = .ok (psi' x) := by
    rw [pyGet_nat q.isLt]; exact congrArg _ hq
  induction keys generalizing acc with
  | nil => exact ⟨0, by simp [NoiseCirc.sumChannels], by simpa using hasDerivAt_const x (0 : ℝ)⟩
  | cons a keys ih =>
    obtain ⟨hA1, hA2, hA3⟩ := hA a (by simp)
    obtain ⟨hG1, hG2, hG3, hG4⟩ := hG a (by simp)
    obtain ⟨v, v', hv, hv', hder⟩ := C61_second_derivative hH hd hG3 hG2 hbr hbr' c.evecs c.efreqs hb p q
      hp hq hsimple
    obtain ⟨r, hr, hdr⟩ := ih (fun b hb => hA b (by simp [hb])) (fun b hb => hG b (by simp [hb]))
      (acc + partialDephasingRate c.env (ch a).A (ch a).dA (sens (psi x) (psi' x) (ch a).G)
        (partialSquaredOmega (psi x) v (psi' x) v' (ch a).G (ch a).d2))
    refine ⟨partialDephasingRate c.env (ch a).A (ch a).dA (sens (psi x) (psi' x) (ch a).G)
        (partialSquaredOmega (psi x) v (psi' x) v' (ch a).G (ch a).d2) + r, ?_, ?_⟩
    · rw [List.map_cons, NoiseCirc.sumChannels, partialOmegaMN_eq h1 h2]
      have h3 : c.partialSquaredOmegaMN grad (ch a).G (ch a).d2 ((p : ℕ), (q : ℕ)) 0 =
          .ok (partialSquaredOmega (psi x) v (psi' x) v' (ch a).G (ch a).d2) := by
        unfold NoiseCirc.partialSquaredOmegaMN
        simp only [h1, h2, hv, hv']
      simp only [h3]
      rw [hr, add_assoc]
    · simp only [List.map_cons, List.sum_cons]
      refine HasDerivAt.fun_add ?_ hdr
      have h4 := dephasing_deriv c.env hA2 (w := fun t => sens (psi t) (psi' t) (G a t)) hder hA3 hG4
      rw [hA1, hG1] at h4
      exact h4

end SQ
