import Verif.Lemmas.Torch
import Verif.Props.Eigen

/-!
# C85, C86: diagonalisation under PyTorch
-/

namespace SQ
open Matrix Complex SQ.Spec Filter Topology

variable {ι : Type*} [Fintype ι] [DecidableEq ι]

/-! ## C85 the backward pass is the chain rule -/

/-- For any loss of the eigenfrequencies: whatever the number `q` of computed states, the value of
`EIGENVECTOR_MAX_GRAD` and the number `eps`, `backward` returns the derivative of the loss with respect
to the parameter. -/
theorem C85_frequencies {q : ℕ} {H : ℝ → Matrix ι ι ℂ} {dH : Matrix ι ι ℂ} {x : ℝ}
    (hH : (H x).IsHermitian) (hd : HasDerivOp H dH x)
    (lam : Fin q → ℝ → ℝ) (psi : Fin q → ℝ → ι → ℂ) (dpsi : Fin q → ι → ℂ)
    (hb : ∀ e, EigenBranch H (lam e) (psi e) (dpsi e) x)
    (evecs : List (ι → ℂ)) (efreqs : List ℝ) (hlen : efreqs.length = evecs.length)
    (hev : ∀ e : Fin q, evecs[(e : ℕ)]? = some (psi e x))
    (L : (Fin q → ℝ) → ℝ) (hL : DifferentiableAt ℝ L (fun e => lam e x)) (eps : ℝ) (mx : Option ℕ) :
    ∃ g, eigenSolverBackward evecs efreqs dH eps mx
        (fun e => ((fderiv ℝ L (fun e => lam e x) (Pi.single e 1) : ℝ) : ℂ)) (fun _ _ => 0) = .ok g ∧
      HasDerivAt (fun t => L (fun e => lam e t)) g x := by
  have hlt : ∀ e : Fin q, (e : ℕ) < evecs.length := fun e => by
    by_contra h
    have := hev e
    rw [List.getElem?_eq_none (Nat.le_of_not_lt h)] at this
    cases this
  have hget : ∀ e : Fin q, pyGet evecs ((e : ℕ) : ℤ) = .ok (psi e x) := fun e => by
    rw [pyGet_nat (hlt e)]
    have := hev e
    rw [List.getElem?_eq_getElem (hlt e)] at this
    rw [Option.some.inj this]
  have h1 := fun e => C59_derivative hH hd (hb e) evecs ((e : ℕ) : ℤ) (hget e)
  choose dw hdw hder using h1
  have h2 : ∀ e : Fin q, ∃ v, partialVec evecs efreqs dH ((e : ℕ) : ℤ) eps = .ok v := fun e => by
    unfold partialVec
    rw [if_neg (pyGet_mem (hget e)), hget e, pyGet_nat (by rw [hlen]; exact hlt e)]
    exact ⟨_, rfl⟩
  choose dv hdv using h2
  refine ⟨_, backward_ok _ _ hdw fun e _ => hdv e, ?_⟩
  have hc : HasDerivAt (fun t => L (fun e => lam e t)) (fderiv ℝ L (fun e => lam e x) dw) x :=
    (hL.hasFDerivAt).comp_hasDerivAt x (hasDerivAt_pi.2 hder)
  refine hc.congr_deriv ?_
  unfold eigenBackward
  have : dw = ∑ e, dw e • (Pi.single e 1 : Fin q → ℝ) := by
    funext e; simp [Finset.sum_apply, Pi.single_apply]
  conv_lhs => rw [this]
  rw [map_sum, add_re, re_sum]
  simp [map_smul]

/-- For any loss of the frequencies and the states (not of the phases of the eigenvectors), when all
eigenvectors of a non-degenerate Hamiltonian are computed: `backward` returns the derivative of the loss
along any differentiable choice of the eigenvectors. `EIGENVECTOR_MAX_GRAD` may leave out vectors on
which the loss does not depend. (With `epsilon = 0` in `get_partial_vec`; see `C85_epsilon`.) -/
theorem C85_backward {H : ℝ → Matrix ι ι ℂ} {dH : Matrix ι ι ℂ} {x : ℝ}
    (hH : (H x).IsHermitian) (hd : HasDerivOp H dH x) (evecs : List (ι → ℂ)) (efreqs : List ℝ)
    (hbas : Eigenbasis (H x) evecs efreqs) (hsimple : efreqs.Nodup)
    (lam : Fin evecs.length → ℝ → ℝ) (psi : Fin evecs.length → ℝ → ι → ℂ)
    (dpsi : Fin evecs.length → ι → ℂ) (hb : ∀ e, EigenBranch H (lam e) (psi e) (dpsi e) x)
    (hev : ∀ e, evecs.get e = psi e x)
    (L : Spectrum evecs.length ι → ℝ) (hinv : PhaseInvariant L) (D : Spectrum evecs.length ι →L[ℝ] ℝ)
    (hL : HasFDerivAt L D (fun e => lam e x, fun e => psi e x)) (mx : Option ℕ)
    (hmx : ∀ e : Fin evecs.length, mx.getD evecs.length ≤ e → ∀ a, gradV D e a = 0) :
    ∃ g, eigenSolverBackward evecs efreqs dH 0 mx (gradW D) (gradV D) = .ok g ∧
      HasDerivAt (fun t => L (fun e => lam e t, fun e => psi e t)) g x := by
  have hget : ∀ e : Fin evecs.length, pyGet evecs ((e : ℕ) : ℤ) = .ok (psi e x) := fun e => by
    rw [pyGet_nat e.isLt, ← hev e]; rfl
  have h1 := fun e => C59_derivative hH hd (hb e) evecs ((e : ℕ) : ℤ) (hget e)
  choose dw hdw hder using h1
  have hs : ∀ m n : Fin evecs.length, n ≠ m →
      efreqs.get (n.cast hbas.len.symm) ≠ efreqs.get (m.cast hbas.len.symm) := fun m n hnm h => by
    have := (List.nodup_iff_injective_get.1 hsimple) h
    exact hnm (Fin.ext (by simpa using congrArg Fin.val this))
  have h2 := fun e => C60_is_derivative hH hd (hb e) evecs efreqs hbas e (hev e) (hs e)
  choose dv hdv hdec hre using h2
  refine ⟨_, backward_ok _ _ hdw fun e _ => hdv e, ?_⟩
  have hcurve : HasDerivAt (fun t => ((fun e => lam e t, fun e => psi e t) : Spectrum evecs.length ι))
      (dw, dpsi) x :=
    (hasDerivAt_pi.2 hder).prodMk (hasDerivAt_pi.2 fun e => hasDerivAt_pi.2 fun a => (hb e).deriv a)
  have hc : HasDerivAt (fun t => L (fun e => lam e t, fun e => psi e t)) (D (dw, dpsi)) x :=
    HasFDerivAt.comp_hasDerivAt x hL hcurve
  refine hc.congr_deriv ?_
  have hsplit : ((dw, dpsi) : Spectrum evecs.length ι) = (dw, dv) +
      (0, fun e => (((overlap (psi e x) (dpsi e)).im : ℂ) * I) • psi e x) := by
    refine Prod.ext (by simp) ?_
    funext e
    have hz : overlap (psi e x) (dpsi e) = ((overlap (psi e x) (dpsi e)).im : ℂ) * I := by
      conv_lhs => rw [← re_add_im (overlap (psi e x) (dpsi e)), hre e]
      simp
    show dpsi e = dv e + (((overlap (psi e x) (dpsi e)).im : ℂ) * I) • psi e x
    rw [← hz]
    exact hdec e
  rw [hsplit, map_add, phase_direction hinv hL, add_zero, spectrum_expand]
  unfold eigenBackward
  congr 2
  refine Finset.sum_congr rfl fun e _ => Finset.sum_congr rfl fun a _ => ?_
  split
  · rfl
  · rename_i h
    rw [hmx e (Nat.le_of_not_lt h) a]
    simp

/-- As `epsilon` tends to zero the returned gradient tends to the one with `epsilon = 0`. -/
theorem C85_epsilon (evecs : List (ι → ℂ)) (efreqs : List ℝ) (hlen : efreqs.length = evecs.length)
    (hsimple : efreqs.Nodup) (dH : Matrix ι ι ℂ) (mx : Option ℕ) (gw : Fin evecs.length → ℂ)
    (gv : Fin evecs.length → ι → ℂ) :
    ∃ g : ℝ → ℝ, (∀ eps, eigenSolverBackward evecs efreqs dH eps mx gw gv = .ok (g eps)) ∧
      Tendsto g (𝓝 0) (𝓝 (g 0)) := by
  have hgw : ∀ e : Fin evecs.length, pyGet efreqs ((e : ℕ) : ℤ) =
      .ok (efreqs.get (e.cast hlen.symm)) := fun e => pyGet_nat (by rw [hlen]; exact e.isLt)
  have h1 : ∀ e : Fin evecs.length, partialOmega evecs dH ((e : ℕ) : ℤ) false =
      .ok (innerOp (evecs.get e) dH (evecs.get e)).re := fun e => by
    unfold partialOmega
    rw [if_neg (by have := e.isLt; omega), pyGet_nat e.isLt]
    rfl
  have h2 : ∀ (eps : ℝ) (e : Fin evecs.length), partialVec evecs efreqs dH ((e : ℕ) : ℤ) eps =
      .ok (partialVecSum evecs efreqs dH (evecs.get e) ((e : ℕ) : ℤ)
        (efreqs.get (e.cast hlen.symm)) eps) := fun eps e => by
    unfold partialVec
    rw [if_neg (by have := e.isLt; omega), pyGet_nat e.isLt, hgw e]
    rfl
  refine ⟨_, fun eps => backward_ok gw gv h1 fun e _ => h2 eps e, ?_⟩
  unfold eigenBackward
  refine (Complex.continuous_re.tendsto _).comp (Tendsto.add tendsto_const_nhds ?_)
  refine tendsto_finsetSum _ fun e _ => tendsto_finsetSum _ fun a _ => ?_
  refine Tendsto.mul_const _ ?_
  split
  · simp only [partialVecSum_eq hlen, Finset.sum_apply]
    refine tendsto_finsetSum _ fun n _ => ?_
    split
    · exact tendsto_const_nhds
    · rename_i hne
      simp only [Pi.smul_apply, smul_eq_mul]
      refine Tendsto.mul_const _ (Tendsto.div tendsto_const_nhds ?_ ?_)
      · exact (Complex.continuous_ofReal.tendsto _).comp (tendsto_const_nhds.add tendsto_id)
      · rw [Complex.ofReal_ne_zero, add_zero, sub_ne_zero]
        intro h
        have := (List.nodup_iff_injective_get.1 hsimple) h
        exact hne (Fin.ext (by simpa using (congrArg Fin.val this).symm))
  · exact tendsto_const_nhds

/-- For a constructed circuit: the gradient of any loss of the computed eigenfrequencies with respect to
the flux of a loop or a Josephson energy that occurs in no inductor. -/
theorem C85_circuit (c : CircSpec) (hs : NoSelfLoops c.els) (v0 : ElemId → ℝ) (bd : Build)
    (hb : buildCirc c v0 = .ok bd) (m : Fin bd.M.keep.length → ℕ) (ng : Fin bd.M.keep.length → ℝ)
    (val : ElemId → ℝ) (fluxes : Fin bd.loops.length → ℝ) (P : ElemId → Matrix (Fin bd.n) (Fin bd.n) ℝ)
    (p : GradEl bd.loops.length) (x : ℝ) (H : ℝ → Op m)
    (hp : match p with
      | .loop l => x = fluxes l ∧ ∀ t, fullHamiltonian bd.C bd.M m ng val
          (extFlux bd.B (Function.update fluxes l t)) bd.inds bd.juns = .ok (H t)
      | .jun i => x = val i ∧ (∀ key ∈ bd.inds, key.el ≠ i) ∧ ∀ t, fullHamiltonian bd.C bd.M m ng
          (Function.update val i t) (extFlux bd.B fluxes) bd.inds bd.juns = .ok (H t)
      | _ => False)
    {q : ℕ} (lam : Fin q → ℝ → ℝ) (psi : Fin q → ℝ → Idx m → ℂ) (dpsi : Fin q → Idx m → ℂ)
    (hbr : ∀ e, EigenBranch H (lam e) (psi e) (dpsi e) x)
    (evecs : List (Idx m → ℂ)) (efreqs : List ℝ) (hlen : efreqs.length = evecs.length)
    (hev : ∀ e : Fin q, evecs[(e : ℕ)]? = some (psi e x))
    (L : (Fin q → ℝ) → ℝ) (hL : DifferentiableAt ℝ L (fun e => lam e x)) (eps : ℝ) (mx : Option ℕ) :
    ∃ g, eigenSolverBackward evecs efreqs (partialH bd.C bd.M (buildMem bd.M.data m ng) val bd.B fluxes P
        bd.inds bd.juns none p) eps mx
        (fun e => ((fderiv ℝ L (fun e => lam e x) (Pi.single e 1) : ℝ) : ℂ)) (fun _ _ => 0) = .ok g ∧
      HasDerivAt (fun t => L (fun e => lam e t)) g x := by
  obtain ⟨h1, h2⟩ := build_valid hs hb
  have hherm : ∀ (v : ElemId → ℝ) (f) (A : Op m),
      fullHamiltonian bd.C bd.M m ng v f bd.inds bd.juns = .ok A → A.IsHermitian := by
    intro v f A hA
    obtain ⟨H2, e2, hh⟩ := C40_hermitian bd.C bd.M h1 m ng v f bd.inds bd.juns h2
    have := Except.ok.inj (e2.symm.trans hA)
    rw [← this]; exact hh
  cases p with
  | loop l =>
    obtain ⟨rfl, hp⟩ := hp
    obtain ⟨H', hH', hd⟩ := (C57_circuit c hs v0 bd hb m ng val fluxes P).1 l
    have : H' = H := funext fun t => Except.ok.inj ((hH' t).symm.trans (hp t))
    subst this
    exact C85_frequencies (hherm _ _ _ (hp _)) hd lam psi dpsi hbr evecs efreqs hlen hev L hL eps mx
  | jun i =>
    obtain ⟨rfl, hi, hp⟩ := hp
    obtain ⟨H', hH', hd⟩ := (C57_circuit c hs v0 bd hb m ng val fluxes P).2 i hi
    have : H' = H := funext fun t => Except.ok.inj ((hH' t).symm.trans (hp t))
    subst this
    exact C85_frequencies (hherm _ _ _ (hp _)) hd lam psi dpsi hbr evecs efreqs hlen hev L hL eps mx
  | cap i => exact hp.elim
  | ind i => exact hp.elim

/-- the lower branch of the rotating two-level system -/
theorem exH_lower : EigenBranch exH (fun _ => -1)
    (fun t => ![((-Real.sin t : ℝ) : ℂ), ((Real.cos t : ℝ) : ℂ)]) ![-1, 0] 0 := by
  refine ⟨?_, Eventually.of_forall fun t => ?_, Eventually.of_forall fun t => ?_⟩
  · intro a
    fin_cases a
    · exact (Real.hasDerivAt_sin 0).neg.ofReal_comp.congr_deriv (by simp)
    · exact (Real.hasDerivAt_cos 0).ofReal_comp.congr_deriv (by simp)
  · have h := Real.sin_sq_add_cos_sq t
    funext a
    fin_cases a
    · simp only [exH, Matrix.mulVec, dotProduct, Fin.sum_univ_two]
      simp only [Matrix.of_apply, Matrix.cons_val', Matrix.cons_val_zero, Matrix.cons_val_one,
        Pi.smul_apply, smul_eq_mul, Matrix.cons_val_fin_one, Fin.zero_eta, Fin.mk_one]
      rw [← ofReal_mul, ← ofReal_mul, ← ofReal_mul, ← ofReal_add]
      congr 1
      linear_combination (Real.sin t) * h
    · simp only [exH, Matrix.mulVec, dotProduct, Fin.sum_univ_two]
      simp only [Matrix.of_apply, Matrix.cons_val', Matrix.cons_val_zero, Matrix.cons_val_one,
        Pi.smul_apply, smul_eq_mul, Matrix.cons_val_fin_one, Fin.zero_eta, Fin.mk_one]
      rw [← ofReal_mul, ← ofReal_mul, ← ofReal_mul, ← ofReal_add]
      congr 1
      linear_combination (-Real.cos t) * h
  · simp only [Fin.sum_univ_two, Matrix.cons_val_zero, Matrix.cons_val_one, conj_ofReal]
    rw [← ofReal_mul, ← ofReal_mul, ← ofReal_add]
    exact_mod_cast (by nlinarith [Real.sin_sq_add_cos_sq t] :
      -Real.sin t * -Real.sin t + Real.cos t * Real.cos t = 1)

/-- a loss that depends on the lowest state only: the probability of `(1, 1)/√2`, times two -/
noncomputable def exLoss {q : ℕ} (s : Spectrum (q + 1) (Fin 2)) : ℝ :=
  (s.2 0 0 + s.2 0 1).re ^ 2 + (s.2 0 0 + s.2 0 1).im ^ 2

theorem exLoss_inv {q : ℕ} : PhaseInvariant (exLoss (q := q)) := by
  intro w v u hu
  have h : ∀ z : ℂ, z.re ^ 2 + z.im ^ 2 = ‖z‖ ^ 2 := fun z => by
    rw [Complex.sq_norm, Complex.normSq_apply]; ring
  unfold exLoss
  rw [h, h]
  show ‖u 0 * v 0 0 + u 0 * v 0 1‖ ^ 2 = _
  rw [← mul_add, norm_mul, hu 0, one_mul]

theorem exLoss_diff {q : ℕ} (s : Spectrum (q + 1) (Fin 2)) : DifferentiableAt ℝ (exLoss (q := q)) s := by
  have h : ∀ i : Fin 2, DifferentiableAt ℝ (fun s : Spectrum (q + 1) (Fin 2) => s.2 0 i) s := fun i => by
    have h1 : DifferentiableAt ℝ (fun s : Spectrum (q + 1) (Fin 2) => s.2) s := differentiableAt_snd
    exact differentiableAt_pi.1 (differentiableAt_pi.1 h1 0) i
  have hs := (h 0).add (h 1)
  have hre : DifferentiableAt ℝ (fun s : Spectrum (q + 1) (Fin 2) => (s.2 0 0 + s.2 0 1).re) s :=
    (Complex.reCLM.differentiableAt).comp s hs
  have him : DifferentiableAt ℝ (fun s : Spectrum (q + 1) (Fin 2) => (s.2 0 0 + s.2 0 1).im) s :=
    (Complex.imCLM.differentiableAt).comp s hs
  exact (hre.pow 2).add (him.pow 2)

/-- `C85_backward` applies to the rotating two-level system with both states computed and this loss. -/
example : ∃ g, eigenSolverBackward exEvecs [-1, 1] exdH 0 none
      (gradW (fderiv ℝ (exLoss (q := 1)) (![-1, 1], ![![0, 1], ![1, 0]])))
      (gradV (fderiv ℝ (exLoss (q := 1)) (![-1, 1], ![![0, 1], ![1, 0]]))) = .ok g ∧
    HasDerivAt (fun t : ℝ => exLoss (q := 1) (![-1, 1 + t],
      ![![((-Real.sin t : ℝ) : ℂ), ((Real.cos t : ℝ) : ℂ)],
        ![((Real.cos t : ℝ) : ℂ), ((Real.sin t : ℝ) : ℂ)]])) g 0 := by
  have hpt : ((![-1, 1], ![![0, 1], ![1, 0]]) : Spectrum 2 (Fin 2)) =
      (fun e => (![fun _ => -1, fun t => 1 + t] : Fin 2 → ℝ → ℝ) e 0,
        fun e => (![fun t : ℝ => ![((-Real.sin t : ℝ) : ℂ), ((Real.cos t : ℝ) : ℂ)],
          fun t : ℝ => ![((Real.cos t : ℝ) : ℂ), ((Real.sin t : ℝ) : ℂ)]] : Fin 2 → ℝ → Fin 2 → ℂ) e 0) := by
    refine Prod.ext ?_ ?_
    · funext e; fin_cases e <;> simp
    · funext e a; fin_cases e <;> fin_cases a <;> simp
  have hF : HasFDerivAt (exLoss (q := 1)) (fderiv ℝ (exLoss (q := 1)) (![-1, 1], ![![0, 1], ![1, 0]]))
      (fun e => (![fun _ => -1, fun t => 1 + t] : Fin 2 → ℝ → ℝ) e 0,
        fun e => (![fun t : ℝ => ![((-Real.sin t : ℝ) : ℂ), ((Real.cos t : ℝ) : ℂ)],
          fun t : ℝ => ![((Real.cos t : ℝ) : ℂ), ((Real.sin t : ℝ) : ℂ)]] : Fin 2 → ℝ → Fin 2 → ℂ) e 0) := by
    rw [← hpt]
    exact (exLoss_diff _).hasFDerivAt
  have h := C85_backward exH_herm exH_deriv exEvecs [-1, 1] exEvecs_basis (by norm_num)
    (![fun _ => -1, fun t => 1 + t] : Fin 2 → ℝ → ℝ)
    (![fun t : ℝ => ![((-Real.sin t : ℝ) : ℂ), ((Real.cos t : ℝ) : ℂ)],
      fun t : ℝ => ![((Real.cos t : ℝ) : ℂ), ((Real.sin t : ℝ) : ℂ)]] : Fin 2 → ℝ → Fin 2 → ℂ)
    (![![-1, 0], ![0, 1]] : Fin 2 → Fin 2 → ℂ)
    (by intro e; fin_cases e
        · exact exH_lower
        · exact exH_branch)
    (by intro e; fin_cases e
        · funext a; fin_cases a <;> simp [exEvecs]
        · funext a; fin_cases a <;> simp [exEvecs])
    (exLoss (q := 1)) exLoss_inv _ hF none
    (fun e he => absurd e.isLt (Nat.not_lt.2 he))
  obtain ⟨g, h1, h2⟩ := h
  refine ⟨g, h1, h2.congr_of_eventuallyEq (Eventually.of_forall fun t => ?_)⟩
  simp [exLoss]

/-- When only some of the states are computed the gradient of a loss of the states is in general not the
derivative: for the same system and `n_eig = 1` the backward pass returns `0`, the derivative is `-2`. -/
theorem C85_truncated :
    eigenSolverBackward [![0, 1]] [-1] exdH 0 none
      (gradW (fderiv ℝ (exLoss (q := 0)) (![-1], ![![0, 1]])))
      (gradV (fderiv ℝ (exLoss (q := 0)) (![-1], ![![0, 1]]))) = .ok 0 ∧
    HasDerivAt (fun t : ℝ => exLoss (q := 0) (![-1],
      ![![((-Real.sin t : ℝ) : ℂ), ((Real.cos t : ℝ) : ℂ)]])) (-2) 0 := by
  constructor
  · have hw : ∀ e : Fin 1, gradW (fderiv ℝ (exLoss (q := 0)) (![-1], ![![0, 1]])) e = 0 := by
      intro e
      have hc : HasDerivAt (fun t : ℝ => exLoss (q := 0) ((![-1], ![![0, 1]]) + t • (Pi.single e 1, 0)))
          (fderiv ℝ (exLoss (q := 0)) (![-1], ![![0, 1]]) (Pi.single e 1, 0)) 0 := by
        have h1 : HasDerivAt (fun t : ℝ => (((![-1], ![![0, 1]]) : Spectrum 1 (Fin 2)) +
            t • ((Pi.single e 1, 0) : Spectrum 1 (Fin 2)))) (Pi.single e 1, 0) 0 := by
          simpa using ((hasDerivAt_id' (0 : ℝ)).smul_const
            ((Pi.single e 1, 0) : Spectrum 1 (Fin 2))).const_add ((![-1], ![![0, 1]]) : Spectrum 1 (Fin 2))
        have h2 : HasFDerivAt (exLoss (q := 0)) (fderiv ℝ (exLoss (q := 0)) (![-1], ![![0, 1]]))
            ((((![-1], ![![0, 1]]) : Spectrum 1 (Fin 2)) +
              (0 : ℝ) • ((Pi.single e 1, 0) : Spectrum 1 (Fin 2)))) := by
          rw [zero_smul, add_zero]
          exact (exLoss_diff (q := 0) (![-1], ![![0, 1]])).hasFDerivAt
        exact h2.comp_hasDerivAt 0 h1
      have hk : (fun t : ℝ => exLoss (q := 0) ((![-1], ![![0, 1]]) + t • (Pi.single e 1, 0))) =
          fun _ => 1 := by
        funext t; simp [exLoss]
      rw [hk] at hc
      unfold gradW
      rw [hc.unique (hasDerivAt_const _ _)]
      simp
    rw [backward_ok (q := 1) (dw := fun _ => 0) (dv := fun _ => 0)]
    · congr 1
      unfold eigenBackward
      simp
    · intro e; fin_cases e
      simp [partialOmega, pyGet, pyIdx, innerOp, exdH]
    · intro e _; fin_cases e
      simp [partialVec, pyGet, pyIdx, partialVecSum, List.range, List.range.loop]
  · have hs := (Real.hasDerivAt_cos 0).sub (Real.hasDerivAt_sin 0)
    have := (hs.pow 2).congr_deriv (show _ = (-2 : ℝ) by simp)
    refine this.congr_of_eventuallyEq (Eventually.of_forall fun t => ?_)
    simp [exLoss, -ofReal_sin, -ofReal_cos]
    ring

/-- `C85_frequencies` applies with only the ground state computed, -/
example : ∃ g, eigenSolverBackward [![0, 1]] [-1] exdH 1e-12 (some 0)
      (fun e => ((fderiv ℝ (fun w : Fin 1 → ℝ => w 0 ^ 2) (fun _ => -1) (Pi.single e 1) : ℝ) : ℂ))
      (fun (_ : Fin 1) _ => 0) = .ok g ∧ HasDerivAt (fun _ : ℝ => (-1 : ℝ) ^ 2) g 0 :=
  C85_frequencies (q := 1) exH_herm exH_deriv (fun _ _ => -1)
    (fun _ t => ![((-Real.sin t : ℝ) : ℂ), ((Real.cos t : ℝ) : ℂ)]) (fun _ => ![-1, 0])
    (fun _ => exH_lower) [![0, 1]] [-1] rfl
    (by intro e; fin_cases e
        simp only [Fin.zero_eta, Fin.val_zero, List.getElem?_cons_zero, Option.some.injEq]
        funext a; fin_cases a <;> simp)
    (fun w => w 0 ^ 2) (by fun_prop) 1e-12 (some 0)

/-- and `C85_epsilon` with both. -/
example := C85_epsilon exEvecs [-1, 1] rfl (by norm_num) exdH none (fun _ => 1) (fun _ _ => 1)

/-! ## C86 every number of eigenvalues can be computed -/

/-- For at least two states of a Hamiltonian of dimension at least two the returned tensors have one
entry per state and one row per state of the length of the dimension. -/
theorem C86_shapes_partial (q d : ℕ) (hq : 2 ≤ q) (hd : 2 ≤ d) :
    diagTorchShapes q d = .ok ([q], [q, d]) := by
  have h1 : q ≠ 1 := by omega
  have h2 : d ≠ 1 := by omega
  simp [diagTorchShapes, forwardShape, squeezeShape, catShape, h1, h2]

/-- The full statement, `q ≥ 1`, fails: for one state the tensors cannot be concatenated. -/
theorem C86_refuted (d : ℕ) : diagTorchShapes 1 d = .error .runtimeError := by
  by_cases h : d = 1 <;> simp [diagTorchShapes, forwardShape, squeezeShape, catShape, h]

example : diagTorchShapes 5 30 = .ok ([5], [5, 30]) := C86_shapes_partial 5 30 (by omega) (by omega)

end SQ
