import Verif.Lemmas.Dephasing
import Verif.Model.NoiseBuild

/-! # C62: gradients of dephasing rates -/

namespace SQ
open Matrix Complex Spec

/-- Where the frequency sensitivity is non-zero and the amplitude positive, `partial_dephasing_rate` is
the derivative of the dephasing rate: amplitude and sensitivity may both depend on the parameter. -/
theorem C62_rate (env : NoiseEnv) (A w : ℝ → ℝ) (dA dw x : ℝ) (hA : HasDerivAt A dA x)
    (hw : HasDerivAt w dw x) (hA0 : 0 < A x) (hw0 : w x ≠ 0) :
    HasDerivAt (fun t => dephasing env (A t) (w t)) (partialDephasingRate env (A x) dA (w x) dw) x :=
  dephasing_deriv env hA hw hA0 hw0

/-- amplitude proportional to the parameter, negative sensitivity -/
example (env : NoiseEnv) : HasDerivAt (fun t => dephasing env (1e-7 * t) (-(t ^ 2)))
    (partialDephasingRate env (1e-7 * 3) 1e-7 (-(3 ^ 2)) (-(2 * 3))) 3 :=
  C62_rate env (fun t => 1e-7 * t) (fun t => -(t ^ 2)) 1e-7 (-(2 * 3)) 3
    (by simpa using (hasDerivAt_id (3 : ℝ)).const_mul 1e-7)
    (by simpa using (hasDerivAt_pow 2 (3 : ℝ)).fun_neg) (by norm_num) (by norm_num)

/-- the condition is needed: at vanishing sensitivity the rate has a kink -/
theorem C62_kink (env : NoiseEnv) (h : env.omegaLow * env.tExp ≠ 1) (h0 : 0 < env.omegaLow * env.tExp) :
    ¬ ∃ d, HasDerivAt (fun t => dephasing env 1 t) d 0 := by
  rintro ⟨d, hd⟩
  have hpos : 0 < env.logFactor := by
    unfold NoiseEnv.logFactor
    refine Real.sqrt_pos.2 (mul_pos two_pos (abs_pos.2 ?_))
    intro hl
    rcases Real.log_eq_zero.1 hl with h1 | h1 | h1
    · linarith
    · exact h h1
    · linarith
  refine not_differentiableAt_abs_zero ?_
  have h2 := (hd.div_const env.logFactor).differentiableAt
  refine h2.congr_of_eventuallyEq (Filter.Eventually.of_forall fun t => ?_)
  simp only [dephasing, mul_one]
  field_simp

section channels
variable (c : NoiseCirc) (grad : GradEl c.nl) {H : ℝ → Op c.m} {x : ℝ}
  {lam lam' : ℝ → ℝ} {psi psi' : ℝ → Idx c.m → ℂ} {dpsi dpsi' : Idx c.m → ℂ}

/-- What is common to the three channels: `H` is the Hamiltonian as a function of the gradient
parameter, `psi`, `psi'` are differentiable branches of normalised eigenvectors which at the current
parameter value are the stored eigenvectors number `p`, `q`; the stored spectrum is complete and
simple. -/
structure Along (c : NoiseCirc) (grad : GradEl c.nl) (H : ℝ → Op c.m) (x : ℝ) (lam lam' : ℝ → ℝ)
    (psi psi' : ℝ → Idx c.m → ℂ) (dpsi dpsi' : Idx c.m → ℂ) (p q : Fin c.evecs.length) : Prop where
  herm : (H x).IsHermitian
  deriv : HasDerivOp H (partialH c.C c.M c.mem c.val c.B c.loopVals c.P c.inds c.juns none grad) x
  branch : EigenBranch H lam psi dpsi x
  branch' : EigenBranch H lam' psi' dpsi' x
  basis : Eigenbasis (H x) c.evecs c.efreqs
  at_p : c.evecs.get p = psi x
  at_q : c.evecs.get q = psi' x
  simple : ∀ k k' : Fin c.evecs.length, k ≠ k' →
      c.efreqs.get (k.cast basis.len.symm) ≠ c.efreqs.get (k'.cast basis.len.symm)

/-- Flux noise: `partial_flux_dec` (with epsilon 0 in the eigenvector derivatives) is the derivative of
the flux dephasing rate along the branches. `vt`, `ft` are element values and loop fluxes as functions of
the gradient parameter; that the second derivatives used are right is C61. -/
theorem C62_flux (p q : Fin c.evecs.length) (hal : Along c grad H x lam lam' psi psi' dpsi dpsi' p q)
    (vt : ℝ → ElemId → ℝ) (ft : ℝ → Fin c.nl → ℝ) (hv : vt x = c.val) (hf : ft x = c.loopVals)
    (hG : ∀ l, HasDerivOp (fun t => partialH c.C c.M c.mem (vt t) c.B (ft t) c.P c.inds c.juns none (.loop l))
      (partialSquaredHphi c.C c.M c.mem c.val c.B c.loopVals c.inds c.juns l grad) x)
    (hherm : ∀ l, (partialH c.C c.M c.mem c.val c.B c.loopVals c.P c.inds c.juns none
      (.loop l)).IsHermitian)
    (hA : ∀ l, 0 < c.noise.loopA l)
    (hs : ∀ l, sens (psi x) (psi' x) (partialH c.C c.M c.mem c.val c.B c.loopVals c.P c.inds c.juns none
      (.loop l)) ≠ 0)
    (ef : ℝ → List ℝ) (ev : ℝ → List (Idx c.m → ℂ)) (hev : ∀ t, pyGet (ev t) (p : ℕ) = .ok (psi t))
    (hev' : ∀ t, pyGet (ev t) (q : ℕ) = .ok (psi' t)) :
    ∃ (rate : ℝ → ℝ) (r : ℝ),
      (∀ t, ({ c with val := vt t, loopVals := ft t, efreqs := ef t, evecs := ev t } : NoiseCirc).fluxRate ((p : ℕ), (q : ℕ))
        (List.finRange c.nl) 0 = .ok (rate t)) ∧
      c.partialFluxDec grad ((p : ℕ), (q : ℕ)) 0 = .ok r ∧ HasDerivAt rate r x := by
  obtain ⟨r, hr, hdr⟩ := sumChannels_deriv c grad hal.herm hal.deriv hal.branch hal.branch' hal.basis p q
    hal.at_p hal.at_q hal.simple (List.finRange c.nl) (fun l =>
    (⟨c.noise.loopA l, 0,
      partialH c.C c.M c.mem c.val c.B c.loopVals c.P c.inds c.juns none (.loop l),
      partialSquaredHphi c.C c.M c.mem c.val c.B c.loopVals c.inds c.juns l grad⟩ : Channel c.m))
    (fun l _ => c.noise.loopA l)
    (fun l t => partialH c.C c.M c.mem (vt t) c.B (ft t) c.P c.inds c.juns none (.loop l))
    (fun l _ => ⟨rfl, hasDerivAt_const x _, hA l⟩)
    (fun l _ => ⟨by simp only [hv, hf], hG l, by simp only [hv, hf]; exact hherm l,
      by simp only [hv, hf]; exact hs l⟩) 0
  refine ⟨_, r, fun t => fluxRate_eq ({ c with val := vt t, loopVals := ft t, efreqs := ef t, evecs := ev t } : NoiseCirc)
    (hev t) (hev' t) _ 0, ?_, ?_⟩
  · unfold NoiseCirc.partialFluxDec NoiseCirc.fluxChannels
    rw [hr, zero_add]
  · simp only [zero_add]
    exact hdr

/-- Critical-current noise: the amplitude is `A·EJ`, so for the junction itself it also depends on the
parameter. -/
theorem C62_critical_current (p q : Fin c.evecs.length)
    (hal : Along c grad H x lam lam' psi psi' dpsi dpsi' p q)
    (vt : ℝ → ElemId → ℝ) (ft : ℝ → Fin c.nl → ℝ) (hv : vt x = c.val) (hf : ft x = c.loopVals)
    (hvt : ∀ key ∈ c.juns, HasDerivAt (fun t => vt t key.el)
      (if grad = .jun key.el then 1 else 0) x)
    (hG : ∀ key ∈ c.juns, HasDerivOp (fun t => partialH c.C c.M c.mem (vt t) c.B (ft t) c.P c.inds c.juns
      (some key.bId) (.jun key.el)) (partialSquaredHEJ c.mem c.B c.loopVals key grad) x)
    (hherm : ∀ key ∈ c.juns, (partialH c.C c.M c.mem c.val c.B c.loopVals c.P c.inds c.juns (some key.bId)
      (.jun key.el)).IsHermitian)
    (hA : ∀ key ∈ c.juns, 0 < c.noise.junA key.el * c.val key.el)
    (hs : ∀ key ∈ c.juns, sens (psi x) (psi' x) (partialH c.C c.M c.mem c.val c.B c.loopVals c.P c.inds c.juns
      (some key.bId) (.jun key.el)) ≠ 0)
    (ef : ℝ → List ℝ) (ev : ℝ → List (Idx c.m → ℂ)) (hev : ∀ t, pyGet (ev t) (p : ℕ) = .ok (psi t))
    (hev' : ∀ t, pyGet (ev t) (q : ℕ) = .ok (psi' t)) :
    ∃ (rate : ℝ → ℝ) (r : ℝ),
      (∀ t, ({ c with val := vt t, loopVals := ft t, efreqs := ef t, evecs := ev t } : NoiseCirc).ccRate ((p : ℕ), (q : ℕ))
        c.juns 0 = .ok (rate t)) ∧
      c.partialCcDec grad ((p : ℕ), (q : ℕ)) 0 = .ok r ∧ HasDerivAt rate r x := by
  obtain ⟨r, hr, hdr⟩ := sumChannels_deriv c grad hal.herm hal.deriv hal.branch hal.branch' hal.basis p q
    hal.at_p hal.at_q hal.simple c.juns (fun key =>
    (⟨c.noise.junA key.el * c.val key.el,
      if grad.isJun key.el then c.noise.junA key.el else 0,
      partialH c.C c.M c.mem c.val c.B c.loopVals c.P c.inds c.juns (some key.bId) (.jun key.el),
      partialSquaredHEJ c.mem c.B c.loopVals key grad⟩ : Channel c.m))
    (fun key t => c.noise.junA key.el * vt t key.el)
    (fun key t => partialH c.C c.M c.mem (vt t) c.B (ft t) c.P c.inds c.juns (some key.bId) (.jun key.el))
    (fun key hk => ⟨by rw [hv], ((hvt key hk).const_mul (c.noise.junA key.el)).congr_deriv (by
        cases grad <;> simp [GradEl.isJun]), by rw [hv]; exact hA key hk⟩)
    (fun key hk => ⟨by simp only [hv, hf], hG key hk, by simp only [hv, hf]; exact hherm key hk,
      by simp only [hv, hf]; exact hs key hk⟩) 0
  refine ⟨_, r, fun t => ccRate_eq ({ c with val := vt t, loopVals := ft t, efreqs := ef t, evecs := ev t } : NoiseCirc)
    (hev t) (hev' t) _ 0, ?_, ?_⟩
  · unfold NoiseCirc.partialCcDec NoiseCirc.ccChannels
    rw [hr, zero_add]
  · simp only [zero_add]
    exact hdr

/-- Charge noise, for gradient elements that are not capacitors (for capacitors the second derivative
is wrong in general, `C61_charge_refuted`): the first-derivative operators do not depend on the
parameter. -/
theorem C62_charge_partial (p q : Fin c.evecs.length)
    (hal : Along c grad H x lam lam' psi psi' dpsi dpsi' p q) (hgrad : ∀ i, grad ≠ .cap i)
    (hherm : ∀ i, (partialHng c.M.cInv c.mem i).IsHermitian)
    (hA : ∀ i : Fin c.M.keep.length, 0 < c.noise.chargeA i)
    (hs : ∀ i, c.M.omega i = 0 → sens (psi x) (psi' x) (partialHng c.M.cInv c.mem i) ≠ 0) :
    ∃ r, c.partialChargeDec grad ((p : ℕ), (q : ℕ)) 0 = .ok r ∧
      HasDerivAt (fun t => c.chargeRate (psi t) (psi' t)) r x := by
  classical
  obtain ⟨r, hr, hdr⟩ := sumChannels_deriv c grad hal.herm hal.deriv hal.branch hal.branch' hal.basis p q
    hal.at_p hal.at_q hal.simple ((List.finRange c.M.keep.length).filter (fun i => c.M.omega i = 0))
    (fun (i : Fin c.M.keep.length) =>
    (⟨c.noise.chargeA i * 2 * eCharge, 0, partialHng c.M.cInv c.mem i,
      partialSquaredHng c.C c.mem c.P i grad⟩ : Channel c.m))
    (fun i _ => c.noise.chargeA i * 2 * eCharge)
    (fun i _ => partialHng c.M.cInv c.mem i)
    (fun i _ => ⟨rfl, hasDerivAt_const x _, mul_pos (mul_pos (hA i) two_pos) eCharge_pos⟩)
    (fun i hi => ⟨rfl, by
      have h0 : partialSquaredHng c.C c.mem c.P i grad = 0 := by
        cases grad with
        | cap j => exact absurd rfl (hgrad j)
        | ind j => rfl
        | jun j => rfl
        | loop l => rfl
      rw [h0]; exact hasDerivOp_const _, hherm i, hs i (by simpa using (List.mem_filter.1 hi).2)⟩) 0
  refine ⟨r, ?_, ?_⟩
  · unfold NoiseCirc.partialChargeDec NoiseCirc.chargeChannels
    rw [hr, zero_add]
  · simp only [chargeRate_eq c hherm]
    exact hdr

end channels

/-! ### Constructed circuits -/

theorem partialH_loop_herm {nJ n b nl : ℕ} (C : Matrix (Fin n) (Fin n) ℝ) (M : Modes nJ n)
    (hk : M.keep.length ≤ n) (m : Fin M.keep.length → ℕ) (ng : Fin M.keep.length → ℝ) (val : ElemId → ℝ)
    (B : Matrix (Fin b) (Fin nl) ℝ) (loopVals : Fin nl → ℝ) (P : ElemId → Matrix (Fin n) (Fin n) ℝ)
    (inds : List (IndKey b)) (juns : List (JunKey b nJ)) (hv : ∀ key ∈ inds, ValidEdge n key.edge)
    (l : Fin nl) :
    (partialH C M (buildMem M.data m ng) val B loopVals P inds juns none (.loop l)).IsHermitian := by
  rw [partialH_loop_eq]
  unfold Matrix.IsHermitian
  rw [conjTranspose_add, herm_list_sum, herm_list_sum]
  · exact fun key _ => herm_real_smul _ (sinOp_herm _ _ _)
  · intro key hkey
    refine herm_real_smul _ ?_
    rw [indOpOf_eq C M hk _ (hv key hkey), conjTranspose_sum]
    exact Finset.sum_congr rfl fun i _ => herm_real_smul _ (phi_herm _ _ _ _)

/-- For a constructed circuit, the gradients of the flux and critical-current dephasing rates with
respect to the flux of a loop are the derivatives of the rates, along differentiable branches of
normalised eigenvectors of the Hamiltonian as a function of that flux. -/
theorem C62_circuit_loop (c : CircSpec) (hs : NoSelfLoops c.els) (v0 : ElemId → ℝ) (bd : Build)
    (hb : buildCirc c v0 = .ok bd) (m : Fin bd.M.keep.length → ℕ) (ng : Fin bd.M.keep.length → ℝ)
    (val : ElemId → ℝ) (fluxes : Fin bd.loops.length → ℝ) (P : ElemId → Matrix (Fin bd.n) (Fin bd.n) ℝ)
    (noise : NoiseSpec bd.loops.length) (env : NoiseEnv) (l : Fin bd.loops.length) (H : ℝ → Op m)
    (hH : ∀ t, fullHamiltonian bd.C bd.M m ng val (extFlux bd.B (Function.update fluxes l t)) bd.inds
      bd.juns = .ok (H t))
    (lam lam' : ℝ → ℝ) (psi psi' : ℝ → Idx m → ℂ) (dpsi dpsi' : Idx m → ℂ)
    (hbr : EigenBranch H lam psi dpsi (fluxes l)) (hbr' : EigenBranch H lam' psi' dpsi' (fluxes l))
    (ev : ℝ → List (Idx m → ℂ)) (ef : ℝ → List ℝ) (hbasis : Eigenbasis (H (fluxes l)) (ev (fluxes l))
      (ef (fluxes l)))
    (hsimple : ∀ k k' : Fin (ev (fluxes l)).length, k ≠ k' →
      (ef (fluxes l)).get (k.cast hbasis.len.symm) ≠ (ef (fluxes l)).get (k'.cast hbasis.len.symm))
    (p q : ℕ) (hp : ∀ t, pyGet (ev t) p = .ok (psi t)) (hq : ∀ t, pyGet (ev t) q = .ok (psi' t)) :
    let circ := fun t => bd.noise c m ng val (Function.update fluxes l t) P noise env (ef t) (ev t)
    let here := circ (fluxes l)
    ((∀ l', 0 < noise.loopA l') →
      (∀ l', sens (psi (fluxes l)) (psi' (fluxes l)) (partialH bd.C bd.M (buildMem bd.M.data m ng) val bd.B
        fluxes P bd.inds bd.juns none (.loop l')) ≠ 0) →
      ∃ (rate : ℝ → ℝ) (r : ℝ),
        (∀ t, (circ t).fluxRate (p, q) (List.finRange bd.loops.length) 0 = .ok (rate t)) ∧
        here.partialFluxDec (.loop l) (p, q) 0 = .ok r ∧ HasDerivAt rate r (fluxes l)) ∧
    ((∀ key ∈ bd.juns, 0 < noise.junA key.el * val key.el) →
      (∀ key ∈ bd.juns, sens (psi (fluxes l)) (psi' (fluxes l)) (partialH bd.C bd.M (buildMem bd.M.data m ng)
        val bd.B fluxes P bd.inds bd.juns (some key.bId) (.jun key.el)) ≠ 0) →
      ∃ (rate : ℝ → ℝ) (r : ℝ),
        (∀ t, (circ t).ccRate (p, q) bd.juns 0 = .ok (rate t)) ∧
        here.partialCcDec (.loop l) (p, q) 0 = .ok r ∧ HasDerivAt rate r (fluxes l)) := by
  intro circ here
  obtain ⟨h1, h2⟩ := build_valid hs hb
  obtain ⟨k1, k2, k3⟩ := build_keys hs hb
  obtain ⟨H', hH', hd⟩ := (C57_circuit c hs v0 bd hb m ng val fluxes P).1 l
  have hHH : H' = H := by
    funext t
    exact Except.ok.inj ((hH' t).symm.trans (hH t))
  subst hHH
  have hherm : (H' (fluxes l)).IsHermitian := by
    obtain ⟨H2, e2, h⟩ := C40_hermitian bd.C bd.M h1 m ng val
      (extFlux bd.B (Function.update fluxes l (fluxes l))) bd.inds bd.juns h2
    rw [← Except.ok.inj (e2.symm.trans (hH (fluxes l)))]; exact h
  have hlen : ∀ (i : ℕ) (v : Idx m → ℂ), pyGet (ev (fluxes l)) (i : ℤ) = .ok v →
      ∃ h : i < (ev (fluxes l)).length, (ev (fluxes l))[i] = v := by
    intro i v hi
    by_cases h : i < (ev (fluxes l)).length
    · rw [pyGet_nat h] at hi
      exact ⟨h, Except.ok.inj hi⟩
    · exfalso
      unfold pyGet pyIdx at hi
      rw [dif_neg (by omega), dif_neg (by omega)] at hi
      cases hi
  obtain ⟨hpl, hpv⟩ := hlen p _ (hp (fluxes l))
  obtain ⟨hql, hqv⟩ := hlen q _ (hq (fluxes l))
  have hself : Function.update fluxes l (fluxes l) = fluxes := Function.update_eq_self l fluxes
  have hal : Along here (.loop l) H' (fluxes l) lam lam' psi psi' dpsi dpsi' ⟨p, hpl⟩ ⟨q, hql⟩ :=
    ⟨hherm, by
      show HasDerivOp H' (partialH bd.C bd.M (buildMem bd.M.data m ng) val bd.B
        (Function.update fluxes l (fluxes l)) P bd.inds bd.juns none (.loop l)) (fluxes l)
      rw [hself]; exact hd, hbr, hbr', hbasis, hpv, hqv, hsimple⟩
  constructor
  · intro hA hse
    refine C62_flux here (.loop l) ⟨p, hpl⟩ ⟨q, hql⟩ hal (fun _ => val) (fun t => Function.update fluxes l t)
      rfl rfl ?_ ?_ hA ?_ ef ev hp hq
    · intro l'
      have := C61_flux_loop bd.C bd.M (buildMem bd.M.data m ng) val bd.B fluxes P bd.inds bd.juns l' l
      rw [← hself] at this
      simp only [Function.update_idem, Function.update_self] at this
      exact this
    · exact fun l' => partialH_loop_herm bd.C bd.M h1 m ng val bd.B _ P bd.inds bd.juns h2 l'
    · intro l'
      show sens _ _ (partialH bd.C bd.M (buildMem bd.M.data m ng) val bd.B
        (Function.update fluxes l (fluxes l)) P bd.inds bd.juns none (.loop l')) ≠ 0
      rw [hself]
      exact hse l'
  · intro hA hse
    refine C62_critical_current here (.loop l) ⟨p, hpl⟩ ⟨q, hql⟩ hal (fun _ => val)
      (fun t => Function.update fluxes l t) rfl rfl ?_ ?_ ?_ hA ?_ ef ev hp hq
    · intro key _
      simpa using hasDerivAt_const (fluxes l) (val key.el)
    · intro key hkey
      have := (C61_critical_current bd.C bd.M (buildMem bd.M.data m ng) val bd.B fluxes P bd.inds bd.juns k3
        key hkey).1 l
      rw [← hself] at this
      simp only [Function.update_idem, Function.update_self] at this
      exact this
    · intro key hkey
      have e := partialH_branch bd.C bd.M (buildMem bd.M.data m ng) val bd.B
        (Function.update fluxes l (fluxes l)) P bd.inds bd.juns k3 key hkey
      show (partialH bd.C bd.M (buildMem bd.M.data m ng) val bd.B
        (Function.update fluxes l (fluxes l)) P bd.inds bd.juns (some key.bId) (.jun key.el)).IsHermitian
      rw [e]
      have := herm_real_smul (-1) (cosOp_herm (buildMem bd.M.data m ng) key.wId
        (extFlux bd.B (Function.update fluxes l (fluxes l)) key.bId))
      simpa [Matrix.IsHermitian] using this
    · intro key hkey
      show sens _ _ (partialH bd.C bd.M (buildMem bd.M.data m ng) val bd.B
        (Function.update fluxes l (fluxes l)) P bd.inds bd.juns (some key.bId) (.jun key.el)) ≠ 0
      rw [hself]
      exact hse key hkey

/-! ### The hypotheses can be met -/

/-- one charge mode -/
noncomputable abbrev exM : Modes 1 1 :=
  { keep := [0], cInv := 1, l := 0, w := 1, omega := fun _ => 0, S := 1, R := 1 }

/-- the mode -/
def exz : Fin exM.keep.length := ⟨0, by decide⟩

instance : Subsingleton (Fin exM.keep.length) := inferInstanceAs (Subsingleton (Fin 1))

/-- one charge mode with two states and one junction whose exponential operator is `diag(1, i)` -/
noncomputable def exMem : OpMem 1 (fun _ : Fin exM.keep.length => 2) where
  Q := fun _ => diagonal (fun x => if x exz = 0 then 1 else 0)
  QQ := fun _ => []
  phi := fun _ => 0
  N := fun _ => 0
  exp := fun _ => diagonal (fun x => if x exz = 0 then 1 else I)
  rootExp := fun _ => 0

/-- basis vectors -/
def exVec (a : Fin 2) : Idx (fun _ : Fin exM.keep.length => 2) → ℂ := fun x => if x exz = a then 1 else 0

/-- a circuit with them -/
noncomputable abbrev exNoise : NoiseCirc where
  n := 1
  nJ := 1
  b := 1
  nl := 1
  C := 1
  M := exM
  m := fun _ => 2
  mem := exMem
  val := fun _ => 1
  B := 1
  loopVals := fun _ => 0
  P := fun _ => 0
  inds := []
  juns := [⟨(0, 1), 0, 0, 0⟩]
  caps := []
  noise := ⟨fun _ => none, fun _ _ _ => none, fun _ _ _ => none, fun _ => 1e-7, fun _ => 1e-6, fun _ => 1e-4⟩
  env := ⟨1, 2, 1⟩
  efreqs := [-1, 0]
  evecs := [exVec 0, exVec 1]

theorem ex_cos (phi : ℝ) : cosOp exMem 0 phi =
    diagonal (fun x => if x exz = 0 then ((Real.cos phi : ℝ) : ℂ) else ((-Real.sin phi : ℝ) : ℂ)) := by
  unfold cosOp phase exMem
  ext x y
  by_cases h : x = y
  · subst h
    by_cases h0 : x exz = 0
    · simp [h0, exp_mul_I, mul_comm I, ← ofReal_cos, ← ofReal_sin]
      ring
    · simp [h0, exp_mul_I, mul_comm I, ← ofReal_cos, ← ofReal_sin]
      ring_nf
      simp
  · simp [h]

theorem ex_sin : sinOp exMem 0 0 = diagonal (fun x => if x exz = 0 then 0 else 1) := by
  unfold sinOp phase exMem
  ext x y
  by_cases h : x = y
  · subst h
    by_cases h0 : x exz = 0
    · simp [h0]
    · simp [h0]
      ring_nf
      simp
  · simp [h]

theorem ex_ext (f : Fin 1 → ℝ) : extFlux (1 : Matrix (Fin 1) (Fin 1) ℝ) f 0 = f 0 := by
  rw [extFlux_sum]; simp

theorem ex_dH (b : Option (Fin 1)) (hb : b = none ∨ b = some 0) :
    (partialH exNoise.C exNoise.M exNoise.mem exNoise.val exNoise.B exNoise.loopVals exNoise.P exNoise.inds
      exNoise.juns b (.jun 0) : Op (fun _ : Fin exM.keep.length => 2)) = diagonal (fun x => if x exz = 0 then -1 else 0) := by
  have h : (partialH exNoise.C exNoise.M exNoise.mem exNoise.val exNoise.B exNoise.loopVals exNoise.P
      exNoise.inds exNoise.juns b (.jun 0) : Op (fun _ : Fin exM.keep.length => 2)) = 0 + (-1 : ℂ) • cosOp exMem 0
        (extFlux (1 : Matrix (Fin 1) (Fin 1) ℝ) (fun _ => 0) 0) := by
    simp only [partialH, exNoise, List.foldl_cons, List.foldl_nil]
    exact if_pos ⟨by trivial, hb⟩
  rw [h, ex_ext, ex_cos, zero_add]
  ext x y
  by_cases hxy : x = y
  · subst hxy
    by_cases h0 : x exz = 0 <;> simp [h0]
  · simp [hxy]

/-- Hamiltonian as a function of the Josephson energy -/
noncomputable def exHam (t : ℝ) : Op (fun _ : Fin exM.keep.length => 2) :=
  diagonal (fun x => if x exz = 0 then ((-t : ℝ) : ℂ) else 0)

theorem ex_idx (x : Idx (fun _ : Fin exM.keep.length => 2)) : x = (fun _ => x exz) := by
  funext i; rw [Subsingleton.elim i exz]

/-- states of one mode -/
def exEquiv : Idx (fun _ : Fin exM.keep.length => 2) ≃ Fin 2 where
  toFun := fun x => x exz
  invFun := fun a _ => a
  left_inv := fun x => by funext i; rw [Subsingleton.elim i exz]
  right_inv := fun _ => rfl

theorem ex_sum (f : Idx (fun _ : Fin exM.keep.length => 2) → ℂ) : ∑ x, f x = f (fun _ => 0) + f (fun _ => 1) := by
  have e : ∑ x, f x = ∑ a : Fin 2, f (fun _ => a) :=
    Fintype.sum_equiv (exEquiv) _ _ (fun x => by
      congr 1; funext i; rw [Subsingleton.elim i exz]; rfl)
  rw [e, Fin.sum_univ_two]

theorem ex_eigen (t : ℝ) (a : Fin 2) :
    exHam t *ᵥ exVec a = (((if a = 0 then -t else 0 : ℝ)) : ℂ) • exVec a := by
  funext x
  unfold exHam exVec
  rw [mulVec_diagonal]
  simp only [Pi.smul_apply, smul_eq_mul]
  by_cases h : x exz = a
  · subst h
    by_cases h0 : x exz = 0 <;> simp [h0]
  · simp [h]

theorem ex_orth (a b : Fin 2) : ∑ x, (starRingEnd ℂ) (exVec a x) * exVec b x = if a = b then 1 else 0 := by
  rw [ex_sum]
  fin_cases a <;> fin_cases b <;> simp [exVec]

theorem ex_branch (a : Fin 2) : EigenBranch exHam (fun t => if a = 0 then -t else 0) (fun _ => exVec a) 0 1 :=
  ⟨fun x => hasDerivAt_const (1 : ℝ) (exVec a x), Filter.Eventually.of_forall fun t => ex_eigen t a,
    Filter.Eventually.of_forall fun _ => by rw [ex_orth, if_pos rfl]⟩

theorem ex_along : Along exNoise (.jun 0) exHam 1 (fun t => -t) (fun _ => 0) (fun _ => exVec 0)
    (fun _ => exVec 1) 0 0 ⟨0, by decide⟩ ⟨1, by decide⟩ where
  herm := by
    unfold exHam Matrix.IsHermitian
    rw [diagonal_conjTranspose]
    congr 1
    funext x
    by_cases h0 : x exz = 0 <;> simp [h0]
  deriv := by
    rw [ex_dH none (Or.inl rfl)]
    intro x y
    unfold exHam
    by_cases hxy : x = y
    · subst hxy
      simp only [diagonal_apply_eq]
      by_cases h0 : x exz = 0
      · simp only [h0, if_true]
        simpa using (hasDerivAt_id (1 : ℝ)).neg.ofReal_comp
      · simp only [h0, if_false]
        exact hasDerivAt_const _ _
    · simp only [diagonal_apply_ne _ hxy]
      exact hasDerivAt_const _ _
  branch := by simpa using ex_branch 0
  branch' := by simpa using ex_branch 1
  basis := by
    refine ⟨?_, rfl, ?_, ?_⟩
    · exact (Fintype.card_fin 2).symm.trans (Fintype.card_congr exEquiv).symm
    · intro i j
      have key : ∀ i : Fin exNoise.evecs.length, exNoise.evecs.get i = exVec i := by
        intro i; fin_cases i <;> rfl
      rw [key, key]
      exact ex_orth i j
    · intro i hi
      have h2 : i < 2 := hi
      interval_cases i
      · simpa [exNoise] using ex_eigen 1 0
      · simpa [exNoise] using ex_eigen 1 1
  at_p := rfl
  at_q := rfl
  simple := by
    intro k k' hk
    fin_cases k <;> fin_cases k'
    · exact absurd rfl hk
    · simp [exNoise]
    · simp [exNoise]
    · exact absurd rfl hk

theorem ex_sens (d : Fin 2 → ℂ) : sens (exVec 0) (exVec 1)
    (diagonal (fun x : Idx (fun _ : Fin exM.keep.length => 2) => d (x exz))) = (d 0 - d 1).re := by
  unfold sens
  rw [braket_right, braket_right]
  unfold overlap
  rw [ex_sum, ex_sum]
  simp [exVec, mulVec_diagonal]

/-- critical-current noise: derivative with respect to the Josephson energy itself -/
example : ∃ (rate : ℝ → ℝ) (r : ℝ),
      (∀ t, ({ exNoise with val := Function.update exNoise.val 0 t } : NoiseCirc).ccRate (0, 1)
        exNoise.juns 0 = .ok (rate t)) ∧
      exNoise.partialCcDec (.jun 0) (0, 1) 0 = .ok r ∧ HasDerivAt rate r 1 :=
  C62_critical_current exNoise (.jun 0) ⟨0, by decide⟩ ⟨1, by decide⟩ ex_along
    (fun t => Function.update exNoise.val 0 t) (fun _ => exNoise.loopVals)
    (by funext i; by_cases h : i = 0 <;> simp [Function.update, h]) rfl
    (by
      intro key hkey
      rw [List.mem_singleton.1 hkey]
      simpa using hasDerivAt_id' (1 : ℝ))
    (fun _ _ => hasDerivOp_const _)
    (by
      intro key hkey
      rw [List.mem_singleton.1 hkey, ex_dH _ (Or.inr rfl)]
      unfold Matrix.IsHermitian
      rw [diagonal_conjTranspose]
      congr 1
      funext x
      by_cases h0 : x exz = 0 <;> simp [h0])
    (by intro key _; norm_num [exNoise])
    (by
      intro key hkey
      rw [List.mem_singleton.1 hkey, ex_dH _ (Or.inr rfl)]
      have := ex_sens (fun a => if a = 0 then -1 else 0)
      rw [this]
      norm_num)
    (fun _ => exNoise.efreqs) (fun _ => exNoise.evecs) (fun _ => rfl) (fun _ => rfl)

theorem ex_flux (v : ElemId → ℝ) :
    (partialH exNoise.C exNoise.M exNoise.mem v exNoise.B exNoise.loopVals exNoise.P exNoise.inds
      exNoise.juns none (.loop (0 : Fin 1)) : Op (fun _ : Fin exM.keep.length => 2)) = diagonal (fun x => if x exz = 0 then 0 else ((v 0 : ℝ) : ℂ)) := by
  have h : (partialH exNoise.C exNoise.M exNoise.mem v exNoise.B exNoise.loopVals exNoise.P
      exNoise.inds exNoise.juns none (.loop (0 : Fin 1)) : Op (fun _ : Fin exM.keep.length => 2)) = 0 + (((1 : Matrix (Fin 1) (Fin 1) ℝ) 0 0 * v 0 : ℝ) : ℂ) •
        sinOp exMem 0 (extFlux (1 : Matrix (Fin 1) (Fin 1) ℝ) (fun _ => 0) 0) := by
    simp only [partialH, exNoise, List.foldl_cons, List.foldl_nil]
  rw [h, ex_ext, ex_sin, zero_add]
  ext x y
  by_cases hxy : x = y
  · subst hxy
    by_cases h0 : x exz = 0 <;> simp [h0]
  · simp [hxy]

/-- flux noise: derivative with respect to the Josephson energy -/
example : ∃ (rate : ℝ → ℝ) (r : ℝ),
      (∀ t, ({ exNoise with val := Function.update exNoise.val 0 t } : NoiseCirc).fluxRate (0, 1)
        (List.finRange 1) 0 = .ok (rate t)) ∧
      exNoise.partialFluxDec (.jun 0) (0, 1) 0 = .ok r ∧ HasDerivAt rate r 1 :=
  C62_flux exNoise (.jun 0) ⟨0, by decide⟩ ⟨1, by decide⟩ ex_along
    (fun t => Function.update exNoise.val 0 t) (fun _ => exNoise.loopVals)
    (by funext i; by_cases h : i = 0 <;> simp [Function.update, h]) rfl
    (fun l => C61_flux_junction exNoise.C exNoise.M exNoise.mem exNoise.val exNoise.B exNoise.loopVals
      exNoise.P exNoise.inds exNoise.juns l 0 (by intro key hk; cases hk))
    (by
      intro l
      rw [show l = (0 : Fin 1) from Subsingleton.elim (α := Fin 1) _ _, ex_flux]
      unfold Matrix.IsHermitian
      rw [diagonal_conjTranspose]
      congr 1
      funext x
      by_cases h0 : x exz = 0 <;> simp [h0])
    (by intro l; norm_num [exNoise])
    (by
      intro l
      rw [show l = (0 : Fin 1) from Subsingleton.elim (α := Fin 1) _ _, ex_flux]
      have := ex_sens (fun a => if a = 0 then 0 else ((exNoise.val 0 : ℝ) : ℂ))
      rw [this]
      norm_num [exNoise])
    (fun _ => exNoise.efreqs) (fun _ => exNoise.evecs) (fun _ => rfl) (fun _ => rfl)

/-- charge noise -/
example : ∃ r, exNoise.partialChargeDec (.jun 0) (0, 1) 0 = .ok r ∧
      HasDerivAt (fun _ : ℝ => exNoise.chargeRate (exVec 0) (exVec 1)) r 1 := by
  have hQ : ∀ i, (partialHng exNoise.M.cInv exNoise.mem i : Op (fun _ : Fin exM.keep.length => 2)) =
      diagonal (fun x => if x exz = 0 then ((1 / √hbar : ℝ) : ℂ) else 0) := by
    intro i
    rw [Subsingleton.elim i exz, partialHng_eq]
    have : ∑ j : Fin 1, (((1 : Matrix (Fin 1) (Fin 1) ℝ) 0 j / √hbar : ℝ) : ℂ) • exMem.Q exz =
        diagonal (fun x => if x exz = 0 then ((1 / √hbar : ℝ) : ℂ) else 0) := by
      rw [Fin.sum_univ_one]
      ext x y
      by_cases hxy : x = y
      · subst hxy
        by_cases h0 : x exz = 0 <;> simp [h0, exMem]
      · simp [hxy, exMem]
    exact this
  refine C62_charge_partial exNoise (.jun 0) ⟨0, by decide⟩ ⟨1, by decide⟩ ex_along
    (by intro i h; cases h) ?_ (by intro i; norm_num [exNoise]) ?_
  · intro i
    rw [hQ]
    unfold Matrix.IsHermitian
    rw [diagonal_conjTranspose]
    congr 1
    funext x
    by_cases h0 : x exz = 0 <;> simp [h0]
  · intro i _
    rw [hQ]
    have := ex_sens (fun a => if a = 0 then ((1 / √hbar : ℝ) : ℂ) else 0)
    rw [this]
    simp [Real.sqrt_ne_zero'.2 hbar_pos]

end SQ
