import Verif.Model.CircuitPhys

/-!
# circuit.py, part 7: derivatives of the Hamiltonian, eigenfrequencies and eigenvectors;
torch_extensions.py: derivatives of dephasing rates and of the eigensolver

All operators are taken from the stored ones, evaluated at the current fluxes (as `hamiltonian()`
leaves them).
-/

namespace SQ
open Matrix Complex

variable {nJ : ℕ}

/-- indexing of a Python list or array, with negative indices -/
def pyGet {α : Type*} (l : List α) (i : ℤ) : Except PyErr α :=
  match pyIdx l.length i with
  | .error e => .error e
  | .ok j => .ok (l.get j)

/-- functions.py:298-306 `operator_inner_product`. -/
def innerOp {ι : Type*} [Fintype ι] (s1 : ι → ℂ) (A : Matrix ι ι ℂ) (s2 : ι → ℂ) : ℂ :=
  star s1 ⬝ᵥ (A *ᵥ s2)

/-- circuit.py:1801-1803: entry `(el, b_id)` of `_memory_ops['ind_hamil']`, stored by
`_get_inductive_hamil` (which raises an exception before storing if the coupling operator cannot be
built). -/
noncomputable def indOpOf {n b : ℕ} (C : Matrix (Fin n) (Fin n) ℝ) (M : Modes nJ n)
    {m : Fin M.keep.length → ℕ} (mem : OpMem nJ m) (key : IndKey b) : Op m :=
  match couplingOp "inductive" C M mem.Q mem.phi key.edge with
  | .ok op => op
  | .error _ => 0

/-- An element or loop with respect to which a derivative is taken; loops by position in
`self.loops`. -/
inductive GradEl (nl : ℕ)
  | cap (i : ElemId)
  | ind (i : ElemId)
  | jun (i : ElemId)
  | loop (l : Fin nl)
  deriving DecidableEq

/-- `A[i, j]` for `i, j < self.n`: the matrices `R`, `S` keep all columns when modes are removed, so
this is the leading block. -/
def headBlock {n : ℕ} (k : ℕ) (A : Matrix (Fin n) (Fin n) ℝ) : Matrix (Fin k) (Fin k) ℝ :=
  Matrix.of fun i j => if h : (i : ℕ) < n ∧ (j : ℕ) < n then A ⟨i, h.1⟩ ⟨j, h.2⟩ else 0

/-- circuit.py:2732-2733: coefficients for a capacitor with sensitivity `P` (`partial_mats[el]`). -/
noncomputable def capCoef {n : ℕ} (C R P : Matrix (Fin n) (Fin n) ℝ) : Matrix (Fin n) (Fin n) ℝ :=
  -Rᵀ * C⁻¹ * P * C⁻¹ * R

/-- circuit.py:2738: coefficients for an inductor. -/
def indCoef {n : ℕ} (S P : Matrix (Fin n) (Fin n) ℝ) : Matrix (Fin n) (Fin n) ℝ := -Sᵀ * P * S

/-- circuit.py:2704-2775 `_get_partial_H`; `bId` is the optional `_b_id`. -/
noncomputable def partialH {n b nl : ℕ} (C : Matrix (Fin n) (Fin n) ℝ) (M : Modes nJ n)
    {m : Fin M.keep.length → ℕ} (mem : OpMem nJ m) (val : ElemId → ℝ)
    (B : Matrix (Fin b) (Fin nl) ℝ) (loopVals : Fin nl → ℝ) (P : ElemId → Matrix (Fin n) (Fin n) ℝ)
    (inds : List (IndKey b)) (juns : List (JunKey b nJ)) (bId : Option (Fin b)) :
    GradEl nl → Op m
  | .cap i => quadraticQ mem (headBlock _ (capCoef C M.R (P i)))
  | .ind i =>
    inds.foldl (fun acc key =>
      if key.el = i then
        acc + (-(((1 / val i ^ 2 / √hbar * (Phi0 / 2 / Real.pi) * extFlux B loopVals key.bId : ℝ)) : ℂ)) •
          indOpOf C M mem key
      else acc) (quadraticPhi mem (headBlock _ (indCoef M.S (P i))))
  | .loop l =>
    juns.foldl (fun acc key =>
        acc + ((B key.bId l * val key.el : ℝ) : ℂ) • sinOp mem key.wId (extFlux B loopVals key.bId))
      (inds.foldl (fun acc key =>
        acc + ((B key.bId l / val key.el * Phi0 / √hbar / 2 / Real.pi : ℝ) : ℂ) • indOpOf C M mem key) 0)
  | .jun i =>
    juns.foldl (fun acc key =>
      if key.el = i ∧ (bId = none ∨ bId = some key.bId) then
        acc + (-1 : ℂ) • cosOp mem key.wId (extFlux B loopVals key.bId)
      else acc) 0

section eigen
variable {ι : Type*} [Fintype ι]

/-- circuit.py:2777-2826 `get_partial_omega`, given the derivative of the Hamiltonian. -/
def partialOmega (evecs : List (ι → ℂ)) (dH : Matrix ι ι ℂ) (m : ℤ) (subtractGround : Bool) :
    Except PyErr ℝ :=
  if evecs.length = 0 then .error .circuitState
  else
    match pyGet evecs m with
    | .error e => .error e
    | .ok psi =>
      if subtractGround then
        match pyGet evecs 0 with
        | .error e => .error e
        | .ok psi0 => .ok (innerOp psi dH psi - innerOp psi0 dH psi0).re
      else .ok (innerOp psi dH psi).re

/-- circuit.py:2828-2873 `_get_partial_omega_mn`. -/
def partialOmegaMN (evecs : List (ι → ℂ)) (dH : Matrix ι ι ℂ) (states : ℤ × ℤ) : Except PyErr ℝ :=
  match pyGet evecs states.1 with
  | .error e => .error e
  | .ok psiM =>
    match pyGet evecs states.2 with
    | .error e => .error e
    | .ok psiN => .ok (innerOp psiM dH psiM - innerOp psiN dH psiN).re

/-- circuit.py:2909-2921: the loop of `get_partial_vec`. -/
noncomputable def partialVecSum (evecs : List (ι → ℂ)) (efreqs : List ℝ) (dH : Matrix ι ι ℂ)
    (psiM : ι → ℂ) (m : ℤ) (wM eps : ℝ) : ι → ℂ :=
  (List.range evecs.length).foldl (fun acc (n : ℕ) =>
    if (n : ℤ) = m then acc
    else
      acc + (innerOp (evecs.getD n 0) dH psiM / ((wM - efreqs.getD n 0 + eps : ℝ) : ℂ)) • evecs.getD n 0) 0

/-- circuit.py:2875-2921 `get_partial_vec`. -/
noncomputable def partialVec (evecs : List (ι → ℂ)) (efreqs : List ℝ) (dH : Matrix ι ι ℂ) (m : ℤ)
    (eps : ℝ) : Except PyErr (ι → ℂ) :=
  if evecs.length = 0 then .error .circuitState
  else
    match pyGet evecs m with
    | .error e => .error e
    | .ok psi =>
      match pyGet efreqs m with
      | .error e => .error e
      | .ok w => .ok (partialVecSum evecs efreqs dH psi m w eps)

/-- torch_extensions.py:286-350 `partial_squared_omega`, given the derivatives of the two states. -/
noncomputable def partialSquaredOmega (psiM dPsiM psiN dPsiN : ι → ℂ) (dH d2H : Matrix ι ι ℂ) : ℝ :=
  (((2 * (innerOp dPsiM dH psiM - innerOp dPsiN dH psiN).re : ℝ) : ℂ) +
    (innerOp psiM d2H psiM - innerOp psiN d2H psiN)).re

end eigen

/-- noise environment: `ENV['omega_low']`, `ENV['t_exp']`, `ENV['T']` -/
structure NoiseEnv where
  omegaLow : ℝ
  tExp : ℝ
  T : ℝ

/-- circuit.py:2453, torch_extensions.py:381: the logarithmic factor of 1/f dephasing. -/
noncomputable def NoiseEnv.logFactor (env : NoiseEnv) : ℝ := √(2 * |Real.log (env.omegaLow * env.tExp)|)

/-- circuit.py:2435-2454 `_dephasing`. -/
noncomputable def dephasing (env : NoiseEnv) (A partialOmega : ℝ) : ℝ :=
  |partialOmega * A| * env.logFactor

/-- torch_extensions.py:353-383 `partial_dephasing_rate`. -/
noncomputable def partialDephasingRate (env : NoiseEnv) (A dA w dw : ℝ) : ℝ :=
  (SignType.sign w : ℝ) * env.logFactor * (dA * w + A * dw)

/-- torch_extensions.py:422-452 `partial_H_ng`. -/
noncomputable def partialHng {k : ℕ} (cInv : Matrix (Fin k) (Fin k) ℝ) {m : Fin k → ℕ}
    (mem : OpMem nJ m) (i : Fin k) : Op m :=
  (List.finRange k).foldl (fun acc j => acc + ((cInv i j / √hbar : ℝ) : ℂ) • mem.Q j) 0

/-- torch_extensions.py:455-494 `partial_squared_H_ng` (charge mode `i`). The coefficients are not
transformed with `R`. -/
noncomputable def partialSquaredHng {n nl : ℕ} (C : Matrix (Fin n) (Fin n) ℝ) {k : ℕ} {m : Fin k → ℕ}
    (mem : OpMem nJ m) (P : ElemId → Matrix (Fin n) (Fin n) ℝ) (i : Fin k) : GradEl nl → Op m
  | .cap c => -((List.finRange k).foldl (fun acc j =>
      acc + ((headBlock k (C⁻¹ * P c * C⁻¹) i j / √hbar : ℝ) : ℂ) • mem.Q j) 0)
  | _ => 0

/-- torch_extensions.py:664-700 `partial_squared_H_EJ` for the junction branch `key`. -/
noncomputable def partialSquaredHEJ {k b nl : ℕ} {m : Fin k → ℕ} (mem : OpMem nJ m)
    (B : Matrix (Fin b) (Fin nl) ℝ) (loopVals : Fin nl → ℝ) (key : JunKey b nJ) : GradEl nl → Op m
  | .loop l => ((B key.bId l : ℝ) : ℂ) • sinOp mem key.wId (extFlux B loopVals key.bId)
  | _ => 0

/-- torch_extensions.py:834-896 `partial_squared_H_phi`; the branches of an element are those of
`get_B_indices` (386-418). -/
noncomputable def partialSquaredHphi {n b nl : ℕ} (C : Matrix (Fin n) (Fin n) ℝ) (M : Modes nJ n)
    {m : Fin M.keep.length → ℕ} (mem : OpMem nJ m) (val : ElemId → ℝ)
    (B : Matrix (Fin b) (Fin nl) ℝ) (loopVals : Fin nl → ℝ)
    (inds : List (IndKey b)) (juns : List (JunKey b nJ)) (l : Fin nl) : GradEl nl → Op m
  | .cap _ => 0
  | .jun i =>
    (juns.filter (fun key => key.el = i)).foldl (fun acc key =>
      acc + ((B key.bId l : ℝ) : ℂ) • sinOp mem key.wId (extFlux B loopVals key.bId)) 0
  | .ind i =>
    (inds.filter (fun key => key.el = i)).foldl (fun acc key =>
      acc + ((B key.bId l / -(val i ^ 2) * Phi0 / √hbar / 2 / Real.pi : ℝ) : ℂ) • indOpOf C M mem key) 0
  | .loop l2 =>
    juns.foldl (fun acc key =>
      acc + ((val key.el * B key.bId l2 * B key.bId l : ℝ) : ℂ) •
        cosOp mem key.wId (extFlux B loopVals key.bId)) 0

/-- torch_extensions.py:205-279 `EigenSolver.backward` for one parameter: `gw`, `gv` are the
incoming gradients for the eigenvalues and eigenvectors, `dw`, `dv` the derivatives computed by
`get_partial_omega` and `get_partial_vec`; eigenvectors from number `maxGrad` on are skipped. -/
noncomputable def eigenBackward {ι : Type*} [Fintype ι] {q : ℕ} (gw : Fin q → ℂ) (gv : Fin q → ι → ℂ)
    (dw : Fin q → ℝ) (dv : Fin q → ι → ℂ) (maxGrad : ℕ) : ℝ :=
  (∑ e : Fin q, (dw e : ℂ) * (starRingEnd ℂ) (gw e) +
    ∑ e : Fin q, ∑ x, (if (e : ℕ) < maxGrad then dv e x else 0) * (starRingEnd ℂ) (gv e x)).re

end SQ
