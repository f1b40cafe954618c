import Verif.Model.Coupling
import Mathlib.Analysis.Normed.Algebra.MatrixExponential
import Mathlib.Analysis.Complex.Basic

/-!
# circuit.py, part 4: operators and Hamiltonian

The Hilbert space of modes with dimensions `m i` has basis `Idx m` (one index per mode), and
operators are complex matrices over it; `qutip.tensor` is `tens`.  The flattening of `Idx m` to the
row-major index of the Kronecker product is in `Model/Index.lean`.

* QuTiP's `charge`, `destroy`, `create`, `num`, `qeye`, `displace` are modelled by their definitions
  (`displace` is the exact matrix exponential of the truncated generator).
* `_squeeze_op` (circuit.py:1433-1453) changes the tensor structure recorded with an operator, not its
  matrix: identity here.
* Sparse storage formats are ignored. Arithmetic is exact.
-/

namespace SQ
open Matrix Complex

/-- What the operators are built from: transformed inverse capacitance, susceptance and W matrices
and the frequencies of the `k` (retained) modes. -/
structure ModeData (nJ k : ℕ) where
  cInv : Matrix (Fin k) (Fin k) ℝ
  l : Matrix (Fin k) (Fin k) ℝ
  w : Matrix (Fin nJ) (Fin k) ℝ
  omega : Fin k → ℝ

/-- the mode data of a constructed circuit -/
def Modes.data {nJ n : ℕ} (M : Modes nJ n) : ModeData nJ M.keep.length :=
  ⟨M.cInv, M.l, M.w, M.omega⟩

variable {nJ k : ℕ}

/-- basis of the tensor product -/
abbrev Idx (m : Fin k → ℕ) := ∀ i, Fin (m i)

/-- operators on the tensor product -/
abbrev Op (m : Fin k → ℕ) := Matrix (Idx m) (Idx m) ℂ

/-- one operator per mode -/
abbrev Factors (m : Fin k → ℕ) := ∀ i, Matrix (Fin (m i)) (Fin (m i)) ℂ

/-- `qutip.tensor(*ops)` -/
def tens {m : Fin k → ℕ} (ops : Factors m) : Op m :=
  Matrix.of fun x y => ∏ i, ops i (x i) (y i)

/-! ### QuTiP operators of one mode -/

/-- `qutip.charge((N - 1) / 2)`: diagonal -(N-1)/2, …, (N-1)/2. -/
noncomputable def qCharge (N : ℕ) : Matrix (Fin N) (Fin N) ℂ :=
  diagonal (fun i => (i : ℂ) - ((N : ℂ) - 1) / 2)

/-- `qutip.destroy(N)` -/
noncomputable def qDestroy (N : ℕ) : Matrix (Fin N) (Fin N) ℂ :=
  Matrix.of fun i j => if (i : ℕ) + 1 = j then ((√(j : ℕ) : ℝ) : ℂ) else 0

/-- `qutip.create(N)` -/
noncomputable def qCreate (N : ℕ) : Matrix (Fin N) (Fin N) ℂ := (qDestroy N)ᴴ

/-- `qutip.num(N)` -/
def qNum (N : ℕ) : Matrix (Fin N) (Fin N) ℂ := diagonal (fun i => ((i : ℕ) : ℂ))

/-- `qutip.displace(N, alpha)` -/
noncomputable def qDisplace (N : ℕ) (alpha : ℂ) : Matrix (Fin N) (Fin N) ℂ :=
  NormedSpace.exp (alpha • qCreate N - (starRingEnd ℂ alpha) • qDestroy N)

/-! ### isolated mode operators -/

/-- circuit.py:1455-1469 `_impedance`. -/
noncomputable def ModeData.impedance (D : ModeData nJ k) (i : Fin k) : ℝ :=
  √(D.cInv i i / D.l i i)

/-- circuit.py:1471-1497 `_charge_op_isolated`; `ng` are the values of the charge islands. -/
noncomputable def chargeOpIso (D : ModeData nJ k) (m : Fin k → ℕ) (ng : Fin k → ℝ) (i : Fin k) :
    Matrix (Fin (m i)) (Fin (m i)) ℂ :=
  open Classical in
  if D.omega i = 0 then
    ((2 * eCharge / √hbar : ℝ) : ℂ) • (qCharge (m i) - ((ng i : ℝ) : ℂ) • 1)
  else if m i = 1 then 0
  else (-I * ((√(0.5 / D.impedance i) : ℝ) : ℂ)) • (qDestroy (m i) - qCreate (m i))

/-- circuit.py:1499-1525 `_flux_op_isolated`. -/
noncomputable def fluxOpIso (D : ModeData nJ k) (m : Fin k → ℕ) (i : Fin k) :
    Matrix (Fin (m i)) (Fin (m i)) ℂ :=
  open Classical in
  if D.omega i = 0 then 1
  else if m i = 1 then 0
  else ((√(0.5 * D.impedance i) : ℝ) : ℂ) • (qDestroy (m i) + qCreate (m i))

/-- circuit.py:1527-1547 `_num_op_isolated`. -/
noncomputable def numOpIso (D : ModeData nJ k) (m : Fin k → ℕ) (i : Fin k) :
    Matrix (Fin (m i)) (Fin (m i)) ℂ :=
  open Classical in
  if D.omega i = 0 then qCharge (m i) else qNum (m i)

/-- circuit.py:1549-1583 `_d_op_isolated`. -/
noncomputable def dOp (N : ℕ) (w : ℝ) : Matrix (Fin N) (Fin N) ℂ :=
  open Classical in
  if w = 0 then 1
  else
    let d : Matrix (Fin N) (Fin N) ℂ := Matrix.of fun r c => if (c : ℤ) - 1 = r then 1 else 0
    if w < 0 then d else dᴴ

/-- circuit.py:1585-1601 `_phi_zp`. -/
noncomputable def ModeData.phiZp (D : ModeData nJ k) (i : Fin k) : ℝ :=
  (2 * Real.pi / Phi0) * √(hbar / 2 * D.impedance i)

/-- circuit.py:1603-1619 `alpha`. -/
noncomputable def ModeData.alpha (D : ModeData nJ k) (i : Fin nJ) (j : Fin k) : ℂ :=
  I * (D.phiZp j : ℂ) * (D.w i j : ℂ)

/-! ### operator memory -/

/-- The stored operators (`_memory_ops`, circuit.py:365-376), `QQ[i]` being a list whose entry `d`
belongs to modes `i` and `i + d`. -/
structure OpMem (nJ : ℕ) {k : ℕ} (m : Fin k → ℕ) where
  Q : Fin k → Op m
  QQ : Fin k → List (Op m)
  phi : Fin k → Op m
  N : Fin k → Op m
  exp : Fin nJ → Op m
  rootExp : Fin nJ → Op m

/-- State of the inner loop of `_build_op_memory` (circuit.py:1634-1660). The Python lists of factors
are kept as one factor per mode, those not yet appended being `qeye`: appending at position `j` is
`Function.update _ j`, and "append the rest with qeye" needs no action. -/
structure RowSt (m : Fin k → ℕ) where
  q : Factors m
  num : Factors m
  flux : Factors m
  row : List (Op m)

/-- circuit.py:1640-1660: body of the inner loop of `_build_op_memory`. -/
noncomputable def rowStep (D : ModeData nJ k) (m : Fin k → ℕ) (ng : Fin k → ℝ) (i : Fin k)
    (st : RowSt m) (j : Fin k) : RowSt m :=
  if i = j then
    let Qiso := chargeOpIso D m ng j
    { row := st.row ++ [tens (Function.update st.q j (Qiso * Qiso))]
      q := Function.update st.q j Qiso
      num := Function.update st.num j (numOpIso D m j)
      flux := Function.update st.flux j (fluxOpIso D m j) }
  else
    { row := if i < j then st.row ++ [tens (Function.update st.q j (chargeOpIso D m ng j))]
             else st.row
      q := Function.update st.q j 1
      num := Function.update st.num j 1
      flux := Function.update st.flux j 1 }

/-- circuit.py:1632-1665: one iteration of the outer loop of `_build_op_memory`. -/
noncomputable def memRow (D : ModeData nJ k) (m : Fin k → ℕ) (ng : Fin k → ℝ) (i : Fin k) : RowSt m :=
  (List.finRange k).foldl (rowStep D m ng i) ⟨fun _ => 1, fun _ => 1, fun _ => 1, []⟩

/-- circuit.py:1695-1706: the exponential factor of junction `i` in mode `j`. -/
noncomputable def expFactor (D : ModeData nJ k) (m : Fin k → ℕ) (i : Fin nJ) (j : Fin k) :
    Matrix (Fin (m j)) (Fin (m j)) ℂ :=
  open Classical in
  if D.omega j = 0 then dOp (m j) (D.w i j)
  else if m j = 1 then 1
  else qDisplace (m j) (D.alpha i j)

/-- circuit.py:1695-1706: the factor of the square root of the exponential. -/
noncomputable def rootExpFactor (D : ModeData nJ k) (m : Fin k → ℕ) (i : Fin nJ) (j : Fin k) :
    Matrix (Fin (m j)) (Fin (m j)) ℂ :=
  open Classical in
  if D.omega j = 0 then 1
  else if m j = 1 then 1
  else qDisplace (m j) (D.alpha i j / 2)

/-- circuit.py:1621-1671 `_build_op_memory` and 1673-1714 `_build_exp_ops`. -/
noncomputable def buildMem (D : ModeData nJ k) (m : Fin k → ℕ) (ng : Fin k → ℝ) : OpMem nJ m where
  Q := fun i => tens (memRow D m ng i).q
  QQ := fun i => (memRow D m ng i).row
  phi := fun i => tens (memRow D m ng i).flux
  N := fun i => tens (memRow D m ng i).num
  exp := fun i => tens (expFactor D m i)
  rootExp := fun i => tens (rootExpFactor D m i)

/-! ### LC Hamiltonian -/

/-- circuit.py:1716-1729 `_get_quadratic_cInvTrans`. -/
noncomputable def quadCInv (A : Matrix (Fin k) (Fin k) ℝ) : Matrix (Fin k) (Fin k) ℝ :=
  Matrix.of fun i j => if i = j then A i j / 2 else A i j

/-- circuit.py:1742-1755: the terms added for one pair (i, i+d). -/
noncomputable def lcTerm {m : Fin k → ℕ} (D : ModeData nJ k) (mem : OpMem nJ m) (i : Fin k)
    (acc : Op m) (d : ℕ) : Op m :=
  open Classical in
  if h : (i : ℕ) + d < k then
    if d = 0 then
      if D.omega i = 0 then acc + ((quadCInv D.cInv i i : ℝ) : ℂ) • (mem.QQ i).getD d 0
      else acc + ((D.omega i : ℝ) : ℂ) • mem.N i
    else
      if D.cInv i ⟨i + d, h⟩ ≠ 0 then
        acc + ((quadCInv D.cInv i ⟨i + d, h⟩ : ℝ) : ℂ) • (mem.QQ i).getD d 0
      else acc
  else acc

/-- circuit.py:1731-1757 `_get_LC_hamil`. -/
noncomputable def lcHamil {m : Fin k → ℕ} (D : ModeData nJ k) (mem : OpMem nJ m) : Op m :=
  (List.finRange k).foldl (fun acc (i : Fin k) => (List.range (k - (i : ℕ))).foldl (lcTerm D mem i) acc) 0

/-- circuit.py:2649-2672 `_get_quadratic_Q`. -/
noncomputable def quadraticQ {m : Fin k → ℕ} (mem : OpMem nJ m) (A : Matrix (Fin k) (Fin k) ℝ) :
    Op m :=
  (List.finRange k).foldl (fun acc (i : Fin k) => (List.range (k - (i : ℕ))).foldl (fun acc d =>
    if h : (i : ℕ) + d < k then
      if d = 0 then acc + ((0.5 * A i ⟨i + d, h⟩ : ℝ) : ℂ) • (mem.QQ i).getD d 0
      else acc + ((A i ⟨i + d, h⟩ : ℝ) : ℂ) • (mem.QQ i).getD d 0
    else acc) acc) 0

/-- circuit.py:2674-2702 `_get_quadratic_phi` (`len(self.omega != 0)` is the number of modes). -/
noncomputable def quadraticPhi {m : Fin k → ℕ} (mem : OpMem nJ m) (A : Matrix (Fin k) (Fin k) ℝ) :
    Op m :=
  (List.finRange k).foldl (fun acc i => (List.finRange k).foldl (fun acc j =>
    if i = j then acc + ((0.5 * A i i : ℝ) : ℂ) • (mem.phi i * mem.phi i)
    else if i < j then acc + ((A i j : ℝ) : ℂ) • (mem.phi i * mem.phi j)
    else acc) acc) 0

/-! ### inductive Hamiltonian -/

/-- key of an inductor: edge, element, branch number (`elem_keys[Inductor]`) -/
structure IndKey (b : ℕ) where
  edge : Edge
  el : ElemId
  bId : Fin b

/-- key of a junction: edge, element, branch number, row of W (`elem_keys[Junction]`) -/
structure JunKey (b nJ : ℕ) where
  edge : Edge
  el : ElemId
  bId : Fin b
  wId : Fin nJ

/-- `np.exp(1j * phi)` -/
noncomputable def phase (phi : ℝ) : ℂ := Complex.exp (I * phi)

/-- circuit.py:1814-1818: the cosine operator of a junction. -/
noncomputable def cosOp {m : Fin k → ℕ} (mem : OpMem nJ m) (w : Fin nJ) (phi : ℝ) : Op m :=
  (1 / 2 : ℂ) • (phase phi • mem.exp w + (phase phi • mem.exp w)ᴴ)

/-- circuit.py:1814-1819: the sine operator. -/
noncomputable def sinOp {m : Fin k → ℕ} (mem : OpMem nJ m) (w : Fin nJ) (phi : ℝ) : Op m :=
  (1 / (2 * I) : ℂ) • (phase phi • mem.exp w - (phase phi • mem.exp w)ᴴ)

/-- circuit.py:1815-1820: the half-angle sine operator. -/
noncomputable def sinHalfOp {m : Fin k → ℕ} (mem : OpMem nJ m) (w : Fin nJ) (phi : ℝ) : Op m :=
  (1 / (2 * I) : ℂ) • (phase (phi / 2) • mem.rootExp w - (phase (phi / 2) • mem.rootExp w)ᴴ)

/-- circuit.py:1796-1807: the terms of the inductors. `val` are the element values
(`el.get_value()`), `phi` the external flux at each branch. -/
noncomputable def indTerms {n b : ℕ} (C : Matrix (Fin n) (Fin n) ℝ) (M : Modes nJ n)
    {m : Fin M.keep.length → ℕ} (mem : OpMem nJ m) (val : ElemId → ℝ) (phi : Fin b → ℝ) :
    List (IndKey b) → Op m → Except PyErr (Op m)
  | [], acc => .ok acc
  | key :: ks, acc =>
    match couplingOp "inductive" C M mem.Q mem.phi key.edge with
    | .error e => .error e
    | .ok op =>
      indTerms C M mem val phi ks
        (acc + ((1 / val key.el * phi key.bId * (Phi0 / 2 / Real.pi) / √hbar : ℝ) : ℂ) • op)

/-- circuit.py:1808-1827: the terms of the junctions. -/
noncomputable def junTerms {b : ℕ} {m : Fin k → ℕ} (mem : OpMem nJ m) (val : ElemId → ℝ)
    (phi : Fin b → ℝ) (keys : List (JunKey b nJ)) (acc : Op m) : Op m :=
  keys.foldl (fun acc key =>
    acc + (-(val key.el : ℂ)) • cosOp mem key.wId (phi key.bId)) acc

/-- circuit.py:1788-1829 `_get_inductive_hamil` (the returned operator). -/
noncomputable def indHamil {n b : ℕ} (C : Matrix (Fin n) (Fin n) ℝ) (M : Modes nJ n)
    {m : Fin M.keep.length → ℕ} (mem : OpMem nJ m) (val : ElemId → ℝ) (phi : Fin b → ℝ)
    (inds : List (IndKey b)) (juns : List (JunKey b nJ)) : Except PyErr (Op m) :=
  match indTerms C M mem val phi inds 0 with
  | .error e => .error e
  | .ok H => .ok (junTerms mem val phi juns H)

/-- circuit.py:2147-2164 `hamiltonian`, given the stored operators and LC part. -/
noncomputable def hamiltonianOf {n b : ℕ} (C : Matrix (Fin n) (Fin n) ℝ) (M : Modes nJ n)
    {m : Fin M.keep.length → ℕ} (mem : OpMem nJ m) (lc : Op m) (val : ElemId → ℝ) (phi : Fin b → ℝ)
    (inds : List (IndKey b)) (juns : List (JunKey b nJ)) : Except PyErr (Op m) :=
  match indHamil C M mem val phi inds juns with
  | .error e => .error e
  | .ok H => .ok (H + lc)

/-- The Hamiltonian of a circuit with the given truncation dimensions, charge offsets, element
values and branch fluxes. -/
noncomputable def fullHamiltonian {n b : ℕ} (C : Matrix (Fin n) (Fin n) ℝ) (M : Modes nJ n)
    (m : Fin M.keep.length → ℕ) (ng : Fin M.keep.length → ℝ) (val : ElemId → ℝ) (phi : Fin b → ℝ)
    (inds : List (IndKey b)) (juns : List (JunKey b nJ)) : Except PyErr (Op m) :=
  let mem := buildMem M.data m ng
  hamiltonianOf C M mem (lcHamil M.data mem) val phi inds juns

end SQ
