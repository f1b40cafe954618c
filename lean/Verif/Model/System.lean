import Verif.Model.CircuitPhys
import Verif.Model.Ops
import Mathlib.LinearAlgebra.Matrix.NonsingularInverse

/-!
# systems.py: coupled circuits

Circuits are objects with identity (`CircId`). What a system reads of a circuit are its number of modes
`n`, its capacitance matrix `C` (over its nodes), `R` (also over all nodes: removing uncoupled modes
does not shrink it), `efreqs`, and the charge operators in the eigenbasis. Matrices over global indices are functions on ℕ × ℕ together with a size.
-/

namespace SQ
open Matrix

abbrev CircId := ℕ

/-- A diagonalized circuit as a system sees it. -/
structure SubCirc where
  /-- `circ.n`: number of modes (smaller than `nodes` if modes were removed) -/
  n : ℕ
  nodes : ℕ
  C : ℕ → ℕ → ℝ
  R : ℕ → ℕ → ℝ
  efreqs : List ℝ
  /-- `charge_op(mode, basis='eig')` for mode number `mode - 1` -/
  Q : ℕ → Matrix (Fin efreqs.length) (Fin efreqs.length) ℂ

/-- circuit.py:1831-1870 `charge_op(mode, basis='eig')` and the attributes of a circuit with operators
`mem`, eigenfrequencies `efreqs` and eigenvectors `vecs`. -/
noncomputable def Build.sub (b : Build) {d : Fin b.M.keep.length → ℕ} (mem : OpMem b.nJ d)
    (efreqs : List ℝ) (vecs : Fin efreqs.length → Idx d → ℂ) : SubCirc where
  n := b.M.keep.length
  nodes := b.n
  C := fun p q => if h : p < b.n ∧ q < b.n then b.C ⟨p, h.1⟩ ⟨q, h.2⟩ else 0
  R := fun p q => if h : p < b.n ∧ q < b.n then b.M.R ⟨p, h.1⟩ ⟨q, h.2⟩ else 0
  efreqs := efreqs
  Q := fun i => if h : i < b.M.keep.length then
      Matrix.of fun x y => star (vecs x) ⬝ᵥ (mem.Q ⟨i, h⟩ *ᵥ vecs y)
    else 0

/-- systems.py:21-52 `Couple`; `cap` is `some c` for a capacitor of value c, `none` for another
element. Simplification: nodes are integers (an edge as attribute raises a TypeError). -/
structure Couple where
  cr1 : CircId
  attr1 : ℤ
  cr2 : CircId
  attr2 : ℤ
  cap : Option ℝ

/-- systems.py:83-96 `_get_all_circuits`. -/
def getAllCircuits (cps : List Couple) : List CircId :=
  cps.foldl (fun acc cp =>
    [cp.cr1, cp.cr2].foldl (fun acc c => if acc.contains c then acc else acc ++ [c]) acc) []

/-- systems.py:98-107 `_get_all_circuits_num_eig`; `efreqs` of a circuit that is not diagonalized
raises CircuitStateError. -/
def numEigs (sub : CircId → SubCirc) : List CircId → Except PyErr (List ℕ)
  | [] => .ok []
  | c :: cs =>
    if (sub c).efreqs.length = 0 then .error .circuitState
    else match numEigs sub cs with
      | .error e => .error e
      | .ok l => .ok ((sub c).efreqs.length :: l)

/-- systems.py:120-126: number of nodes up to circuit `cr`. -/
def nodesBefore (sz : CircId → ℕ) (cr : CircId) : List CircId → ℕ
  | [] => 0
  | c :: cs => if c = cr then 0 else sz c + nodesBefore sz cr cs

/-- systems.py:109-127 `_node_idx_in_sys`. -/
def nodeIdxInSys (sz : CircId → ℕ) (cs : List CircId) (cr : CircId) (i : ℤ) : ℤ :=
  (nodesBefore sz cr cs : ℤ) + i - 1

/-- systems.py:148-156: the loop of `_node_idx_in_sub_sys`. -/
def subSysLoop (sz : CircId → ℕ) (all : List CircId) (i : ℤ) : List CircId → ℕ → ℤ × ℕ
  | [], _ => (0, 0)
  | c :: cs, N =>
    if i < (N : ℤ) + sz c then (i - N + 1, all.idxOf c) else subSysLoop sz all i cs (N + sz c)

/-- systems.py:129-158 `_node_idx_in_sub_sys`: node number in the circuit and index of the circuit. -/
def nodeIdxInSubSys (sz : CircId → ℕ) (cs : List CircId) (i : ℤ) : ℤ × ℕ := subSysLoop sz cs i cs 0

/-- functions.py:218-222 `block_diag` of square blocks (size, entries). -/
def blockDiag : List (ℕ × (ℕ → ℕ → ℝ)) → ℕ → ℕ → ℝ
  | [], _, _ => 0
  | (r, M) :: rest, p, q =>
    if p < r then (if q < r then M p q else 0)
    else if q < r then 0 else blockDiag rest (p - r) (q - r)

/-- systems.py:160-167 `_bare_cap_matrix`. -/
def bareCap (sub : CircId → SubCirc) (cs : List CircId) : ℕ → ℕ → ℝ :=
  blockDiag (cs.map (fun c => ((sub c).nodes, (sub c).C)))

/-- `C[i, j] += x` -/
def incAt (M : ℕ → ℕ → ℝ) (i j : ℕ) (x : ℝ) : ℕ → ℕ → ℝ :=
  fun p q => if p = i ∧ q = j then M p q + x else M p q

/-- number of rows of the system's capacitance matrix -/
def sysNodes (sub : CircId → SubCirc) (cs : List CircId) : ℕ := (cs.map (fun c => (sub c).nodes)).sum

/-- systems.py:174-185: one coupling. -/
def addCouple (sub : CircId → SubCirc) (cs : List CircId) (M : ℕ → ℕ → ℝ) (cp : Couple) :
    Except PyErr (ℕ → ℕ → ℝ) :=
  match cp.cap with
  | none => .ok M
  | some c =>
    match pyIdx (sysNodes sub cs) (nodeIdxInSys (fun c => (sub c).n) cs cp.cr1 cp.attr1) with
    | .error e => .error e
    | .ok i =>
      match pyIdx (sysNodes sub cs) (nodeIdxInSys (fun c => (sub c).n) cs cp.cr2 cp.attr2) with
      | .error e => .error e
      | .ok j => .ok (incAt (incAt (incAt (incAt M i i c) j j c) i j (-c)) j i (-c))

/-- the loop over couplings -/
def addCouples (sub : CircId → SubCirc) (cs : List CircId) :
    List Couple → (ℕ → ℕ → ℝ) → Except PyErr (ℕ → ℕ → ℝ)
  | [], M => .ok M
  | cp :: cps, M =>
    match addCouple sub cs M cp with
    | .error e => .error e
    | .ok M => addCouples sub cs cps M

/-- systems.py:169-187 `cap_matrix`. -/
def capMatrix (sub : CircId → SubCirc) (cps : List Couple) : Except PyErr (ℕ → ℕ → ℝ) :=
  addCouples sub (getAllCircuits cps) cps (bareCap sub (getAllCircuits cps))

/-! ### Operators -/

/-- dimensions of the subsystems (`trunc_nums`) -/
def sysDims (sub : CircId → SubCirc) (cs : List CircId) : Fin cs.length → ℕ :=
  fun s => (sub (cs.get s)).efreqs.length

/-- systems.py:189-211 `_op_in_sys`. -/
def opInSys {k : ℕ} {d : Fin k → ℕ} (s : Fin k) (A : Matrix (Fin (d s)) (Fin (d s)) ℂ) : Op d :=
  tens (fun i => if h : i = s then h ▸ A else 1)

/-- systems.py:213-252 `_op_times_op_in_sys`. -/
def opTimesOpInSys {k : ℕ} {d : Fin k → ℕ} (s : Fin k) (A : Matrix (Fin (d s)) (Fin (d s)) ℂ)
    (t : Fin k) (B : Matrix (Fin (d t)) (Fin (d t)) ℂ) : Op d :=
  if h : s = t then opInSys s (A * h ▸ B)
  else tens (fun i => if h : i = s then h ▸ A else if h : i = t then h ▸ B else 1)

/-- systems.py:266-270: `self.circuits[sub_idx].charge_op(node_in_subsys, basis='eig')`. -/
def subCharge (sub : CircId → SubCirc) (cs : List CircId) (s : Fin cs.length) (node : ℤ) :
    Matrix (Fin (sysDims sub cs s)) (Fin (sysDims sub cs s)) ℂ :=
  (sub (cs.get s)).Q (node - 1).toNat

/-- systems.py:266-273: the product for two pairs of node and subsystem; subsystem numbers outside the
list do not occur. -/
def chargeProduct (sub : CircId → SubCirc) (cs : List CircId) (a b : ℤ × ℕ) : Op (sysDims sub cs) :=
  if h : a.2 < cs.length ∧ b.2 < cs.length then
    opTimesOpInSys ⟨a.2, h.1⟩ (subCharge sub cs ⟨a.2, h.1⟩ a.1) ⟨b.2, h.2⟩ (subCharge sub cs ⟨b.2, h.2⟩ b.1)
  else 0

/-- systems.py:254-273 `_QQ_op`. -/
def sysQQ (sub : CircId → SubCirc) (cs : List CircId) (m n : ℕ) : Op (sysDims sub cs) :=
  chargeProduct sub cs (nodeIdxInSubSys (fun c => (sub c).n) cs m) (nodeIdxInSubSys (fun c => (sub c).n) cs n)

/-- overall number of modes `n_N` (systems.py:77) -/
def sysModes (sub : CircId → SubCirc) (cs : List CircId) : ℕ := (cs.map (fun c => (sub c).n)).sum

/-- systems.py:275-294 `_quadratic_Q`. -/
noncomputable def sysQuadQ (sub : CircId → SubCirc) (cs : List CircId) (A : ℕ → ℕ → ℝ) :
    Op (sysDims sub cs) :=
  ∑ i ∈ Finset.range (sysModes sub cs), ∑ j ∈ Finset.range (sysModes sub cs),
    if i = j then ((0.5 * A i i : ℝ) : ℂ) • sysQQ sub cs i j
    else if i < j then ((A i j : ℝ) : ℂ) • sysQQ sub cs i j
    else 0

/-- systems.py:296-307 `_H_local`. -/
noncomputable def hLocal (sub : CircId → SubCirc) (cs : List CircId) : Op (sysDims sub cs) :=
  ∑ s : Fin cs.length, opInSys (d := sysDims sub cs) s
    (diagonal (fun i => (((sub (cs.get s)).efreqs.get i : ℝ) : ℂ)))

/-- a global matrix of size `N` -/
def toMat (N : ℕ) (M : ℕ → ℕ → ℝ) : Matrix (Fin N) (Fin N) ℝ := Matrix.of fun p q => M p q

/-- systems.py:309-320: `R.T @ delta_C_inv @ R`. -/
noncomputable def transCoef {N : ℕ} (R : ℕ → ℕ → ℝ) (D : Matrix (Fin N) (Fin N) ℝ) : ℕ → ℕ → ℝ :=
  fun a b => ∑ p : Fin N, ∑ q : Fin N, R p a * D p q * R q b

/-- systems.py:309-320 `_H_int`. -/
noncomputable def hInt (sub : CircId → SubCirc) (cps : List Couple) (unitFreq : ℝ) :
    Except PyErr (Op (sysDims sub (getAllCircuits cps))) :=
  let cs := getAllCircuits cps
  match capMatrix sub cps with
  | .error e => .error e
  | .ok C =>
    match npInv (toMat (sysNodes sub cs) C) with
    | .error e => .error e
    | .ok Ci =>
      match npInv (toMat (sysNodes sub cs) (bareCap sub cs)) with
      | .error e => .error e
      | .ok C0i =>
        let R := blockDiag (cs.map (fun c => ((sub c).nodes, (sub c).R)))
        .ok (((1 / (2 * Real.pi * unitFreq) : ℝ) : ℂ) • sysQuadQ sub cs (transCoef R (Ci - C0i)))

/-- systems.py:322-328 `hamiltonian`. -/
noncomputable def sysHamiltonian (sub : CircId → SubCirc) (cps : List Couple) (unitFreq : ℝ) :
    Except PyErr (Op (sysDims sub (getAllCircuits cps))) :=
  (hInt sub cps unitFreq).map (fun h => hLocal sub (getAllCircuits cps) + h)

/-! ### `tensor_product_torch` -/

/-- `torch.kron` of square matrices given by size and entries. -/
def kron2 (A B : ℕ × (ℕ → ℕ → ℂ)) : ℕ × (ℕ → ℕ → ℂ) :=
  (A.1 * B.1, fun p q => A.2 (p / B.1) (q / B.1) * B.2 (p % B.1) (q % B.1))

/-- functions.py:255-265 `tensor_product_torch` (without arguments Python raises an
UnboundLocalError). -/
def tensorProductTorch : List (ℕ × (ℕ → ℕ → ℂ)) → Except PyErr (ℕ × (ℕ → ℕ → ℂ))
  | [] => .error .attributeError
  | A :: ops => .ok (ops.foldl kron2 A)

end SQ
