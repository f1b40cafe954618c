import Verif.Model.Shared
import Verif.Model.System
import Verif.Model.Readers

/-!
# systems.py: a `System` object in a program

A `System` keeps its list of circuits, the overall number of modes and the numbers of eigenvalues as they were when it was
constructed. Everything else (capacitance matrices, `R`, eigenfrequencies, charge operators, coupling capacitances, the unit) is
read from the circuits and elements when `hamiltonian()` is called. Model of the NumPy engine, where operators carry the
dimensions of their factors.
-/

namespace SQ
open Matrix

/-- systems.py:21-52 `Couple`: the objects of a coupling. Simplification: nodes are integers, as in `Couple`. -/
structure CoupleObj where
  cr1 : CircId
  attr1 : ℤ
  cr2 : CircId
  attr2 : ℤ
  el : ElemId

/-- systems.py:174-185: what `cap_matrix` reads of a coupling, the value of a capacitor being the present one -/
def CoupleObj.now (O : Objs) (vals : ElemId → ℝ) (g : CoupleObj) : Couple :=
  ⟨g.cr1, g.attr1, g.cr2, g.attr2, if (O.elem g.el).kind = .cap then some (vals g.el) else none⟩

/-- systems.py:65-81: the attributes of a `System` -/
structure SysObj where
  couplings : List CoupleObj
  circuits : List CircId
  nN : ℕ
  trunc : List ℕ

section
variable {c : CircId → CircSpec} {eigs : EigsRoutine} {as : List ℂ → List ℕ}

/-- circuit.py:1831-1875 `charge_op(node, basis='eig')` of circuit `i` -/
noncomputable def chargeNow (b : Bench c eigs as) (i : CircId) (node : ℤ) :
    Except PyErr (Σ q : ℕ, Matrix (Fin q) (Fin q) ℂ) :=
  match b.view i with
  | none => .error .keyError
  | some w =>
    match chargeOp w node "eig" with
    | .error e => .error e
    | .ok (.op _) => .error .typeError
    | .ok (.eig q A) => .ok ⟨q, A⟩

/-- What a system reads of circuit `i` in state `w`: `n`, `C`, `R`, `efreqs` (circuit.py:464-472, in the present unit; empty if
they raise CircuitStateError) and the charge operators in the eigenbasis (0 where `charge_op` fails or has another size; see
`qqNow` for the exceptions). -/
noncomputable def subOf (b : Bench c eigs as) (i : CircId) (w : World (circPhys (c i) eigs as)) : SubCirc :=
  let bd : Build := w.circ.bd
  { n := bd.M.keep.length
    nodes := bd.n
    C := fun p q => if h : p < bd.n ∧ q < bd.n then bd.C ⟨p, h.1⟩ ⟨q, h.2⟩ else 0
    R := fun p q => if h : p < bd.n ∧ q < bd.n then bd.M.R ⟨p, h.1⟩ ⟨q, h.2⟩ else 0
    efreqs := w.circ.efreqs.map (fun f => f / (2 * Real.pi * w.unitFreq))
    Q := fun j => match chargeNow b i ((j : ℤ) + 1) with
      | .error _ => 0
      | .ok A => if h : (w.circ.efreqs.map (fun f => f / (2 * Real.pi * w.unitFreq))).length = A.1
        then A.2.submatrix (Fin.cast h) (Fin.cast h) else 0 }

/-- What a system reads of circuit `i` in the present state of the program (nothing if it was not constructed). -/
noncomputable def subNow (b : Bench c eigs as) (i : CircId) : SubCirc :=
  match b.view i with
  | none => ⟨0, 0, 0, 0, [], 0⟩
  | some w => subOf b i w

/-- systems.py:65-107: `System(couplings)` -/
noncomputable def sysNew (O : Objs) (b : Bench c eigs as) (cps : List CoupleObj) : Except PyErr SysObj :=
  let cs := getAllCircuits (cps.map (CoupleObj.now O b.vals))
  match numEigs (subNow b) cs with
  | .error e => .error e
  | .ok l => .ok ⟨cps, cs, sysModes (subNow b) cs, l⟩

/-- an operator with the dimensions of its factors (`Qobj.dims`) -/
abbrev SysOp (k : ℕ) := Σ d : Fin k → ℕ, Op d

/-- qutip `A + B`: operators of different dimensions raise a `TypeError` -/
noncomputable def addQobj {k : ℕ} (A B : SysOp k) : Except PyErr (SysOp k) :=
  open Classical in if h : B.1 = A.1 then .ok ⟨A.1, A.2 + h ▸ B.2⟩ else .error .typeError

/-- `op += term`, `op` being 0 (`none`) at first -/
noncomputable def addTerm {k : ℕ} (acc : Option (SysOp k)) (B : SysOp k) : Except PyErr (Option (SysOp k)) :=
  match acc with
  | none => .ok (some B)
  | some A => (addQobj A B).map some

/-- the stored numbers of eigenvalues -/
def SysObj.dims (S : SysObj) : Fin S.circuits.length → ℕ := fun s => S.trunc.getD s 0

/-- systems.py:189-211 `_op_in_sys`: factor `s` has the size of the operator, the others the stored sizes. -/
def opAt {k : ℕ} (t : Fin k → ℕ) (s : Fin k) (A : Σ q : ℕ, Matrix (Fin q) (Fin q) ℂ) : SysOp k :=
  ⟨Function.update t s A.1, opInSys s (A.2.submatrix (Fin.cast (by simp)) (Fin.cast (by simp)))⟩

/-- systems.py:213-252 `_op_times_op_in_sys`; multiplying operators of different sizes raises a `TypeError`. -/
def opsAt {k : ℕ} (t : Fin k → ℕ) (s : Fin k) (A : Σ q : ℕ, Matrix (Fin q) (Fin q) ℂ) (r : Fin k)
    (B : Σ q : ℕ, Matrix (Fin q) (Fin q) ℂ) : Except PyErr (SysOp k) :=
  if hs : s = r then
    if h : A.1 = B.1 then .ok (opAt t s ⟨A.1, A.2 * B.2.submatrix (Fin.cast h) (Fin.cast h)⟩) else .error .typeError
  else
    .ok ⟨Function.update (Function.update t s A.1) r B.1,
      opTimesOpInSys s (A.2.submatrix (Fin.cast (by rw [Function.update_of_ne hs]; simp))
          (Fin.cast (by rw [Function.update_of_ne hs]; simp)))
        r (B.2.submatrix (Fin.cast (by simp)) (Fin.cast (by simp)))⟩

/-- systems.py:254-273 `_QQ_op`; the subsystem number is in the list unless the list is empty. -/
noncomputable def qqNow (b : Bench c eigs as) (S : SysObj) (m n : ℕ) : Except PyErr (SysOp S.circuits.length) :=
  let x := nodeIdxInSubSys (fun i => (subNow b i).n) S.circuits m
  let y := nodeIdxInSubSys (fun i => (subNow b i).n) S.circuits n
  if h : x.2 < S.circuits.length ∧ y.2 < S.circuits.length then
    match chargeNow b (S.circuits.get ⟨x.2, h.1⟩) x.1 with
    | .error e => .error e
    | .ok A =>
      match chargeNow b (S.circuits.get ⟨y.2, h.2⟩) y.1 with
      | .error e => .error e
      | .ok B => opsAt S.dims ⟨x.2, h.1⟩ A ⟨y.2, h.2⟩ B
  else .error .indexError

/-- systems.py:285-292: one term of the loop of `_quadratic_Q` -/
noncomputable def quadStep (b : Bench c eigs as) (S : SysObj) (A : ℕ → ℕ → ℝ) (acc : Option (SysOp S.circuits.length))
    (p : ℕ × ℕ) : Except PyErr (Option (SysOp S.circuits.length)) :=
  if p.1 = p.2 then
    match qqNow b S p.1 p.2 with
    | .error e => .error e
    | .ok q => addTerm acc ⟨q.1, ((0.5 * A p.1 p.1 : ℝ) : ℂ) • q.2⟩
  else if p.1 < p.2 then
    match qqNow b S p.1 p.2 with
    | .error e => .error e
    | .ok q => addTerm acc ⟨q.1, ((A p.1 p.2 : ℝ) : ℂ) • q.2⟩
  else .ok acc

/-- systems.py:275-294 `_quadratic_Q` with the stored number of modes `n_N`; `none` is the number 0. -/
noncomputable def quadNow (b : Bench c eigs as) (S : SysObj) (A : ℕ → ℕ → ℝ) :
    Except PyErr (Option (SysOp S.circuits.length)) :=
  ((List.range S.nN).flatMap fun i => (List.range S.nN).map fun j => (i, j)).foldlM (quadStep b S A) none

/-- systems.py:303-305: one term of the loop of `_H_local` -/
noncomputable def localStep (b : Bench c eigs as) (S : SysObj) (acc : Option (SysOp S.circuits.length))
    (s : Fin S.circuits.length) : Except PyErr (Option (SysOp S.circuits.length)) :=
  if (subNow b (S.circuits.get s)).efreqs.length = 0 then .error .circuitState
  else addTerm acc (opAt S.dims s
    ⟨(subNow b (S.circuits.get s)).efreqs.length, diagonal fun i => (((subNow b (S.circuits.get s)).efreqs.get i : ℝ) : ℂ)⟩)

/-- systems.py:296-307 `_H_local` -/
noncomputable def localNow (b : Bench c eigs as) (S : SysObj) : Except PyErr (Option (SysOp S.circuits.length)) :=
  (List.finRange S.circuits.length).foldlM (localStep b S) none

/-- systems.py:309-320 `_H_int` -/
noncomputable def intNow (O : Objs) (b : Bench c eigs as) (S : SysObj) :
    Except PyErr (Option (SysOp S.circuits.length)) :=
  let sub := subNow b
  match addCouples sub S.circuits (S.couplings.map (CoupleObj.now O b.vals)) (bareCap sub S.circuits) with
  | .error e => .error e
  | .ok C =>
    match npInv (toMat (sysNodes sub S.circuits) C) with
    | .error e => .error e
    | .ok Ci =>
      match npInv (toMat (sysNodes sub S.circuits) (bareCap sub S.circuits)) with
      | .error e => .error e
      | .ok C0i =>
        let R := blockDiag (S.circuits.map (fun i => ((sub i).nodes, (sub i).R)))
        match quadNow b S (transCoef R (Ci - C0i)) with
        | .error e => .error e
        | .ok none => .ok none
        | .ok (some q) => .ok (some ⟨q.1, ((1 / (2 * Real.pi * b.unitFreq) : ℝ) : ℂ) • q.2⟩)

/-- systems.py:322-328 `hamiltonian` of a `System` in the present state of the program. Without circuits the inverse of an empty
block raises `LinAlgError`. -/
noncomputable def sysHamNow (O : Objs) (b : Bench c eigs as) (S : SysObj) : Except PyErr (SysOp S.circuits.length) :=
  match localNow b S with
  | .error e => .error e
  | .ok loc =>
    match intNow O b S with
    | .error e => .error e
    | .ok int =>
      match loc, int with
      | none, _ => .error .linAlg
      | some A, none => .ok A
      | some A, some B => addQobj A B

end
end SQ
