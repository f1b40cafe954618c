import Verif.Model.Py
import Mathlib.LinearAlgebra.Matrix.ConjTranspose
import Mathlib.Data.Complex.Basic

/-!
# functions.py: matrices under both engines

Values are QuTiP objects (compressed rows, diagonals or dense), PyTorch tensors (dense or coordinate
lists, one or two axes) and NumPy arrays, all of complex numbers. Library products, transposes and
conjugates are taken to be those of the represented matrices; conversions between storage formats,
the choice of the operation and the order of its arguments are modelled as written.
-/

namespace SQ
open Matrix

/-- Storage of a QuTiP object: `CSR` (the stored entries of each row, possibly with repeated columns),
`Dia` (offset and, for every column, the entry of that diagonal in that column; entries that fall
outside the matrix are ignored), `Dense`, or another registered type. -/
inductive QData (r c : ℕ)
  | csr (rows : Fin r → List (Fin c × ℂ))
  | dia (diags : List (ℤ × (Fin c → ℂ)))
  | dense (M : Matrix (Fin r) (Fin c) ℂ)
  | other (M : Matrix (Fin r) (Fin c) ℂ)

/-- Storage of a PyTorch tensor with two axes: strided, or a list of coordinates and values (repeated
coordinates are added). -/
inductive TData (r c : ℕ)
  | strided (M : Matrix (Fin r) (Fin c) ℂ)
  | coo (entries : List (Fin r × Fin c × ℂ))

variable {r c k : ℕ}

/-- `scipy.sparse.csr_matrix.tocoo`: the stored entries row by row. -/
def csrToCoo (rows : Fin r → List (Fin c × ℂ)) : List (Fin r × Fin c × ℂ) :=
  (List.finRange r).flatMap fun i => (rows i).map fun e => (i, e.1, e.2)

/-- `scipy.sparse.dia_matrix.tocoo`: for every diagonal and column `j` the entry at `(j - offset, j)`, if
that is a row of the matrix and the entry is not zero. -/
noncomputable def diaToCoo (diags : List (ℤ × (Fin c → ℂ))) : List (Fin r × Fin c × ℂ) :=
  diags.flatMap fun d => (List.finRange c).filterMap fun j : Fin c =>
    open Classical in
    if h : 0 ≤ ((j : ℕ) : ℤ) - d.1 ∧ ((j : ℕ) : ℤ) - d.1 < r ∧ d.2 j ≠ 0 then
      some (⟨(((j : ℕ) : ℤ) - d.1).toNat, by omega⟩, j, d.2 j)
    else none

/-- the matrix of a coordinate list -/
def cooMat (l : List (Fin r × Fin c × ℂ)) : Matrix (Fin r) (Fin c) ℂ :=
  Matrix.of fun i j => (l.map fun e => if e.1 = i ∧ e.2.1 = j then e.2.2 else 0).sum

/-- the matrix a QuTiP object stands for (`full()`) -/
noncomputable def QData.mat : QData r c → Matrix (Fin r) (Fin c) ℂ
  | .csr rows => Matrix.of fun i j => ((rows i).map fun e => if e.1 = j then e.2 else 0).sum
  | .dia diags => Matrix.of fun i j => (diags.map fun d => if ((j : ℕ) : ℤ) - d.1 = ((i : ℕ) : ℤ) then d.2 j else 0).sum
  | .dense M => M
  | .other M => M

/-- the matrix a tensor stands for (`to_dense()`) -/
def TData.mat : TData r c → Matrix (Fin r) (Fin c) ℂ
  | .strided M => M
  | .coo l => cooMat l

/-- `t.is_sparse` -/
def TData.isSparse : TData r c → Bool
  | .strided _ => false
  | .coo _ => true

/-- functions.py:386-411 `qobj_to_tensor`. -/
noncomputable def qobjToTensor (q : QData r c) : Except PyErr (TData r c) :=
  match q with
  | .csr rows => .ok (.coo (csrToCoo rows))
  | .dia diags => .ok (.coo (diaToCoo diags))
  | .dense M => .ok (.strided M)
  | .other _ => .error .valueError

/-- The values `mat_mul` and `dag` are called with. -/
inductive MVal
  | qobj (r c : ℕ) (q : QData r c)
  | tensor (r c : ℕ) (t : TData r c)
  | tensor1 (n : ℕ) (v : Fin n → ℂ)
  | nd (r c : ℕ) (M : Matrix (Fin r) (Fin c) ℂ)
  | nd1 (n : ℕ) (v : Fin n → ℂ)

/-- Product of library objects: of the matrices if the inner dimensions agree, an exception otherwise
(`TypeError` for QuTiP, `RuntimeError` for PyTorch, `ValueError` for NumPy). -/
noncomputable def libMul {r c r' c' : ℕ} (e : PyErr) (A : Matrix (Fin r) (Fin c) ℂ) (B : Matrix (Fin r') (Fin c') ℂ) :
    Except PyErr (Matrix (Fin r) (Fin c') ℂ) :=
  if h : r' = c then .ok (A * B.submatrix (Fin.cast h.symm) id) else .error e

/-- functions.py:363-368 `dense` (the matrix obtained; `None` stands for values with one axis). -/
noncomputable def MVal.dense : MVal → Option (Σ (r c : ℕ), Matrix (Fin r) (Fin c) ℂ)
  | .qobj r c q => some ⟨r, c, q.mat⟩
  | .tensor r c t => some ⟨r, c, t.mat⟩
  | .nd r c M => some ⟨r, c, M⟩
  | _ => none

/-- a computed matrix wrapped as strided tensor / array / dense QuTiP object -/
def wrapT {r c : ℕ} (x : Except PyErr (Matrix (Fin r) (Fin c) ℂ)) : Except PyErr MVal :=
  x.map fun M => .tensor r c (.strided M)

/-- functions.py:274-295 `mat_mul` (for values with two axes; products with one-axis values, which the
library functions treat by their own rules, are not modelled: `TypeError`). The result of a product of
two sparse tensors is stored as sparse by PyTorch; the model keeps the matrix only. Which combinations of
layouts `torch.sparse.mm` accepts is not modelled: it is taken to accept all. -/
noncomputable def matMul (optim : Bool) (A B : MVal) : Except PyErr MVal :=
  if optim then
    match A, B with
    | .tensor _ _ a, .tensor _ _ b => wrapT (libMul .runtimeError a.mat b.mat)
    | .tensor _ _ a, .qobj _ _ q =>
      match qobjToTensor q with
      | .error e => .error e
      | .ok b => wrapT ((libMul .runtimeError b.mat a.mat).map transpose)
    | .qobj _ _ q, .tensor _ _ b =>
      match qobjToTensor q with
      | .error e => .error e
      | .ok a => wrapT (libMul .runtimeError a.mat b.mat)
    | A, B =>
      match A.dense, B.dense with
      | some a, some b => wrapT (libMul .runtimeError a.2.2 b.2.2)
      | _, _ => .error .typeError
  else
    match A, B with
    | .qobj r _ a, .qobj _ c b => (libMul .typeError a.mat b.mat).map fun M => .qobj r c (.dense M)
    | .nd r _ a, .nd _ c b => (libMul .valueError a b).map fun M => .nd r c M
    | _, _ => .error .typeError

/-- functions.py:225-238 `dag`. -/
noncomputable def dagFn : MVal → Except PyErr MVal
  | .nd1 n v => .ok (.nd1 n (star v))
  | .tensor1 n v => .ok (.tensor1 n (star v))
  | .tensor r c t => .ok (.tensor c r (.strided t.matᴴ))
  | .qobj r c q => .ok (.qobj c r (.dense q.matᴴ))
  | .nd _ _ _ => .error .valueError

/-- `torch.unsqueeze(state, 1)` of a state vector -/
def unsqueezeT {n : ℕ} (v : Fin n → ℂ) : MVal := .tensor n 1 (.strided (Matrix.of fun i _ => v i))

/-- a ket as QuTiP object -/
def ketQ {n : ℕ} (v : Fin n → ℂ) : MVal := .qobj n 1 (.dense (Matrix.of fun i _ => v i))

/-- functions.py:414-417 `unwrap`: `x[0, 0]` of a tensor under PyTorch, otherwise the value itself (QuTiP
returns the number for a bra times a ket). -/
def unwrapFn (optim : Bool) : MVal → Except PyErr ℂ
  | .tensor (_ + 1) (_ + 1) t => if optim then .ok (t.mat 0 0) else .error .typeError
  | .qobj 1 1 (.dense M) => if optim then .error .typeError else .ok (M 0 0)
  | _ => .error .typeError

/-- functions.py:298-306 `operator_inner_product`. The states are vectors: tensors with one axis under
PyTorch, kets under NumPy. -/
noncomputable def operatorInner (optim : Bool) {n m : ℕ} (s1 : Fin n → ℂ) (op : MVal) (s2 : Fin m → ℂ) : Except PyErr ℂ :=
  let state1 := if optim then unsqueezeT s1 else ketQ s1
  let state2 := if optim then unsqueezeT s2 else ketQ s2
  match matMul optim op state2 with
  | .error e => .error e
  | .ok A =>
    match dagFn state1 with
    | .error e => .error e
    | .ok d =>
      match matMul optim d A with
      | .error e => .error e
      | .ok B => unwrapFn optim B

end SQ
