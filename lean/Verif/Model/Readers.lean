import Verif.Model.CircuitPhys
import Verif.Model.Grad

/-!
# circuit.py, part 11: `charge_op`, `op` and `coord_transform`
-/

namespace SQ
open Matrix

/-- an operator with the dimensions of the modes it acts on -/
abbrev AnyOp := Σ (k : ℕ) (d : Fin k → ℕ), Op d

/-- result of `charge_op`: an operator, or the matrix in the basis of the computed eigenvectors -/
inductive ChargeOut
  | op (A : AnyOp)
  | eig (q : ℕ) (A : Matrix (Fin q) (Fin q) ℂ)

/-- circuit.py:1863-1875: `V† Q V`, the columns of `V` being the eigenvectors. -/
noncomputable def eigBasis {ι : Type*} [Fintype ι] (Q : Matrix ι ι ℂ) (vs : List (ι → ℂ)) :
    Matrix (Fin vs.length) (Fin vs.length) ℂ :=
  let V : Matrix ι (Fin vs.length) ℂ := Matrix.of fun a e => vs.get e a
  Vᴴ * Q * V

/-- A stored vector as a vector on modes of dimensions `d`; vectors of other dimensions cannot be
multiplied with the operator. (Python compares total dimensions only: vectors computed with other
truncation numbers that have the same product are rejected here.) -/
noncomputable def vecOf {k : ℕ} (d : Fin k → ℕ) (v : Σ (k : ℕ) (d : Fin k → ℕ), Idx d → ℂ) :
    Except PyErr (Idx d → ℂ) :=
  open Classical in
  if h : (⟨v.1, v.2.1⟩ : Σ k : ℕ, Fin k → ℕ) = ⟨k, d⟩ then
    .ok (cast (congrArg (fun s : Σ k : ℕ, Fin k → ℕ => Idx s.2 → ℂ) h) v.2.2)
  else .error .valueError

/-- circuit.py:1863-1875: the eigenbasis branch of `charge_op`. Without eigenvectors NumPy's
`concatenate` raises `ValueError`; under PyTorch the empty list has no attribute `T`. -/
noncomputable def chargeEig {k : ℕ} {d : Fin k → ℕ} (torch : Bool) (Q : Op d) :
    List (Σ (k : ℕ) (d : Fin k → ℕ), Idx d → ℂ) → Except PyErr ChargeOut
  | [] => .error (if torch then .attributeError else .valueError)
  | v :: vs =>
    match (v :: vs).mapM (vecOf d) with
    | .error e => .error e
    | .ok us => .ok (.eig _ (eigBasis Q us))

section
variable {c : CircSpec} {eigs : AnyOp → ℤ → Except PyErr (List (ℂ × Σ (k : ℕ) (d : Fin k → ℕ), Idx d → ℂ))}
  {as : List ℂ → List ℕ}

/-- circuit.py:1831-1875 `charge_op`. -/
noncomputable def chargeOp (w : World (circPhys c eigs as)) (mode : ℤ) (basis : String) :
    Except PyErr ChargeOut :=
  if w.circ.m.length = 0 then .error .circuitState
  else if basis ≠ "original" ∧ basis ≠ "eig" then .error .valueError
  else
    match (w.circ.mem : Option (Σ d : Fin w.circ.bd.M.keep.length → ℕ, OpMem w.circ.bd.nJ d)) with
    | none => .error .indexError
    | some mem =>
      match pyGet (List.ofFn mem.2.Q) (mode - 1) with
      | .error e => .error e
      | .ok Q =>
        if basis = "original" then .ok (.op ⟨_, _, Q⟩) else chargeEig c.torch Q w.circ.evecs

/-- circuit.py:1877-1897 `_get_w_id`. -/
def getWId {b nJ : ℕ} (juns : List (JunKey b nJ)) (el : ElemId) (bId : ℕ) : Option (Fin nJ) :=
  (juns.find? (fun key => key.el = el ∧ (key.bId : ℕ) = bId)).map (·.wId)

/-- circuit.py:1920-1921: the operator stored by the last `hamiltonian()` (a dictionary, so the last of
equal keys counts). -/
def sinHalfStored {b nJ : ℕ} (juns : List (JunKey b nJ))
    (trig : Option (List (Σ (k : ℕ) (d : Fin k → ℕ), Op d × Op d × Op d))) (el : ElemId) (bId : ℕ) :
    Except PyErr AnyOp :=
  match trig with
  | none => .error .keyError
  | some l =>
    match (juns.zip l).reverse.find? (fun p => p.1.el = el ∧ (p.1.bId : ℕ) = bId) with
    | none => .error .keyError
    | some p => .ok ⟨p.2.1, p.2.2.1, p.2.2.2.2.2⟩

/-- circuit.py:1899-1936 `op` for `typ = 'sin_half'` (other types: `ValueError`) and junction `el` on
branch `bId`. NumPy: the stored operator; PyTorch: computed from the stored exponentials and the current fluxes
(`lst[None]` is a `TypeError`). -/
noncomputable def opSinHalf (w : World (circPhys c eigs as)) (typ : String) (el : ElemId) (bId : ℕ) :
    Except PyErr AnyOp :=
  if typ ≠ "sin_half" then .error .valueError
  else if c.torch then
    match getWId w.circ.bd.juns el bId with
    | none => .error .typeError
    | some i =>
      match (w.circ.exp : Option (Σ d : Fin w.circ.bd.M.keep.length → ℕ,
          (Fin w.circ.bd.nJ → Op d) × (Fin w.circ.bd.nJ → Op d))) with
      | none => .error .indexError
      | some ex =>
        if h : bId < w.circ.bd.nB then
          let root := phase (w.circ.bd.fluxes w.flux ⟨bId, h⟩ / 2) • ex.2.2 i
          .ok ⟨_, _, (1 / (2 * Complex.I) : ℂ) • (root - rootᴴ)⟩
        else .error .indexError
  else
    sinHalfStored w.circ.bd.juns w.circ.trig el bId

/-- circuit.py:2124-2145 `coord_transform`; singular matrices raise `LinAlgError`. (`lower` for ASCII
letters.) -/
noncomputable def coordTransform {nJ n : ℕ} (M : Modes nJ n) (varType : String) :
    Except PyErr (Matrix (Fin n) (Fin n) ℝ) :=
  open Classical in
  if varType.toList.map Char.toLower = "charge".toList then
    if M.R.det = 0 then .error .linAlg else .ok M.R⁻¹
  else if varType.toList.map Char.toLower = "flux".toList then
    if M.S.det = 0 then .error .linAlg else .ok M.S⁻¹
  else .error .valueError

end
end SQ
