import Verif.Model.Transform
import Mathlib.Data.Complex.Basic

/-!
# circuit.py, part 3: coupling operators

Only the coefficients matter here, so the mode operators are elements of any complex vector space
`V`; `Model/Ops.lean` supplies the actual matrices.
-/

namespace SQ
open Matrix

variable {nJ n : ℕ}

/-- circuit.py:2360-2363: the matrix `K` of the coupling type (`C` invertible, checked by the
constructor). -/
noncomputable def couplingMat (ctype : String) (C : Matrix (Fin n) (Fin n) ℝ) (M : Modes nJ n) :
    Matrix (Fin n) (Fin n) ℝ :=
  if ctype = "capacitive" then C⁻¹ * M.R else M.S

/-- `K[r, i]` with numpy index rules. -/
def numAt (K : Matrix (Fin n) (Fin n) ℝ) (r i : ℤ) : Except PyErr ℝ :=
  match pyIdx n r with
  | .error e => .error e
  | .ok a =>
    match pyIdx n i with
    | .error e => .error e
    | .ok b => .ok (K a b)

/-- circuit.py:2369-2404: the factor multiplying the operator of mode `i`. -/
def couplingCoef (ctype : String) (K : Matrix (Fin n) (Fin n) ℝ) (nodes : Edge) (i : ℕ) :
    Except PyErr ℝ :=
  if nodes.1 = 0 ∨ nodes.2 = 0 then
    numAt K (((nodes.1 + nodes.2 : ℕ) : ℤ) - 1) i
  else if ctype = "capacitive" then
    match numAt K ((nodes.2 : ℤ) - 1) i with
    | .error e => .error e
    | .ok x =>
      match numAt K ((nodes.1 : ℤ) - 1) i with
      | .error e => .error e
      | .ok y => .ok (x - y)
  else
    match numAt K ((nodes.1 : ℤ) - 1) i with
    | .error e => .error e
    | .ok x =>
      match numAt K ((nodes.2 : ℤ) - 1) i with
      | .error e => .error e
      | .ok y => .ok (x - y)

/-- circuit.py:2373-2404: `for i in range(self.n): op = sp_add(op, coefficient * operator)`. -/
noncomputable def addTerms {V : Type*} [AddCommGroup V] [Module ℂ V] {k : ℕ}
    (coef : Fin k → Except PyErr ℝ) (ops : Fin k → V) : List (Fin k) → V → Except PyErr V
  | [], acc => .ok acc
  | i :: is, acc =>
    match coef i with
    | .error e => .error e
    | .ok c => addTerms coef ops is (acc + (c : ℂ) • ops i)

/-- circuit.py:2314-2406 `coupling_op`, given the stored charge and flux operators of the retained
modes. `nodes` is a pair of natural numbers (the type check of 2346 is not modelled); the squeezing
of trivial tensor factors does not change the matrix; the PyTorch cast is the identity here. -/
noncomputable def couplingOp {V : Type*} [AddCommGroup V] [Module ℂ V] (ctype : String)
    (C : Matrix (Fin n) (Fin n) ℝ) (M : Modes nJ n) (Qop phiOp : Fin M.keep.length → V)
    (nodes : Edge) : Except PyErr V :=
  if ctype ≠ "capacitive" ∧ ctype ≠ "inductive" then .error .valueError
  else
    addTerms (fun i => couplingCoef ctype (couplingMat ctype C M) nodes i)
      (if ctype = "capacitive" then Qop else phiOp) (List.finRange _) 0

end SQ
