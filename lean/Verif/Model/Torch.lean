import Verif.Model.Grad

/-!
# The PyTorch extension: diagonalisation with automatic differentiation

The tensors handed over by PyTorch are modelled by their entries; the gradient bookkeeping of
PyTorch itself (which calls `backward` and adds up the results) is not modelled.
-/

namespace SQ
open Matrix

/-- torch_extensions.py:205-279 `EigenSolver.backward` for one parameter with derivative `dH` of the
Hamiltonian. `gw`, `gv` are the incoming gradients for the `q = n_eig` eigenvalues and eigenvectors,
`maxGrad` is `EIGENVECTOR_MAX_GRAD` (`None`: all, torch_extensions.py:189-192), `eps` the default
`epsilon` of `get_partial_vec`. The two loops over the states are run one after the other. -/
noncomputable def eigenSolverBackward {ι : Type*} [Fintype ι] {q : ℕ} (evecs : List (ι → ℂ))
    (efreqs : List ℝ) (dH : Matrix ι ι ℂ) (eps : ℝ) (maxGrad : Option ℕ) (gw : Fin q → ℂ)
    (gv : Fin q → ι → ℂ) : Except PyErr ℝ :=
  match (List.finRange q).mapM fun (e : Fin q) => partialOmega evecs dH ((e : ℕ) : ℤ) false with
  | .error e => .error e
  | .ok dw =>
    match (List.finRange q).mapM fun (e : Fin q) =>
      if (e : ℕ) < maxGrad.getD q then partialVec evecs efreqs dH ((e : ℕ) : ℤ) eps else .ok 0 with
    | .error e => .error e
    | .ok dv => .ok (eigenBackward gw gv (fun e => dw.getD e 0) (fun e => dv.getD e 0) (maxGrad.getD q))

/-! ## Shapes in the forward pass -/

/-- `torch.squeeze(t)`: dimensions of size one are removed. -/
def squeezeShape (s : List ℕ) : List ℕ := s.filter (· ≠ 1)

/-- `torch.cat([a, b], dim=-1)`: the tensors must have the same number of dimensions (at least one) and
agree in all but the last. -/
def catShape (a b : List ℕ) : Except PyErr (List ℕ) :=
  if a = [] ∨ a.length ≠ b.length ∨ a.dropLast ≠ b.dropLast then .error .runtimeError
  else .ok (a.dropLast ++ [a.getLastD 0 + b.getLastD 0])

/-- torch_extensions.py:160-202 `EigenSolver.forward`: shape of the returned tensor for `q ≥ 1`
eigenvalues of a Hamiltonian of dimension `d`. The eigenvalues are stacked to shape `(q, 1)`; the
eigenvectors (each a column of shape `(d, 1)`) are stacked to `(q, d, 1)` and squeezed. -/
def forwardShape (q d : ℕ) : Except PyErr (List ℕ) :=
  catShape [q, 1] (squeezeShape [q, d, 1])

/-- circuit.py:2009-2014 `_diag_torch`: shapes of the returned eigenfrequencies `sol[:, 0]` and
eigenvectors `sol[:, 1:]`; indexing with two indices needs a two-dimensional tensor. -/
def diagTorchShapes (q d : ℕ) : Except PyErr (List ℕ × List ℕ) :=
  match forwardShape q d with
  | .error e => .error e
  | .ok [a, b] => .ok ([a], [a, b - 1])
  | .ok _ => .error .indexError

end SQ
