import Verif.Spec.State
import Verif.Model.CircuitPhys

/-! # Specification of properties of circuit objects of actual circuits -/

namespace SQ.Spec
open SQ Matrix

/-- Type of `scipy.sparse.linalg.eigs` on operators of any dimensions. -/
abbrev EigsFn := (Σ (k : ℕ) (d : Fin k → ℕ), Op d) → ℤ →
  Except PyErr (List (ℂ × Σ (k : ℕ) (d : Fin k → ℕ), Idx d → ℂ))

/-- The eigensolver returns the requested number of eigenpairs (scipy requires fewer than the
dimension minus one). -/
def EigsSpec (eigs : EigsFn) : Prop :=
  ∀ (k : ℕ) (d : Fin k → ℕ) (H : Op d) (num : ℤ), 1 ≤ num →
    num < (Fintype.card (Idx d) : ℤ) - 1 →
    ∃ l : List (ℂ × (Idx d → ℂ)),
      eigs ⟨k, d, H⟩ num = .ok (l.map (fun p => (p.1, ⟨k, d, p.2⟩))) ∧ (l.length : ℤ) = num ∧
      ∀ p ∈ l, p.2 ≠ 0 ∧ H *ᵥ p.2 = p.1 • p.2

/-- no edge of the circuit joins a node to itself -/
def NoSelfLoops (els : Elements) : Prop := ∀ p ∈ els, p.1.1 ≠ p.1.2

/-- `l` is an eigenvalue of the operator -/
def IsEigenvalue (H : Σ (k : ℕ) (d : Fin k → ℕ), Op d) (l : ℂ) : Prop :=
  ∃ v : Idx H.2.1 → ℂ, v ≠ 0 ∧ H.2.2 *ᵥ v = l • v

/-- At every `update` of the history, construction from the values present then removes no mode
(automatic under PyTorch), and construction at the beginning removed none. -/
def NoRemoval (c : CircSpec) {eigs as} (w0 : World (circPhys c eigs as)) (h : List Act) : Prop :=
  ∀ h1 h2, h = h1 ++ .update :: h2 → c.torch = true ∨
    (numNodes c.els = .ok w0.circ.bd.k ∧ ∀ b, buildCirc c (run w0 h1).vals = .ok b → b.k = b.n)

end SQ.Spec
