import Verif.Model.Noise
import Verif.Spec.Coupling
import Mathlib.Analysis.Calculus.Deriv.Basic

/-!
# Derivatives of operators
-/

namespace SQ.Spec
open SQ Matrix

/-- `F'` is the derivative of the operator-valued function `F` at `x`, entry by entry. -/
def HasDerivOp {ι κ : Type*} (F : ℝ → Matrix ι κ ℂ) (F' : Matrix ι κ ℂ) (x : ℝ) : Prop :=
  ∀ a b, HasDerivAt (fun t => F t a b) (F' a b) x

/-- the same for vectors -/
def HasDerivVec {ι : Type*} (F : ℝ → ι → ℂ) (F' : ι → ℂ) (x : ℝ) : Prop :=
  ∀ a, HasDerivAt (fun t => F t a) (F' a) x

/-- and for real matrices -/
def HasDerivMat {ι κ : Type*} (F : ℝ → Matrix ι κ ℝ) (F' : Matrix ι κ ℝ) (x : ℝ) : Prop :=
  ∀ a b, HasDerivAt (fun t => F t a b) (F' a b) x

/-- matrix element of `A` between two states -/
noncomputable def braket {ι : Type*} [Fintype ι] (u : ι → ℂ) (A : Matrix ι ι ℂ) (v : ι → ℂ) : ℂ :=
  ∑ a, ∑ b, (starRingEnd ℂ) (u a) * A a b * v b

/-- A list of vectors is orthonormal. -/
def OrthonormalStates {ι : Type*} [Fintype ι] (vs : List (ι → ℂ)) : Prop :=
  ∀ i j : Fin vs.length, ∑ a, (starRingEnd ℂ) (vs.get i a) * vs.get j a = if i = j then 1 else 0

/-- `vs` and `ws` are eigenvectors and eigenvalues of `H`, as many as the dimension. -/
structure Eigenbasis {ι : Type*} [Fintype ι] (H : Matrix ι ι ℂ) (vs : List (ι → ℂ)) (ws : List ℝ) :
    Prop where
  card : vs.length = Fintype.card ι
  len : ws.length = vs.length
  orth : OrthonormalStates vs
  eigen : ∀ i (hi : i < vs.length), H *ᵥ vs[i] = ((ws[i]'(len ▸ hi) : ℝ) : ℂ) • vs[i]

/-- The same with the eigenvalues in ascending order: `ws` is the spectrum counted with multiplicity, from
the ground state up. -/
structure Levels {ι : Type*} [Fintype ι] (H : Matrix ι ι ℂ) (vs : List (ι → ℂ)) (ws : List ℝ) :
    Prop extends Eigenbasis H vs ws where
  sorted : ws.Pairwise (· ≤ ·)

/-- A differentiable branch of normalised eigenvectors of a parameter-dependent operator. -/
structure EigenBranch {ι : Type*} [Fintype ι] (H : ℝ → Matrix ι ι ℂ) (lam : ℝ → ℝ) (psi : ℝ → ι → ℂ)
    (dpsi : ι → ℂ) (x : ℝ) : Prop where
  deriv : HasDerivVec psi dpsi x
  eigen : ∀ᶠ t in nhds x, H t *ᵥ psi t = ((lam t : ℝ) : ℂ) • psi t
  norm : ∀ᶠ t in nhds x, ∑ a, (starRingEnd ℂ) (psi t a) * psi t a = 1

/-- overlap of two states -/
noncomputable def overlap {ι : Type*} [Fintype ι] (u v : ι → ℂ) : ℂ := ∑ a, (starRingEnd ℂ) (u a) * v a

/-- sensitivity of a transition frequency: `⟨s|G|s⟩ - ⟨s'|G|s'⟩` -/
noncomputable def sens {ι : Type*} [Fintype ι] (s s' : ι → ℂ) (G : Matrix ι ι ℂ) : ℝ :=
  (braket s G s - braket s' G s').re

end SQ.Spec
