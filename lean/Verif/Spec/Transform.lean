import Verif.Model.Transform
import Verif.Spec.Graph
import Mathlib.Analysis.Matrix.PosDef
import Mathlib.LinearAlgebra.Matrix.Charpoly.Basic

/-!
# Specification vocabulary for the coordinate transformations
-/

namespace SQ.Spec
open SQ Matrix

/-- the matrix L^(1/2) C^(-1/2) -/
noncomputable def scaledL {n : ℕ} (lib : NumLib n) (C L : Matrix (Fin n) (Fin n) ℝ) :
    Matrix (Fin n) (Fin n) ℝ := lib.sqrtm L * (lib.sqrtm C)⁻¹

/-- What is assumed of the numerical routines on the capacitance matrix `C` and the susceptance
matrix `L`: `sqrtm` gives positive semidefinite square roots, `svd` a singular value decomposition
of `L^(1/2) C^(-1/2)` with non-negative descending values, `eig` the eigenvalues of `L` with
multiplicity. -/
structure LibSpec {n : ℕ} (lib : NumLib n) (C L : Matrix (Fin n) (Fin n) ℝ) : Prop where
  sqrtC : (lib.sqrtm C).PosSemidef ∧ lib.sqrtm C * lib.sqrtm C = C
  sqrtL : (lib.sqrtm L).PosSemidef ∧ lib.sqrtm L * lib.sqrtm L = L
  svd : ∃ U : Matrix (Fin n) (Fin n) ℝ, U * Uᵀ = 1 ∧
    lib.svdVh (scaledL lib C L) * (lib.svdVh (scaledL lib C L))ᵀ = 1 ∧
    scaledL lib C L = U * diagonal (lib.svdD (scaledL lib C L)) * lib.svdVh (scaledL lib C L)
  svdSorted : ∀ i j, i ≤ j → lib.svdD (scaledL lib C L) j ≤ lib.svdD (scaledL lib C L) i
  svdNonneg : ∀ i, 0 ≤ lib.svdD (scaledL lib C L) i
  eig : L.charpoly.roots = Finset.univ.val.map (lib.eigvals L)

/-- No eigenvalue of the susceptance matrix lies strictly between zero and 1e-11 times the largest
one, so that the singular modes are told apart from the harmonic ones. -/
def SpectralGap {n : ℕ} (lib : NumLib n) (L : Matrix (Fin n) (Fin n) ℝ) : Prop :=
  ∀ i, lib.eigvals L i ≠ 0 → (1e-11 : ℝ) ≤ lib.eigvals L i / ⨆ k, lib.eigvals L k

/-- the pair of coordinate transformations is canonical -/
def Canonical {n : ℕ} (s r : Matrix (Fin n) (Fin n) ℝ) : Prop := sᵀ * r = 1

/-- What is assumed of `np.argsort`: a permutation of the indices that sorts the keys. -/
structure ArgsortSpec (argsort : ArgsortFn) : Prop where
  perm : ∀ k v, (argsort k v).Perm (List.finRange k)
  sorted : ∀ k v, (argsort k v).Pairwise (fun i j => v i ≤ v j)

/-- What is assumed of `np.argmax`. -/
def ArgmaxSpec {k : ℕ} (argmax : ArgmaxFn k) : Prop :=
  ∀ (h : k ≠ 0) (v : Fin k → ℝ) (i : Fin k), v i ≤ v (argmax h v)

end SQ.Spec

namespace SQ.Spec
open SQ Matrix

/-- every row of `W`, applied to node potentials, is the difference of two node potentials (0 being
ground) -/
def JunctionRows {nJ n : ℕ} (W : Matrix (Fin nJ) (Fin n) ℝ) : Prop :=
  ∀ i, ∃ a b : ℕ, ∀ x, (W *ᵥ x) i = pot x a - pot x b

/-- the null space of `L` consists of the potentials that agree across a set of edges -/
def GraphKernel {n : ℕ} (L : Matrix (Fin n) (Fin n) ℝ) : Prop :=
  ∃ E : Set Edge, ∀ x : Fin n → ℝ, L *ᵥ x = 0 ↔ ∀ e ∈ E, pot x e.1 = pot x e.2

/-- junction row `i` in the charge coordinates chosen by `S1` -/
def chargeRow {nJ n : ℕ} (W : Matrix (Fin nJ) (Fin n) ℝ) (S1 : Matrix (Fin n) (Fin n) ℝ)
    (cols : List (Fin n)) (i : Fin nJ) : Fin cols.length → ℝ := fun j => (W * S1) i (cols.get j)

/-- What the second transformation needs of the row selection among the first rank(W) junction rows:
the selected rows span all junction rows in charge coordinates, and they are a basis, or become one
with the first random vectors. -/
structure SelectionFaithful (sv : SvdFn) (argsort : ArgsortFn) (draws : Draws) {nJ n : ℕ}
    (W : Matrix (Fin nJ) (Fin n) ℝ) (S1 : Matrix (Fin n) (Fin n) ℝ) (omega : Fin n → ℝ) : Prop where
  spans : ∀ i, chargeRow W S1 (chargeCols omega) i ∈ Submodule.span ℝ
    (wCharge sv W S1 omega '' {a | a ∈ (independentRows argsort (wCharge sv W S1 omega)).1})
  completes :
    (independentRows argsort (wCharge sv W S1 omega)).2.length = (chargeCols omega).length ∨
    ((independentRows argsort (wCharge sv W S1 omega)).2.length ≠ 0 ∧
      (independentRows argsort (rowsMat ((independentRows argsort (wCharge sv W S1 omega)).2 ++
        (List.range ((chargeCols omega).length -
          (independentRows argsort (wCharge sv W S1 omega)).2.length)).map
          (fun row => fun c : Fin (chargeCols omega).length =>
            frob (wCharge sv W S1 omega) * draws 0 row c)))).2.length = (chargeCols omega).length)

end SQ.Spec
