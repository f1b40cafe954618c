import Verif.Spec.Graph
import Verif.Spec.Transform
import Mathlib.Combinatorics.SimpleGraph.Connectivity.Connected

/-!
# The number of modes a circuit should have

The graph of some kinds of elements: nodes 0 (ground), …, n, and an edge wherever an element of one of these kinds is
placed. Its connected parts are what these elements hold together.
-/

namespace SQ.Spec
open SQ Matrix

/-- nodes joined directly by an element of one of the given kinds -/
def kindGraph (O : Objs) (els : Elements) (n : ℕ) (kinds : List Kind) : SimpleGraph (Fin (n + 1)) :=
  SimpleGraph.fromRel fun a b => ∃ p ∈ els, p.1 = ((a : ℕ), (b : ℕ)) ∧ ∃ i ∈ p.2, (O.elem i).kind ∈ kinds

/-- number of connected parts that elements of the given kinds make of the nodes (ground included) -/
noncomputable def numParts (O : Objs) (els : Elements) (n : ℕ) (kinds : List Kind) : ℕ :=
  Nat.card (kindGraph O els n kinds).ConnectedComponent

/-- the junction rows that Gram-Schmidt selects span all junction rows in the charge coordinates (the selection of a
maximal independent set is not spoilt by its tolerance) -/
def SelectionSpans (sv : SvdFn) (argsort : ArgsortFn) {nJ n : ℕ} (W : Matrix (Fin nJ) (Fin n) ℝ)
    (S1 : Matrix (Fin n) (Fin n) ℝ) (omega : Fin n → ℝ) : Prop :=
  ∀ i, chargeRow W S1 (chargeCols omega) i ∈ Submodule.span ℝ
    (wCharge sv W S1 omega '' {a | a ∈ (independentRows argsort (wCharge sv W S1 omega)).1})

end SQ.Spec
