import Mathlib.Data.Int.Notation
import Mathlib.Tactic.Common

/-!
# Specification for C124: states named by Python indices
-/

namespace SQ.Spec

/-- The Python index `i` names entry number `p` of a list of length `N`: it is `p` itself, or counts from the end
(`-1` is the last entry). -/
def Names (N : ℕ) (i : ℤ) (p : ℕ) : Prop := p < N ∧ (i = p ∨ i = p - N)

end SQ.Spec
