import Verif.Spec.Islands

/-!
# Scaling all energies of a circuit
-/

namespace SQ.Spec

/-- All energies are `lam` times larger: Josephson energies are multiplied by `lam`, capacitances and inductances are divided
by it. -/
def ScaledEnergies (O : Objs) (lam : ℝ) (v v' : ElemId → ℝ) : Prop :=
  (∀ i, (O.elem i).kind = .jj → v' i = lam * v i) ∧ ∀ i, (O.elem i).kind ≠ .jj → v' i = v i / lam

end SQ.Spec
