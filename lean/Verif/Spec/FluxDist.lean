import Verif.Model.CircuitPhys
import Verif.Spec.Graph

/-! # Specification of the dependence on `flux_dist` -/

namespace SQ.Spec
open SQ

/-- difference of node potentials `y` across an edge, in the orientation of the incidence vectors (edges to ground are
counted from the other node to ground) -/
def edgeDrop (y : ℕ → ℝ) (e : Edge) : ℝ :=
  if e.1 = 0 then y e.2 else if e.2 = 0 then y e.1 else y e.1 - y e.2

/-- the same circuit with another `flux_dist` -/
def withFluxDist (c : CircSpec) (fd : FluxDist) : CircSpec := { c with fd := fd }

end SQ.Spec
