import Verif.Spec.Reported
import Verif.Spec.State

/-!
# C141: calls that set something
-/

namespace SQ.Spec
open SQ

/-- the call sets something of the circuit, an element, a loop or a unit; `hamiltonian` and `diag` only compute -/
def sets : Act → Bool
  | .hamiltonian => false
  | .diag _ => false
  | _ => true

end SQ.Spec
