import Verif.Model.Grad
import Verif.Model.CircuitPhys

/-!
# Which derivative `get_partial_omega` takes for an element
-/

namespace SQ

/-- circuit.py:2730, 2736, 2764 `isinstance(el, Capacitor)`, `Inductor`, `Junction`. -/
def gradElOf (O : Objs) (nl : ℕ) (e : ElemId) : GradEl nl :=
  match (O.elem e).kind with
  | .cap => .cap e
  | .ind => .ind e
  | .jj => .jun e

end SQ
