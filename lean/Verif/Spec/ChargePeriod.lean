import Verif.Spec.Truncation
import Verif.Spec.Reversal

/-! # Specification of the periodicity in the offset charges -/

namespace SQ.Spec
open SQ

/-- `b` gives each charge mode `i` room for at least `|z i|` more pairs than `a` on either side, and all other modes
as many states -/
def Room {P : Phys} (w : World P) (z : ℕ → ℤ) (a b : List ℤ) : Prop :=
  ∀ i, i < P.nModes w.circ.bd →
    if P.isCharge w.circ.bd i = true then a.getD i 0 + |z i| ≤ b.getD i 0 else b.getD i 0 = a.getD i 0

end SQ.Spec
