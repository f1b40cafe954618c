import Verif.Spec.Levels
import Verif.Model.State

/-! # Specification of the convergence of the computed spectrum with the number of charge states -/

namespace SQ.Spec
open SQ

variable {P : Phys}

/-- `set_trunc_nums(a)` is accepted -/
def Accepts (w : World P) (a : List ℤ) : Prop := (setTruncNums (.list a) w).1 = .ok ()

/-- `b` has at least as many charge states as `a` in each charge mode and as many states in every other mode -/
def Refines (w : World P) (a b : List ℤ) : Prop :=
  ∀ i, i < P.nModes w.circ.bd →
    if P.isCharge w.circ.bd i = true then a.getD i 0 ≤ b.getD i 0 else b.getD i 0 = a.getD i 0

/-- every charge mode has truncation number at least `N` in `a`, and the other modes have those of `a0` -/
def ChargeAtLeast (w : World P) (a0 : List ℤ) (N : ℤ) (a : List ℤ) : Prop :=
  ∀ i, i < P.nModes w.circ.bd →
    if P.isCharge w.circ.bd i = true then N ≤ a.getD i 0 else a.getD i 0 = a0.getD i 0

/-- dimension of the space after `set_trunc_nums(a)`: 2a_i - 1 states for charge modes, a_i for the others -/
def spaceDim (w : World P) (a : List ℤ) : ℕ := ((dimsOf P w.circ.bd a).map Int.toNat).prod

end SQ.Spec
