import Verif.Spec.Linear

/-!
# Networks with larger capacitors and inductors
-/

namespace SQ.Spec
open SQ

/-- The second network holds every element of the first on the same edge, possibly some more capacitors, and no capacitor and no
inductor has a smaller value. -/
structure SlowerNetwork (O : Objs) (els els' : Elements) (v v' : ElemId → ℝ) : Prop where
  extra : ∃ caps : List (Edge × ElemId), (placements els').Perm (placements els ++ caps) ∧
    ∀ q ∈ caps, (O.elem q.2).kind = .cap
  values : ∀ i, (O.elem i).kind ≠ .jj → v i ≤ v' i

end SQ.Spec
