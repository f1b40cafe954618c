import Verif.Spec.Islands

/-!
# Circuits with more capacitance
-/

namespace SQ.Spec

/-- The second dictionary holds every element of the first on the same edge, possibly some more capacitors (which may close
new edges), and lists the edges with junctions in the same order. -/
structure MoreCapacitors (O : Objs) (els els' : Elements) : Prop where
  junctions : junctionEdges O els' = junctionEdges O els
  extra : ∃ caps : List (Edge × ElemId), (placements els').Perm (placements els ++ caps) ∧
    ∀ q ∈ caps, (O.elem q.2).kind = .cap

/-- No capacitance is smaller and the junctions are the same. -/
def LargerCaps (O : Objs) (v v' : ElemId → ℝ) : Prop :=
  (∀ i, (O.elem i).kind ≠ .jj → v i ≤ v' i) ∧ ∀ i, (O.elem i).kind = .jj → v' i = v i

end SQ.Spec
