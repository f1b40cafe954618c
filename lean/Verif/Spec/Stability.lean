import Verif.Spec.Graph
import Verif.Model.State

/-! # Specification of the stability of frequencies against changes of junctions and fluxes -/

namespace SQ.Spec
open SQ

/-- the junctions of the circuit dictionary with the edges they are placed on, in dictionary order -/
def junctionPlacements (O : Objs) (els : Elements) : List (Edge × ElemId) :=
  (placements els).filter (fun q => decide ((O.elem q.2).kind = .jj))

/-- only `set_value` calls on junctions -/
def JunctionCalls (O : Objs) (l : List Act) : Prop :=
  ∀ x ∈ l, ∃ i v, x = .setValue i v ∧ (O.elem i).kind = .jj

end SQ.Spec
