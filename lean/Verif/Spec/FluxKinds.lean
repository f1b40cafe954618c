import Verif.Spec.Flux
import Verif.Spec.Grounded

/-!
# Which elements carry the external fluxes
-/

namespace SQ.Spec
open SQ

/-- the kind of elements that carries the external fluxes: junctions for `flux_dist='junctions'`, inductors for
`flux_dist='inductors'`; no particular one for `'all'` -/
def carrier : FluxDist → Option Kind
  | .junctions => some .jj
  | .inductors => some .ind
  | .all => none

/-- The inductive element at place `i` belongs to loop `l` only, and the loop is open without it: no current can flow around
the other elements of the loop. -/
structure OwnElement (n : ℕ) (O : Objs) (P : List (Edge × ElemId)) (kd : Kind) (l : LoopId) (i : Fin P.length) : Prop where
  kind : (O.elem (P.get i).2).kind = kd
  only : (O.elem (P.get i).2).loops = [l]
  needed : ∀ g : Fin P.length → ℝ, g i = 0 → (∀ j, l ∉ (O.elem (P.get j).2).loops → g j = 0) →
    (∀ k : Fin n, ∑ j, g j * (incidence (P.get j).1 (k + 1) : ℝ) = 0) → g = 0

/-- every loop of the circuit has an element of kind `kd` of its own -/
def OwnElements (n : ℕ) (O : Objs) (els : Elements) (kd : Kind) : Prop :=
  ∀ q ∈ inductivePlacements O els, ∀ l ∈ (O.elem q.2).loops, ∃ i, OwnElement n O (inductivePlacements O els) kd l i

/-- every loop contains at most one element of kind `kd` -/
def OneEach (O : Objs) (els : Elements) (kd : Kind) : Prop :=
  ∀ (i j : Fin (inductivePlacements O els).length) (l : LoopId),
    (O.elem ((inductivePlacements O els).get i).2).kind = kd → (O.elem ((inductivePlacements O els).get j).2).kind = kd →
    l ∈ (O.elem ((inductivePlacements O els).get i).2).loops → l ∈ (O.elem ((inductivePlacements O els).get j).2).loops → i = j

end SQ.Spec
