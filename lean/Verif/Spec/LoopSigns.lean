import Verif.Spec.Grounded
import Verif.Spec.Flux

/-!
# The external phases of a circuit written down in two ways
-/

namespace SQ.Spec
open SQ

/-- Two lists of elements with their edges: the element at place `i` of the second is the element at place `τ i` of the
first, on the renumbered edge, which is written the other way round where `a i` is -1. -/
structure Matching {n : ℕ} (σ : Equiv.Perm (Fin n)) (P P' : List (Edge × ElemId)) (τ : Fin P'.length ≃ Fin P.length)
    (a : Fin P'.length → ℝ) : Prop where
  elem : ∀ i, (P'.get i).2 = (P.get (τ i)).2
  sgn : ∀ i, a i = 1 ∨ a i = -1
  inc : ∀ i (k : Fin n), (incidence (P'.get i).1 ((σ k : ℕ) + 1) : ℝ) = a i * incidence (P.get (τ i)).1 (k + 1)

/-- all elements that belong to a loop belong to the same one -/
def OneLoop (O : Objs) (els : Elements) : Prop := ∃ l0, ∀ q ∈ placements els, ∀ l ∈ (O.elem q.2).loops, l = l0

/-- What the statements on two notations of a circuit assume: the same objects, the same `flux_dist`, dictionaries over the
same number of nodes that differ by a renumbering, by the directions of edges and by the order of edges and elements. -/
structure TwoNotations (c c' : CircSpec) (n : ℕ) (σ : Equiv.Perm (Fin n)) : Prop where
  objects : c'.O = c.O
  fluxDist : c'.fd = c.fd
  noSelf : NoSelfLoops c.els
  noSelf' : NoSelfLoops c'.els
  once : LoopsListedOnce c.O
  svd : SvdSpec c.sv
  svd' : SvdSpec c'.sv
  nodes : numNodes c.els = .ok n
  nodes' : numNodes c'.els = .ok n
  renumbered : Renumbered σ c.els c'.els

end SQ.Spec
