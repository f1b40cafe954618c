import Verif.Model.CircuitPhys

/-!
# C117: the same circuit under both engines
-/

namespace SQ.Spec
open SQ

/-- the circuit under NumPy (`false`) or PyTorch (`true`) -/
def _root_.SQ.CircSpec.under (c : CircSpec) (torch : Bool) : CircSpec := { c with torch := torch }

/-- every mode takes part in some junction, or there are no junctions -/
def AllCoupled (b : Build) : Prop := b.nJ = 0 ∨ ∀ j, ∃ i, b.M.w i j ≠ 0

/-- two circuits, with possibly different descriptions, store the same numbers: matrices, keys and modes, charge
offsets, dimensions, operators, eigenpairs; element and loop values and the unit of frequency are the same -/
structure SameState {c c' : CircSpec} {eigs as} (w : World (circPhys c eigs as)) (w' : World (circPhys c' eigs as)) :
    Prop where
  build : (w.circ.bd : Build) = w'.circ.bd
  islands : w.circ.islands = w'.circ.islands
  dims : w.circ.m = w'.circ.m
  big : w.circ.ms = w'.circ.ms
  efreqs : w.circ.efreqs = w'.circ.efreqs
  evecs : (w.circ.evecs : List (Σ (k : ℕ) (d : Fin k → ℕ), Idx d → ℂ)) = w'.circ.evecs
  vals : w.vals = w'.vals
  flux : w.flux = w'.flux
  unit : w.unitFreq = w'.unitFreq

end SQ.Spec
