import Verif.Model.CircuitPhys
import Verif.Spec.Graph
import Verif.Spec.Transform
import Verif.Spec.CircuitState

/-!
# Circuits with sane elements and exact numerical routines
-/

namespace SQ.Spec

/-- The assumptions under which construction is described: positive capacitances and inductances, no edge
from a node to itself, every node connected to ground, and numerical routines that do what their
documentation says on the matrices of this circuit, with singular modes told apart from harmonic ones. -/
structure GoodCircuit (c : CircSpec) (vals : ElemId → ℝ) : Prop where
  noSelf : NoSelfLoops c.els
  caps : PositiveCaps (c.O.withVals vals) c.els
  inds : PositiveInds (c.O.withVals vals) c.els
  ground : ∀ n, numNodes c.els = .ok n → GroundConnected n c.els
  argmax : ∀ k, ArgmaxSpec (c.argmax k)
  lib : ∀ n a, numNodes c.els = .ok n → traverse c.torch c.fd (c.O.withVals vals) n c.h c.els = .ok a →
    LibSpec (c.lib n) a.cMat a.lMat ∧ SpectralGap (c.lib n) a.lMat

end SQ.Spec
