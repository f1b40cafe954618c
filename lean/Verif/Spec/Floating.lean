import Verif.Spec.Islands

/-!
# Islands without junction to ground, and capacitors in series
-/

namespace SQ.Spec
open Real Matrix

/-- Junctions and capacitors only, without flux loops, with NumPy; independent junction edges, every node connected to
ground.  Nodes may be reached by capacitors only, and islands may be coupled to ground by capacitors only. -/
structure FloatingCircuit (c : CircSpec) (n : ℕ) : Prop where
  numpy : c.torch = false
  nodes : numNodes c.els = .ok n
  valid : ValidElements n c.els
  ground : GroundConnected n c.els
  noInd : NoInductors c.O c.els
  noLoops : ∀ q ∈ placements c.els, (c.O.elem q.2).loops = []
  some : junctionEdges c.O c.els ≠ []
  indep : IndependentJunctions c.O c.els n

/-- capacitance of two capacitors in series -/
noncomputable def seriesCap (x y : ℝ) : ℝ := x * y / (x + y)

/-- `els'` is `els` with the capacitor `i0`, between some nodes `a` and `b`, replaced by the capacitors `i1` and `i2` in
series, which meet in the new node `n + 1` -/
def SplitCapacitor (O : Objs) (n : ℕ) (els els' : Elements) (i0 i1 i2 : ElemId) : Prop :=
  (O.elem i0).kind = .cap ∧ (O.elem i1).kind = .cap ∧ (O.elem i2).kind = .cap ∧
  ∃ (a b : ℕ) (rest : List (Edge × ElemId)), (placements els).Perm (((a, b), i0) :: rest) ∧
    (placements els').Perm (((a, n + 1), i1) :: ((n + 1, b), i2) :: rest)

/-- total capacitance between two nodes, in whichever direction the edges are written -/
noncomputable def capBetween (O : Objs) (els : Elements) (a b : ℕ) : ℝ :=
  (((placements els).filter (fun q => decide (q.1 = (a, b) ∨ q.1 = (b, a)))).map (fun q => placedCap O q.2)).sum

end SQ.Spec
