import Verif.Spec.System
import Verif.Spec.Islands
import Verif.Spec.Grad

/-!
# Vocabulary for systems of circuits
-/

namespace SQ.Spec
open Matrix

/-- operator of part `s` of a composite of parts with state spaces `ι s`, identity on the other parts -/
noncomputable def onSub {N : ℕ} {ι : Fin N → Type} (s : Fin N) (A : Matrix (ι s) (ι s) ℂ) :
    Matrix (∀ s, ι s) (∀ s, ι s) ℂ :=
  open Classical in
  Matrix.of fun x y => if ∀ t, t ≠ s → x t = y t then A (x s) (y s) else 0

/-- a diagonalised circuit with all its eigenvectors, as a system sees it; eigenvalues `ws` in radians per second, the
frequency unit is `u` -/
noncomputable def completeSub (b : Build) {d : Fin b.M.keep.length → ℕ} (mem : OpMem b.nJ d) (u : ℝ)
    (ws : List ℝ) (vs : List (Idx d → ℂ)) : SubCirc :=
  b.sub mem (ws.map fun w => w / (2 * Real.pi * u)) (fun i => vs.getD i 0)

/-- capacitor `el` between node `node1` of circuit `cr1` and node `node2` of circuit `cr2` -/
structure Coupling where
  cr1 : CircId
  node1 : ℕ
  cr2 : CircId
  node2 : ℕ
  el : ElemId

/-- the coupling as a system of circuits takes it -/
def Coupling.couple (vals : ElemId → ℝ) (g : Coupling) : Couple := ⟨g.cr1, g.node1, g.cr2, g.node2, some (vals g.el)⟩

/-- number of nodes of the circuits before `c` -/
def nodeOffset (sz : CircId → ℕ) (cs : List CircId) (c : CircId) : ℕ := ((cs.takeWhile (fun a => decide (a ≠ c))).map sz).sum

/-- node `v` of a circuit if `k` nodes of other circuits come first; ground is common -/
def shiftNode (k v : ℕ) : ℕ := if v = 0 then 0 else k + v

def shiftEdge (k : ℕ) (e : Edge) : Edge := (shiftNode k e.1, shiftNode k e.2)

/-- The dictionary of the one circuit that contains the circuits `cs` (with `sz c` nodes and dictionary `els c`) and the
coupling capacitors. -/
def mergedEls (sz : CircId → ℕ) (els : CircId → Elements) (cs : List CircId) (cps : List Coupling) : Elements :=
  cs.flatMap (fun c => (els c).map fun p => (shiftEdge (nodeOffset sz cs c) p.1, p.2)) ++
    cps.map fun g => ((nodeOffset sz cs g.cr1 + g.node1, nodeOffset sz cs g.cr2 + g.node2), [g.el])

/-- a capacitor of positive capacitance between two different nodes -/
def ValidCoupling (O : Objs) (sz : CircId → ℕ) (vals : ElemId → ℝ) (g : Coupling) : Prop :=
  (1 ≤ g.node1 ∧ g.node1 ≤ sz g.cr1) ∧ (1 ≤ g.node2 ∧ g.node2 ≤ sz g.cr2) ∧ (g.cr1, g.node1) ≠ (g.cr2, g.node2) ∧
    (O.elem g.el).kind = .cap ∧ (O.elem g.el).loops = [] ∧ 0 < vals g.el

end SQ.Spec
