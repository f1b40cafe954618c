import Verif.Spec.Graph
import Verif.Model.CircuitPhys

/-! # Specification for C108: elements in parallel -/

namespace SQ.Spec
open SQ Matrix

/-- the elements of an edge that are not capacitors, in the order of the list -/
def branchesOf (O : Objs) (ids : List ElemId) : List ElemId :=
  ids.filter (fun i => decide ((O.elem i).kind ≠ .cap))

/-- Two entries of element dictionaries (with objects `O`, `O'` and values `v`, `v'`) have the same edge, the same
inductors and junctions and the same total capacitance. For `flux_dist='all'` the capacitances attached to inductors and
junctions must agree one by one. -/
structure SameUpToCapacitors (fd : FluxDist) (O O' : Objs) (v v' : ElemId → ℝ) (p q : Edge × List ElemId) : Prop where
  edge : q.1 = p.1
  branches : branchesOf O' q.2 = branchesOf O p.2
  same : ∀ i ∈ branchesOf O p.2, (O'.elem i).kind = (O.elem i).kind ∧ (O'.elem i).loops = (O.elem i).loops ∧ v' i = v i
  attached : fd = .all → ∀ i ∈ branchesOf O p.2, v' (O'.elem i).cap = v (O.elem i).cap
  total : (q.2.map (placedCap (O'.withVals v'))).sum = (p.2.map (placedCap (O.withVals v))).sum

/-- Josephson energy an element placed on an edge puts there -/
def placedEJ (O : Objs) (i : ElemId) : ℝ :=
  match (O.elem i).kind with
  | .jj => (O.elem i).value
  | _ => 0

/-- Two entries of element dictionaries have the same edge, the same total capacitance, inverse inductance and Josephson
energy, agree on whether there is an inductor and whether there is a junction, and none of their elements belongs to a
loop or is an inductor of inductance 0. -/
structure SameTotals (O O' : Objs) (v v' : ElemId → ℝ) (p q : Edge × List ElemId) : Prop where
  edge : q.1 = p.1
  cap : (q.2.map (placedCap (O'.withVals v'))).sum = (p.2.map (placedCap (O.withVals v))).sum
  ind : (q.2.map (placedInvInd (O'.withVals v'))).sum = (p.2.map (placedInvInd (O.withVals v))).sum
  jun : (q.2.map (placedEJ (O'.withVals v'))).sum = (p.2.map (placedEJ (O.withVals v))).sum
  hasInd : (∃ i ∈ q.2, (O'.elem i).kind = .ind) ↔ ∃ i ∈ p.2, (O.elem i).kind = .ind
  hasJun : (∃ i ∈ q.2, (O'.elem i).kind = .jj) ↔ ∃ i ∈ p.2, (O.elem i).kind = .jj
  loops : ∀ i ∈ p.2, (O.elem i).kind ≠ .cap → (O.elem i).loops = []
  loops' : ∀ i ∈ q.2, (O'.elem i).kind ≠ .cap → (O'.elem i).loops = []
  nonzero : ∀ i ∈ p.2, (O.elem i).kind = .ind → v i ≠ 0
  nonzero' : ∀ i ∈ q.2, (O'.elem i).kind = .ind → v' i ≠ 0

/-- What a user sees of a constructed circuit with truncation numbers `m`, charge offsets `ng` and loop fluxes `flux`:
the natural frequencies of its modes and its Hamiltonian. -/
noncomputable def observed (c : CircSpec) (v : ElemId → ℝ) (m : ℕ → ℕ) (ng : ℕ → ℝ) (flux : LoopId → ℝ) :
    Except PyErr (List ℝ × Σ (k : ℕ) (d : Fin k → ℕ), Op d) :=
  match buildCirc c v with
  | .error e => .error e
  | .ok b =>
    match fullHamiltonian b.C b.M (fun i => m i) (fun i => ng i) v (b.fluxes flux) b.inds b.juns with
    | .error e => .error e
    | .ok H => .ok (List.ofFn b.M.omega, ⟨_, _, H⟩)

end SQ.Spec
