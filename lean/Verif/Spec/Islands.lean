import Verif.Spec.Transmon
import Verif.Spec.Constructed
import Verif.Spec.Flux

/-!
# Superconducting islands: junctions and capacitors without inductors
-/

namespace SQ.Spec
open Real Matrix

/-- capacitance matrix of a dictionary: capacitors, and capacitors attached to junctions, of every edge -/
noncomputable def capacitances (O : Objs) (els : Elements) (n : ℕ) : Matrix (Fin n) (Fin n) ℝ :=
  ((placements els).map (fun q => placedCap O q.2 • edgeMat n q.1)).sum

/-- incidence matrix of the edges that carry junctions: row `i` times the node fluxes is the flux across edge `i` -/
def junctionIncidence (O : Objs) (els : Elements) (n : ℕ) :
    Matrix (Fin (junctionEdges O els).length) (Fin n) ℝ :=
  Matrix.of fun i k => (incidence ((junctionEdges O els).get i) (k + 1) : ℝ)

/-- inverse capacitance matrix between the junction edges: J C⁻¹ Jᵀ -/
noncomputable def junctionInvCap (O : Objs) (els : Elements) (n : ℕ) :
    Matrix (Fin (junctionEdges O els).length) (Fin (junctionEdges O els).length) ℝ :=
  junctionIncidence O els n * (capacitances O els n)⁻¹ * (junctionIncidence O els n)ᵀ

/-- no inductor in the dictionary -/
def NoInductors (O : Objs) (els : Elements) : Prop := ∀ q ∈ placements els, (O.elem q.2).kind ≠ .ind

/-- The junction edges do not close loops through nodes (parallel junctions on one edge are allowed). -/
def IndependentJunctions (O : Objs) (els : Elements) (n : ℕ) : Prop :=
  LinearIndependent ℝ (junctionIncidence O els n).row

/-- No junction edge is, up to a few parts in 10⁶, a combination of the others in the metric of the inverse
capacitance (the code compares with the threshold 1e-6). -/
def WellConditioned {q : ℕ} (n : ℕ) (G : Matrix (Fin q) (Fin q) ℝ) : Prop :=
  ∀ i, 1e-6 * (√(G i i) + 1e-9) * (√n * √(G⁻¹ i i)) < 1

/-- number of Cooper pairs on mode `i` relative to the offset charge -/
noncomputable def pairs {k : ℕ} (m : Fin k → ℕ) (ng : Fin k → ℝ) (i : Fin k) : Op m :=
  onMode m i (qCharge (m i)) - (ng i : ℂ) • 1

/-- ½ (2e)² Σ_ij A_ij (n_i - ng_i)(n_j - ng_j) / ħ -/
noncomputable def pairEnergy {k : ℕ} (m : Fin k → ℕ) (A : Matrix (Fin k) (Fin k) ℝ) (ng : Fin k → ℝ) : Op m :=
  (((2 * eCharge) ^ 2 / 2 / hbar : ℝ) : ℂ) • ∑ i, ∑ j, (A i j : ℂ) • (pairs m ng i * pairs m ng j)

/-- total Josephson energy of the junctions on an edge -/
noncomputable def edgeEJ (O : Objs) (els : Elements) (vals : ElemId → ℝ) (e : Edge) : ℝ :=
  (((placements els).filter (fun q => decide ((O.elem q.2).kind = .jj ∧ q.1 = e))).map (fun q => vals q.2)).sum

/-- ½ (2e)² Σ_ij G_ij (n_i - ng_i)(n_j - ng_j)/ħ - Σ_i E_i cos φ_i, where edge `i` is mode `σ i` -/
noncomputable def islandHamiltonian {q k : ℕ} (σ : Fin q ≃ Fin k) (G : Matrix (Fin q) (Fin q) ℝ) (E : Fin q → ℝ)
    (m : Fin k → ℕ) (ng : Fin k → ℝ) : Op m :=
  pairEnergy m (G.submatrix σ.symm σ.symm) ng - ∑ i, (E i : ℂ) • chargeCos m (σ i) 0

/-- Junctions and capacitors only, without flux loops; as many junction edges as nodes, independent, and every
node connected to ground. -/
structure IslandCircuit (c : CircSpec) (n : ℕ) : Prop where
  nodes : numNodes c.els = .ok n
  valid : ValidElements n c.els
  ground : GroundConnected n c.els
  noInd : NoInductors c.O c.els
  noLoops : ∀ q ∈ placements c.els, (c.O.elem q.2).loops = []
  some : junctionEdges c.O c.els ≠ []
  indep : IndependentJunctions c.O c.els n
  square : (junctionEdges c.O c.els).length = n

/-- the numerical routines do what their documentation says -/
structure RoutinesOK (c : CircSpec) : Prop where
  lib : ∀ n, ∀ C L : Matrix (Fin n) (Fin n) ℝ, C.PosDef → L.PosSemidef → LibSpec (c.lib n) C L
  sv : SvdSpec c.sv
  argsort : ArgsortSpec c.argsort
  argmax : ∀ k, ArgmaxSpec (c.argmax k)
  fuel : 3 ≤ c.fuel

/-- admissible element values -/
def IslandValues (c : CircSpec) (n : ℕ) (v : ElemId → ℝ) : Prop :=
  PositiveCaps (c.O.withVals v) c.els ∧ WellConditioned n (junctionInvCap (c.O.withVals v) c.els n)

end SQ.Spec

namespace SQ.Spec
open Real Matrix

/-- `{(0, 1): ids1, (0, 2): ids2, (1, 2): idsc}`: two grounded islands and their coupling -/
def twoEls (ids1 ids2 idsc : List ElemId) : Elements := [((0, 1), ids1), ((0, 2), ids2), ((1, 2), idsc)]

/-- inverse of the capacitance matrix of two islands with capacitances `C1`, `C2` to ground and `Cc` between them -/
noncomputable def twoInvCap (C1 C2 Cc : ℝ) : Matrix (Fin 2) (Fin 2) ℝ :=
  (C1 * C2 + Cc * (C1 + C2))⁻¹ • !![C2 + Cc, Cc; Cc, C1 + Cc]

end SQ.Spec
