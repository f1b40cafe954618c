import Verif.Spec.Linear
import Verif.Spec.Symbolic

/-!
# Circuits whose nodes are all held by inductors: the Hamiltonian of their normal modes
-/

namespace SQ.Spec
open SQ Matrix Real

/-- Normal modes of the network of capacitors and inductors with capacitance matrix `C` and inverse inductance matrix `L`:
frequencies `ω` from the highest down, all positive and different, and patterns `v_j` of node fluxes with
`L v_j = ω_j² C v_j`, normalised by `v_i · C v_j = δ_ij`. -/
structure ModePatterns {n : ℕ} (C L : Matrix (Fin n) (Fin n) ℝ) (ω : Fin n → ℝ) (v : Fin n → Fin n → ℝ) : Prop where
  positive : ∀ j, 0 < ω j
  descending : StrictAnti ω
  pattern : ∀ j, L *ᵥ v j = ω j ^ 2 • (C *ᵥ v j)
  unit : ∀ i j, v i ⬝ᵥ (C *ᵥ v j) = if i = j then 1 else 0

/-- flux across an edge when the nodes have fluxes `x`: first minus second node, and the other node for an edge to
ground -/
noncomputable def acrossEdge {n : ℕ} (x : Fin n → ℝ) (e : Edge) : ℝ := ∑ k : Fin n, (incidence e (k + 1) : ℝ) * x k

/-- zero-point fluctuation of the phase across edge `e` in a mode of frequency `ω` and normalised pattern `x` -/
noncomputable def phaseZp {n : ℕ} (ω : ℝ) (x : Fin n → ℝ) (e : Edge) : ℝ :=
  2 * π / Phi0 * √(hbar / (2 * ω)) * acrossEdge x e

/-- fluctuations of the phase of a junction below 1e-11 are set to zero -/
noncomputable def neglect (g : ℝ) : ℝ := open Classical in if |g| < 1e-11 then 0 else g

/-- Σ_j g_j (a_j + a_j†) -/
noncomputable def phaseOperator {k : ℕ} (m : Fin k → ℕ) (g : Fin k → ℝ) : Op m :=
  ∑ j, ((g j : ℝ) : ℂ) • onMode m j (qDestroy (m j) + qCreate (m j))

/-- cos(φ + x) for φ = Σ_j g_j (a_j + a_j†) -/
noncomputable def cosPhase {k : ℕ} (m : Fin k → ℕ) (g : Fin k → ℝ) (x : ℝ) : Op m :=
  let E := Complex.exp (Complex.I * (x : ℝ)) • NormedSpace.exp (Complex.I • phaseOperator m g)
  (1 / 2 : ℂ) • (E + Eᴴ)

/-- an inductor or junction as the Hamiltonian sees it: its edge, its value (inductance, or Josephson energy over ħ) and the
external flux at its branch, as a phase -/
structure PlacedBranch where
  edge : Edge
  value : ℝ
  ext : ℝ

/-- H/ħ = Σ_j ω_j a_j†a_j + Σ_inductors (Φ₀/2π)²/(ħL) φ_ext φ - Σ_junctions E_J cos(φ + φ_ext), the phase across an edge
being φ = Σ_j g_j (a_j + a_j†) with its zero-point fluctuations g_j -/
noncomputable def normalModeHamiltonian {n k : ℕ} (m : Fin k → ℕ) (ω : Fin k → ℝ) (v : Fin k → Fin n → ℝ)
    (inds juns : List PlacedBranch) : Op m :=
  ∑ j, ((ω j : ℝ) : ℂ) • onMode m j (qCreate (m j) * qDestroy (m j)) +
  (inds.map fun q => (((Phi0 / (2 * π)) ^ 2 / (hbar * q.value) * q.ext : ℝ) : ℂ) •
    phaseOperator m fun j => phaseZp (ω j) (v j) q.edge).sum -
  (juns.map fun q => (q.value : ℂ) • cosPhase m (fun j => neglect (phaseZp (ω j) (v j) q.edge)) q.ext).sum

/-- the elements of one kind with branch `i`, counted over inductors and junctions, at external phase `x i` -/
def fluxedBranches (kd : Kind) (O : Objs) (els : Elements) (val : ElemId → ℝ) (x : ℕ → ℝ) : List PlacedBranch :=
  ((numbered O els).filter fun q => decide ((O.elem q.1.2).kind = kd)).map fun q => ⟨q.1.1, val q.1.2, x q.2⟩

/-- some junction couples to mode `j` -/
def CoupledMode {n : ℕ} (O : Objs) (els : Elements) (ω : ℝ) (x : Fin n → ℝ) : Prop :=
  ∃ q ∈ placements els, (O.elem q.2).kind = .jj ∧ 1e-11 ≤ |phaseZp ω x q.1|

/-- external phase at branch `i` of a constructed circuit -/
noncomputable def branchPhase (b : Build) (flux : LoopId → ℝ) (i : ℕ) : ℝ :=
  if h : i < b.nB then b.fluxes flux ⟨i, h⟩ else 0

/-- A circuit of `n` nodes held by inductors, with different mode frequencies; under NumPy, where modes without junctions are
removed from circuits with junctions, every mode couples to a junction. -/
structure HeldCircuit (c : CircSpec) (n : ℕ) (vals : ElemId → ℝ) (ω : Fin n → ℝ) (v : Fin n → Fin n → ℝ) : Prop where
  good : GoodCircuit c vals
  nodes : numNodes c.els = .ok n
  modes : ModePatterns (nodeCap n (c.O.withVals vals) c.els) (nodeInvInd n (c.O.withVals vals) c.els) ω v
  kept : c.torch = true ∨ Linear c.O c.els ∨ ∀ j, CoupledMode c.O c.els (ω j) (v j)

end SQ.Spec
