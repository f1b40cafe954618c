import Verif.Spec.Graph
import Verif.Spec.Constructed
import Mathlib.Data.Multiset.Sort
import Mathlib.LinearAlgebra.LinearIndependent.Defs

/-! # Specification of circuits without junctions -/

namespace SQ.Spec
open SQ Matrix

/-- no Josephson junction is placed -/
def Linear (O : Objs) (els : Elements) : Prop := ∀ q ∈ placements els, (O.elem q.2).kind ≠ .jj

/-- capacitance matrix of the network: the sum over placed elements of their capacitance times the matrix of their edge -/
noncomputable def nodeCap (n : ℕ) (O : Objs) (els : Elements) : Matrix (Fin n) (Fin n) ℝ :=
  ((placements els).map fun q => placedCap O q.2 • edgeMat n q.1).sum

/-- inverse inductance matrix of the network -/
noncomputable def nodeInvInd (n : ℕ) (O : Objs) (els : Elements) : Matrix (Fin n) (Fin n) ℝ :=
  ((placements els).map fun q => placedInvInd O q.2 • edgeMat n q.1).sum

/-- `ω` are the normal-mode frequencies of the network with capacitance matrix `C` and inverse inductance matrix `L`,
from the highest down, each as often as its multiplicity: there is a basis of patterns `v_j` of node fluxes with
`L v_j = ω_j² C v_j`. -/
structure NormalModes {n k : ℕ} (C L : Matrix (Fin n) (Fin n) ℝ) (ω : Fin k → ℝ) : Prop where
  number : k = n
  nonneg : ∀ i, 0 ≤ ω i
  descending : Antitone ω
  patterns : ∃ v : Fin k → Fin n → ℝ, LinearIndependent ℝ v ∧ ∀ j, L *ᵥ v j = ω j ^ 2 • (C *ᵥ v j)

/-- the `num` lowest values of `E`, each as often as it is taken, in ascending order -/
noncomputable def lowest {ι : Type*} [Fintype ι] (E : ι → ℝ) (num : ℕ) : List ℝ :=
  ((Finset.univ.val.map E).sort (· ≤ ·)).take num

/-- energy of a product state of independent modes: `ω_i x_i` for an oscillator (`ω_i ≠ 0`) in its `x_i`-th level, and
for a free charge island `κ_i` times the square of the number of pairs it holds, counted from the offset; `d_i` charge
states are centred at zero. -/
noncomputable def ladder {k : ℕ} (ω κ ng : Fin k → ℝ) (d : Fin k → ℕ) (x : ∀ i, Fin (d i)) : ℝ :=
  open Classical in
  ∑ i, if ω i ≠ 0 then ω i * (x i : ℕ) else κ i * ((x i : ℕ) - ((d i : ℝ) - 1) / 2 - ng i) ^ 2

/-- every node is connected to ground through inductors -/
def InductivelyGrounded (n : ℕ) (O : Objs) (els : Elements) : Prop :=
  ∀ k, k ≤ n → Relation.ReflTransGen
    (fun a b => ∃ q ∈ placements els, (O.elem q.2).kind = .ind ∧ (q.1 = (a, b) ∨ q.1 = (b, a))) k 0

/-- nodes 1, …, n are renumbered by `σ`; node 0, ground, keeps its number -/
def renameNode {n : ℕ} (σ : Equiv.Perm (Fin n)) : ℕ → ℕ
  | 0 => 0
  | k + 1 => if h : k < n then (σ ⟨k, h⟩ : ℕ) + 1 else k + 1

/-- the second dictionary holds the same elements on the renumbered edges; edges may be written in either direction and
edges and elements may come in any order -/
def Renumbered {n : ℕ} (σ : Equiv.Perm (Fin n)) (els els' : Elements) : Prop :=
  ∃ l, (placements els').Perm l ∧ List.Forall₂ (fun q q' => q'.2 = q.2 ∧
    (q'.1 = (renameNode σ q.1.1, renameNode σ q.1.2) ∨ q'.1 = (renameNode σ q.1.2, renameNode σ q.1.1)))
    (placements els) l

end SQ.Spec
