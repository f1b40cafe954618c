import Verif.Spec.Linear
import Verif.Spec.Resonator

/-!
# Losses of linear networks
-/

namespace SQ.Spec
open SQ Matrix

/-- `y` are the node fluxes (or, up to a factor, voltages) of a normal mode of frequency `ω` of the network with capacitance
matrix `C` and inverse inductance matrix `L`, normalised to `yᵀ C y = 1` -/
structure ModePattern {n : ℕ} (C L : Matrix (Fin n) (Fin n) ℝ) (ω : ℝ) (y : Fin n → ℝ) : Prop where
  mode : L *ᵥ y = ω ^ 2 • (C *ᵥ y)
  unit : y ⬝ᵥ (C *ᵥ y) = 1

/-- share of the placed element `q` in the capacitive energy of the pattern `y` -/
noncomputable def capShare (O : Objs) (vals : ElemId → ℝ) {n : ℕ} (y : Fin n → ℝ) (q : Edge × ElemId) : ℝ :=
  vals (capacitorOf O q.2) * branchDiff y q.1 ^ 2

/-- share of the placed inductor `q` in the inductive energy of the pattern `y` of a mode of frequency `ω` -/
noncomputable def indShare (vals : ElemId → ℝ) (ω : ℝ) {n : ℕ} (y : Fin n → ℝ) (q : Edge × ElemId) : ℝ :=
  branchDiff y q.1 ^ 2 / vals q.2 / ω ^ 2

/-- the placed inductors with their edges -/
def placedInds (O : Objs) (els : Elements) : List (Edge × ElemId) :=
  (placements els).filter fun q => decide ((O.elem q.2).kind = .ind)

/-- 1/Q of a mode due to the capacitors: the inverse quality factors weighted with the shares of the capacitive energy -/
noncomputable def capQinv (O : Objs) (els : Elements) (noise : ObjNoise) (vals : ElemId → ℝ) (ω : ℝ) {n : ℕ} (y : Fin n → ℝ) : ℝ :=
  ((placements els).map fun q => match noise.capQ (capacitorOf O q.2) with
    | none => 0
    | some Q => capShare O vals y q / Q ω).sum

/-- 1/Q of a mode due to the inductors: the inverse quality factors weighted with the shares of the inductive energy -/
noncomputable def indQinv (O : Objs) (els : Elements) (noise : ObjNoise) (vals : ElemId → ℝ) (ω T : ℝ) {n : ℕ}
    (y : Fin n → ℝ) : ℝ :=
  ((placedInds O els).map fun q => match noise.indQ q.2 ω T with
    | none => 0
    | some Q => indShare vals ω y q / Q).sum

/-- `x` and `x'` differ by one quantum in mode `i` and agree in all other modes -/
def OneQuantum {k : ℕ} {d : Fin k → ℕ} (x x' : ∀ i, Fin (d i)) (i : Fin k) : Prop :=
  ((x i : ℕ) = x' i + 1 ∨ (x' i : ℕ) = x i + 1) ∧ ∀ j, j ≠ i → x j = x' j

/-- no other state has the energy of `x` -/
def OnlyState {ι : Type*} (E : ι → ℝ) (x : ι) : Prop := ∀ z, E z = E x → z = x

end SQ.Spec
