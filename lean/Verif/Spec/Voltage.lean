import Verif.Spec.Islands
import Verif.Spec.Loss
import Verif.Model.SweepLoss

/-!
# Voltages in circuits of junctions and capacitors
-/

namespace SQ.Spec
open Real Matrix

/-- voltage across edge `e` per charge that has passed through edge `f`: the incidence vectors of the two edges with the
inverse of the capacitance matrix between them -/
noncomputable def edgeInvCap (O : Objs) (els : Elements) (n : ℕ) (e f : Edge) : ℝ :=
  ∑ a : Fin n, ∑ b : Fin n, (incidence e (a + 1) : ℝ) * (capacitances O els n)⁻¹ a b * incidence f (b + 1)

/-- operator of the voltage across edge `e` over √ħ: Σ_i (e C⁻¹ f_i) 2e (n_i - ng_i) with one term for each junction edge
`f_i`, whose charge is that of mode `σ i` -/
noncomputable def voltage (O : Objs) (els : Elements) (n : ℕ) {k : ℕ} (σ : Fin (junctionEdges O els).length ≃ Fin k)
    (m : Fin k → ℕ) (ng : Fin k → ℝ) (e : Edge) : Op m :=
  ((2 * eCharge / √hbar : ℝ) : ℂ) • ∑ i, (edgeInvCap O els n e ((junctionEdges O els).get i) : ℂ) • pairs m ng (σ i)

/-- C/Q(ω)·|⟨s|V|s'⟩|² of the capacitor of one placement, zero if the capacitor has no quality factor -/
noncomputable def capacitorLoss (O : Objs) (noise : ObjNoise) (val : ElemId → ℝ) (omega : ℝ) {ι : Type*} [Fintype ι]
    (s s' : ι → ℂ) (V : Edge → Matrix ι ι ℂ) (x : Edge × ElemId) : ℝ :=
  match noise.capQ (capacitorOf O x.2) with
  | none => 0
  | some Q => val (capacitorOf O x.2) / Q omega * ‖braket s (V x.1) s'‖ ^ 2

/-- thermal weight of a rate between states `p` and `q` at `a` = ħω/kT: the factors of `lossFactor`, or their limits 2 and 0
for large `a` -/
noncomputable def lossWeight (a : ℝ) (p q : ℕ) (total : Bool) : ℝ :=
  if a ≤ 709 then lossFactor a p q total else if total ∨ p > q then 2 else 0

end SQ.Spec
