import Verif.Spec.Loss
import Verif.Model.SweepLoss

/-!
# Losses of a resonator
-/

namespace SQ.Spec
open SQ

/-- emission is proportional to `n + 1` and absorption to `n`, `n` being the mean number of thermal quanta -/
noncomputable def quanta (a : ℝ) (p q : ℕ) (total : Bool) : ℝ :=
  if total then 2 * bose a + 1 else if p > q then bose a + 1 else bose a

/-- total capacitance of the placed elements -/
noncomputable def allCap (O : Objs) (els : Elements) (vals : ElemId → ℝ) : ℝ :=
  ((placements els).map fun q => vals (capacitorOf O q.2)).sum

/-- the placed inductors -/
def inductorsOf (O : Objs) (els : Elements) : List ElemId :=
  ((placements els).filter fun q => decide ((O.elem q.2).kind = .ind)).map Prod.snd

/-- inductance of the placed inductors in parallel -/
noncomputable def allInd (O : Objs) (els : Elements) (vals : ElemId → ℝ) : ℝ :=
  1 / ((inductorsOf O els).map fun i => 1 / vals i).sum

/-- 1/Q of the capacitors: each contributes the inverse of its quality factor, weighted with its share of the
capacitance; capacitors without quality factor do not dissipate -/
noncomputable def capDissipation (O : Objs) (els : Elements) (noise : ObjNoise) (vals : ElemId → ℝ) (ω : ℝ) : ℝ :=
  ((placements els).map fun q => match noise.capQ (capacitorOf O q.2) with
    | none => 0
    | some Q => vals (capacitorOf O q.2) / allCap O els vals / Q ω).sum

/-- 1/Q of the inductors: each contributes the inverse of its quality factor, weighted with its share of the current -/
noncomputable def indDissipation (O : Objs) (els : Elements) (noise : ObjNoise) (vals : ElemId → ℝ) (ω T : ℝ) : ℝ :=
  ((inductorsOf O els).map fun i => match noise.indQ i ω T with
    | none => 0
    | some Q => allInd O els vals / vals i / Q).sum

end SQ.Spec
