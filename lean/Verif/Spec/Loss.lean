import Verif.Model.NoiseBuild
import Verif.Spec.Graph
import Verif.Spec.Grad

/-! # Specification of depolarisation rates -/

namespace SQ.Spec
open SQ Matrix

/-- mean number of thermal quanta at ħω/k_BT = `a` -/
noncomputable def bose (a : ℝ) : ℝ := 1 / (Real.exp a - 1)

/-- emission (from a higher- to a lower-numbered state) is proportional to `n + 1`, absorption to `n`, `n` being
the mean number of quanta; the total rate is the sum of the two. -/
noncomputable def lossFactor (a : ℝ) (p q : ℕ) (total : Bool) : ℝ :=
  if total then 2 * (bose a + 1) + 2 * bose a else if p > q then 2 * (bose a + 1) else 2 * bose a

/-- the capacitor an element placed on an edge puts there: itself, or its attached capacitor -/
def capacitorOf (O : Objs) (i : ElemId) : ElemId :=
  match (O.elem i).kind with
  | .cap => i
  | _ => (O.elem i).cap

/-- capacitive loss C/Q·|⟨p|V|q⟩|² of one placement, zero if the capacitor has no quality factor -/
noncomputable def capLoss (O : Objs) {nl : ℕ} (noise : NoiseSpec nl) (val : ElemId → ℝ) (omega : ℝ) {ι : Type*}
    [Fintype ι] (s s' : ι → ℂ) (V : Edge → Matrix ι ι ℂ) (x : Edge × ElemId) : ℝ :=
  match noise.capQ (capacitorOf O x.2) with
  | none => 0
  | some Q => val (capacitorOf O x.2) / Q omega * ‖braket s (V x.1) s'‖ ^ 2

/-- inductive loss |⟨p|Φ|q⟩|²/(QL) of one inductor, zero if its quality factor is NaN -/
noncomputable def indLoss {nl : ℕ} (noise : NoiseSpec nl) (val : ElemId → ℝ) (omega T : ℝ) {ι : Type*}
    [Fintype ι] (s s' : ι → ℂ) (F : Edge → Matrix ι ι ℂ) (x : Edge × ElemId) : ℝ :=
  match noise.indQ x.2 omega T with
  | none => 0
  | some Q => ‖braket s (F x.1) s'‖ ^ 2 / (Q * val x.2)

/-- quasiparticle loss Y·ω·(ħE_J)·|⟨p|S|q⟩|² of one junction, zero if its admittance is NaN -/
noncomputable def qpLoss {nl : ℕ} (noise : NoiseSpec nl) (val : ElemId → ℝ) (omega T : ℝ) {ι : Type*}
    [Fintype ι] (s s' : ι → ℂ) (i : ElemId) (S : Matrix ι ι ℂ) : ℝ :=
  match noise.junY i omega T with
  | none => 0
  | some Y => Y * omega * (hbar * val i) * ‖braket s S s'‖ ^ 2

end SQ.Spec
