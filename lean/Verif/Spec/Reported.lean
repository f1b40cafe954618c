import Verif.Model.State
import Verif.Spec.Graph

/-!
# The frequencies a session reports
-/

namespace SQ.Spec

/-- the frequencies `diag(num)` returns in state `w` (no frequencies if it raises) -/
noncomputable def reported {P : Phys} (num : ℕ) (w : World P) : List ℝ :=
  match (diag (some num) w).1 with
  | .ok r => r.1
  | .error _ => []

/-- the reported transition frequency between levels `p` and `q` -/
noncomputable def transition {P : Phys} (num p q : ℕ) (w : World P) : ℝ :=
  (reported num w).getD p 0 - (reported num w).getD q 0

/-- the junction objects of a circuit, one entry per branch, in dictionary order -/
def junctionObjects (O : Objs) (els : Elements) : List ElemId :=
  ((placements els).filter (fun q => decide ((O.elem q.2).kind = .jj))).map Prod.snd

end SQ.Spec
