import Verif.Model.Shared

/-!
# What one circuit of a program can see
-/

namespace SQ.Spec
open SQ

variable {ι : Type} [DecidableEq ι]

/-- constructions of and calls on circuit `i`, and the setters of shared elements, loops and units -/
def Concerns (i : ι) : BenchAct ι → Bool
  | .build j => j = i
  | .call j _ => j = i
  | .update j => j = i
  | .set _ => true
  | .other _ => false

/-- the statements that concern circuit `i`, as calls in the model of one circuit -/
def ownActs (i : ι) (h : List (BenchAct ι)) : List Act :=
  h.filterMap fun
    | .build _ => none
    | .call j m => if j = i then some m.act else none
    | .update j => if j = i then some .update else none
    | .set s => some s.act
    | .other _ => none

end SQ.Spec
