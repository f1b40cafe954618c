import Verif.Model.Failure
import Verif.Model.Readers
import Verif.Spec.State

/-! # What a call that raises may leave behind -/

namespace SQ.Spec
open SQ

variable {c : CircSpec} {eigs : (Σ (k : ℕ) (d : Fin k → ℕ), Op d) → ℤ →
      Except PyErr (List (ℂ × Σ (k : ℕ) (d : Fin k → ℕ), Idx d → ℂ))} {as : List ℂ → List ℕ}

/-- the call raises an exception -/
def Raises {α σ : Type*} (r : Call σ α) : Prop := ∃ e, r.1 = .error e

/-- A history without the two kinds of calls that leave something behind when they raise: every list given to `set_trunc_nums`
contains only numbers from 1 on, and every `update` succeeds. Calls of all other kinds may raise. -/
noncomputable def Careful (w : World (circPhys c eigs as)) : List Act → Prop
  | [] => True
  | a :: h => (∀ nums, a = .setTruncNums (.list nums) → ∀ x ∈ nums, 1 ≤ x) ∧
      (a = .update → (a.execFull w).1 = .ok ()) ∧ Careful (a.execFull w).2 h

end SQ.Spec
