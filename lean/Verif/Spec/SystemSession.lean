import Verif.Model.SystemSession

/-!
# Circuits a system can use
-/

namespace SQ.Spec
open SQ

/-- the couplings of a system with the present values of their capacitors; elements that are no capacitors do not couple -/
def couplesNow (O : Objs) (vals : ElemId → ℝ) (cps : List CoupleObj) : List Couple :=
  cps.map fun g => ⟨g.cr1, g.attr1, g.cr2, g.attr2, if (O.elem g.el).kind = .cap then some (vals g.el) else none⟩

variable {c : CircId → CircSpec} {eigs : EigsRoutine} {as : List ℂ → List ℕ}

/-- `charge_op(mode, basis='eig')` of circuit `i` succeeds for every mode and returns a matrix with one row for each of its
eigenfrequencies -/
def ChargesFit (b : Bench c eigs as) (i : CircId) : Prop :=
  ∀ j < (subNow b i).n, chargeNow b i ((j : ℤ) + 1) = .ok ⟨(subNow b i).efreqs.length, (subNow b i).Q j⟩

end SQ.Spec
