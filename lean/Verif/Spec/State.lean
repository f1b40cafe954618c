import Verif.Model.State

/-! # Specification of circuit state properties -/

namespace SQ.Spec
open SQ

/-- `argsort` returns a permutation of the indices that sorts complex numbers by real part, then
imaginary part. -/
def CArgsortSpec (argsort : List ℂ → List ℕ) : Prop :=
  ∀ l : List ℂ, (argsort l).Perm (List.range l.length) ∧
    (argsort l).Pairwise (fun i j => (l.getD i 0).re < (l.getD j 0).re ∨
      ((l.getD i 0).re = (l.getD j 0).re ∧ (l.getD i 0).im ≤ (l.getD j 0).im))

/-- The Hamiltonian determined by element values, loop fluxes, charge offsets and dimensions: that of
a circuit built from scratch. -/
def freshHam (P : Phys) (vals : ElemId → ℝ) (flux : LoopId → ℝ) (ng : ℕ → Option ℝ) (m : List ℤ) :
    Except PyErr P.Op :=
  match P.build vals with
  | .error e => .error e
  | .ok bd =>
    match P.memOps bd m ng with
    | .error e => .error e
    | .ok mem => P.ham bd mem (P.expOps bd m) (P.lc bd mem) vals flux

/-- calls that modify a circuit's operators -/
def modifies : Act → Bool
  | .setTruncNums _ | .setChargeOffset _ _ | .truncateCircuit _ | .update => true
  | _ => false

/-- In the history every call that modifies the circuit's operators succeeded or was rejected without
effect. -/
noncomputable def Orderly {P : Phys} (w : World P) : List Act → Prop
  | [] => True
  | a :: h => (modifies a = true → (a.exec w).1 = .ok () ∨ (a.exec w).2 = w) ∧
      Orderly (a.exec w).2 h

/-- element values at the time of construction or of the last successful `update` -/
noncomputable def lastBuilt {P : Phys} (v0 : ElemId → ℝ) (w : World P) : List Act → (ElemId → ℝ)
  | [] => v0
  | .update :: h =>
    match (Act.exec .update w).1 with
    | .ok _ => lastBuilt w.vals (Act.exec .update w).2 h
    | .error _ => lastBuilt v0 (Act.exec .update w).2 h
  | a :: h => lastBuilt v0 (a.exec w).2 h

/-- no call in the history sets truncation numbers -/
def noTrunc (h : List Act) : Prop :=
  ∀ a ∈ h, (∀ x, a ≠ .setTruncNums x) ∧ (∀ x, a ≠ .truncateCircuit x)

/-- no call in the history diagonalises -/
def noDiag (h : List Act) : Prop := ∀ a ∈ h, ∀ x, a ≠ .diag x

end SQ.Spec
