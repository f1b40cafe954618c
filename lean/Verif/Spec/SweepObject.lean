import Verif.Model.SweepObject

/-!
# C140: what a sweep of one parameter tabulates, and which steps write a file or an array
-/

namespace SQ.Spec
open SQ

/-- The tables of a sweep of one parameter over the values `g` on a circuit in state `w`, where `point v` is the call that
sets the parameter to `v`: entry `j` of the frequencies is what `diag(numEig)` returns after the parameter is set to `g[j]`,
and, if losses are asked for, entry `j` of each rate is what `dec_rate(type, (1, 0))` returns after that. -/
def PointTables {P : Phys} (rate : String → World P → Except PyErr Rate) (w : World P) (point : ℝ → Act) (numEig : ℕ)
    (loss : Bool) (g : List ℝ) (tab : FreqTab) (dec : Option RateTab) : Prop :=
  (∀ j < g.length, ∃ r, (diag (some numEig) (run w [point (g.getD j 0)])).1 = .ok r ∧
    ∀ e < numEig, tab e [j] = r.1.getD e 0) ∧
  (loss = false → dec = none) ∧
  (loss = true → ∃ D, dec = some D ∧ ∀ j < g.length,
    ∀ ty ∈ ["capacitive", "inductive", "quasiparticle", "charge", "cc", "flux"],
      rate ty (run w [point (g.getD j 0), .diag (some numEig)]) = .ok (D ty [j]))

/-- at every value of `g` the circuit can be set, diagonalised and, if losses are asked for, its rates computed -/
def PointsWork {P : Phys} (rate : String → World P → Except PyErr Rate) (w : World P) (point : ℝ → Act) (numEig : ℕ)
    (loss : Bool) (g : List ℝ) : Prop :=
  ∀ v ∈ g, ((point v).exec w).1 = .ok () ∧
    (∃ r, (diag (some numEig) (run w [point v])).1 = .ok r ∧ r.1.length = numEig) ∧
    (loss = true → ∀ ty ∈ ["capacitive", "inductive", "quasiparticle", "charge", "cc", "flux"],
      ∃ x, rate ty (run w [point v, .diag (some numEig)]) = .ok x)

/-- one parameter is swept, by the calls `point` -/
inductive OneParameter : SweepKind → (ℝ → Act) → Prop
  | flux (l : LoopId) (ls : List LoopId) : OneParameter (.flux (l :: ls)) (.setFlux l)
  | charge (m : Option ℤ) (ms : List (Option ℤ)) : OneParameter (.charge (m :: ms)) (.setChargeOffset m)

/-- the step may write the file `f` -/
def _root_.SQ.DeskOp.writes (f : String) : DeskOp → Prop
  | .sweep _ _ _ toFile _ => toFile = some f
  | .save _ f' => f' = f
  | _ => False

/-- the step is the caller's own change of the array `k` -/
def _root_.SQ.DeskOp.edits (k : ℕ) : DeskOp → Prop
  | .editTab k' _ => k' = k
  | .editDec k' _ => k' = k
  | _ => False

end SQ.Spec
