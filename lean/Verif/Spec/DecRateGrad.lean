import Verif.Model.DecRateGrad
import Verif.Spec.Levels

/-!
# Vocabulary for gradients of dephasing rates
-/

namespace SQ.Spec

/-- the element values when parameter `p` is given the value `t` -/
def valuesAt {nl : ℕ} (val : ElemId → ℝ) : GradEl nl → ℝ → ElemId → ℝ
  | .loop _, _ => val
  | .jun i, t => Function.update val i t
  | .ind i, t => Function.update val i t
  | .cap i, t => Function.update val i t

/-- the loop fluxes when parameter `p` is given the value `t` -/
def fluxesAt {nl : ℕ} (fluxes : Fin nl → ℝ) : GradEl nl → ℝ → Fin nl → ℝ
  | .loop l, t => Function.update fluxes l t
  | .jun _, _ => fluxes
  | .ind _, _ => fluxes
  | .cap _, _ => fluxes

/-- the current value of a parameter -/
def currentOf {nl : ℕ} (val : ElemId → ℝ) (fluxes : Fin nl → ℝ) : GradEl nl → ℝ
  | .loop l => fluxes l
  | .jun i => val i
  | .ind i => val i
  | .cap i => val i

/-- the parameter is an external flux or a Josephson energy -/
def FluxOrJunction (O : Objs) {nl : ℕ} : GradEl nl → Prop
  | .loop _ => True
  | .jun i => (O.elem i).kind = .jj
  | .ind _ => False
  | .cap _ => False

/-- When a parameter on which the Hamiltonian depends passes `x`, the frequency of the transition between
states `p` and `q` changes at a non-zero rate. -/
def Sensitive {ι : Type*} [Fintype ι] (ham : ℝ → Except PyErr (Matrix ι ι ℂ)) (p q : ℕ) (x : ℝ) : Prop :=
  ∃ f : ℝ → ℝ, (∀ t, ∃ H, ham t = .ok H ∧ IsTransition H p q (f t)) ∧ deriv f x ≠ 0

end SQ.Spec
