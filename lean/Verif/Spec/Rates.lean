import Verif.Model.Noise

/-!
# Specification vocabulary: decoherence rates
-/

namespace SQ.Spec

/-- hyperbolic cotangent -/
noncomputable def coth (x : ℝ) : ℝ := Real.cosh x / Real.sinh x

/-- The three kinds of loss and three kinds of dephasing `dec_rate` supports. -/
def lossTypes : List String := ["capacitive", "inductive", "quasiparticle"]
def dephasingTypes : List String := ["charge", "cc", "flux"]

/-- adding two results of `dec_rate`: exceptions and infinities propagate -/
noncomputable def addRates : Except PyErr Rate → Except PyErr Rate → Except PyErr Rate
  | .error e, _ => .error e
  | .ok _, .error e => .error e
  | .ok (.val a), .ok (.val b) => .ok (.val (a + b))
  | .ok _, .ok _ => .ok .nonFinite

/-- multiplying a result of `dec_rate` by a number -/
noncomputable def scaleRate (s : ℝ) : Except PyErr Rate → Except PyErr Rate
  | .error e => .error e
  | .ok (.val a) => .ok (.val (s * a))
  | .ok .nonFinite => .ok .nonFinite

/-- Quality factors, admittances and element values are positive where they are defined. -/
structure PositiveLosses (c : NoiseCirc) : Prop where
  capQ : ∀ i Q, c.noise.capQ i = some Q → ∀ w, 0 < Q w
  indQ : ∀ i w q, c.noise.indQ i w c.env.T = some q → 0 < q
  junY : ∀ i w y, c.noise.junY i w c.env.T = some y → 0 ≤ y
  caps : ∀ p ∈ c.caps, 0 < c.val p.2
  inds : ∀ k ∈ c.inds, 0 < c.val k.el
  juns : ∀ k ∈ c.juns, 0 < c.val k.el

/-- `S` behaves as the sine of half the angle whose cosine is `K`: it is an observable with
`2 S² = 1 - K`. -/
def IsHalfAngleSine {ι : Type*} [Fintype ι] [DecidableEq ι] (S K : Matrix ι ι ℂ) : Prop :=
  S.IsHermitian ∧ (2 : ℂ) • (S * S) = 1 - K

end SQ.Spec
