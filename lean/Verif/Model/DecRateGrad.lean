import Verif.Model.NoiseBuild

/-!
# Dephasing rates under PyTorch

The `torch.autograd.Function`s `DecRateCharge`, `DecRateCC` and `DecRateFlux`. Their `forward` returns the number
`dec_rate` computes (`NoiseCirc.decRate`); `setup_context` keeps a copy of the circuit with its stored
eigenpairs, here the `NoiseCirc` itself; `backward` is modelled below. `grad_output` is the number `g` handed to
`backward` by PyTorch. Simplification: the gradients are real numbers; the code writes them into a
single-precision tensor (`torch.zeros(len(...))`).
-/

namespace SQ

/-- torch_extensions.py:648-657, 818-827, 1007-1016: the loop of the three `backward`s over
`circuit._parameters.keys()`; `partialRate` is `partial_charge_dec`, `partial_cc_dec` or `partial_flux_dec`. -/
noncomputable def gradOutputs {nl : ℕ} (partialRate : GradEl nl → Except PyErr ℝ) (g : ℝ) :
    List (GradEl nl) → Except PyErr (List ℝ)
  | [] => .ok []
  | p :: ps =>
    match partialRate p with
    | .error e => .error e
    | .ok r =>
      match gradOutputs partialRate g ps with
      | .error e => .error e
      | .ok rs => .ok (g * r :: rs)

variable (c : NoiseCirc)

/-- torch_extensions.py:645-657 `DecRateCharge.backward`. -/
noncomputable def NoiseCirc.chargeBackward (params : List (GradEl c.nl)) (states : ℤ × ℤ) (eps g : ℝ) :
    Except PyErr (List ℝ) := gradOutputs (fun p => c.partialChargeDec p states eps) g params

/-- torch_extensions.py:815-827 `DecRateCC.backward`. -/
noncomputable def NoiseCirc.ccBackward (params : List (GradEl c.nl)) (states : ℤ × ℤ) (eps g : ℝ) :
    Except PyErr (List ℝ) := gradOutputs (fun p => c.partialCcDec p states eps) g params

/-- torch_extensions.py:1004-1016 `DecRateFlux.backward`. -/
noncomputable def NoiseCirc.fluxBackward (params : List (GradEl c.nl)) (states : ℤ × ℤ) (eps g : ℝ) :
    Except PyErr (List ℝ) := gradOutputs (fun p => c.partialFluxDec p states eps) g params

end SQ
