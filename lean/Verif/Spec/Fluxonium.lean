import Verif.Spec.Symbolic

/-!
# The fluxonium circuit

`Circuit({(0, 1): [L, JJ]})` with one loop through an inductor and a Josephson junction.
-/

namespace SQ.Spec
open Real Matrix

/-- elements: 0 inductor (capacitor 1), 2 junction (capacitor 3), both in loop 0; the values are supplied
separately -/
def fluxoniumObjs : Objs where
  elem := fun i =>
    if i = 0 then ⟨.ind, 1, 1, [0], false, true⟩
    else if i = 2 then ⟨.jj, 1, 3, [0], false, true⟩
    else ⟨.cap, 1, 0, [], false, true⟩
  loopValue := fun _ => 0
  loopReqGrad := fun _ => false
  loopIsLeaf := fun _ => true

/-- the circuit dictionary -/
def fluxoniumEls : Elements := [((0, 1), [0, 2])]

/-- angular frequency of an LC oscillator -/
noncomputable def lcFrequency (L C : ℝ) : ℝ := 1 / √(L * C)

/-- phase zero-point fluctuation of an LC oscillator: (2π/Φ₀)√(ħZ/2), Z = √(L/C) -/
noncomputable def lcPhaseZp (L C : ℝ) : ℝ := 2 * π / Phi0 * √(hbar / 2 * √(L / C))

/-- ω a†a - E_J cos(sφ + φ_ext) on the N-dimensional space of mode `i`, φ = φ_zp(a + a†), for an inductance
L, capacitance C, Josephson energy EJ (all over ħ) and sign s -/
noncomputable def fluxoniumHamiltonian {k : ℕ} (m : Fin k → ℕ) (i : Fin k) (L C EJ s ext : ℝ) : Op m :=
  let E := onMode m i (NormedSpace.exp ((Complex.I * (s * lcPhaseZp L C : ℝ)) • (qDestroy (m i) + qCreate (m i))))
  let P := Complex.exp (Complex.I * (ext : ℝ)) • E
  ((lcFrequency L C : ℝ) : ℂ) • (onMode m i (qCreate (m i)) * onMode m i (qDestroy (m i))) -
    ((EJ : ℝ) : ℂ) • ((1 / 2 : ℂ) • (P + Pᴴ))

end SQ.Spec
