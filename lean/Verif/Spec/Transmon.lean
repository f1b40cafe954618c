import Verif.Spec.Symbolic
import Verif.Spec.Graph

/-!
# Junctions and capacitors in parallel

`Circuit({(0, 1): [...]})` with junctions and capacitors only: Cooper pair box, transmon, SQUID.
-/

namespace SQ.Spec
open Real Matrix

/-- a dictionary with one edge, between ground and node 1 -/
def oneEdge (ids : List ElemId) : Elements := [((0, 1), ids)]

/-- total capacitance of the listed elements (capacitors, and capacitors attached to junctions) -/
noncomputable def totalCap (O : Objs) (ids : List ElemId) : ℝ := (ids.map (placedCap O)).sum

/-- |n+1⟩⟨n| on N charge states -/
def chargeRaise (N : ℕ) : Matrix (Fin N) (Fin N) ℂ :=
  Matrix.of fun x y => if (x : ℕ) = y + 1 then 1 else 0

/-- cos(φ + ext) in the charge basis: (e^{i ext}|n+1⟩⟨n| + h.c.)/2 -/
noncomputable def chargeCos {k : ℕ} (m : Fin k → ℕ) (i : Fin k) (ext : ℝ) : Op m :=
  let P := Complex.exp (Complex.I * (ext : ℝ)) • onMode m i (chargeRaise (m i))
  (1 / 2 : ℂ) • (P + Pᴴ)

/-- (2e)²/(2C) (n - ng)² / ħ on mode `i` -/
noncomputable def charging {k : ℕ} (m : Fin k → ℕ) (i : Fin k) (C ng : ℝ) : Op m :=
  (((2 * eCharge) ^ 2 / (2 * C) / hbar : ℝ) : ℂ) •
    ((onMode m i (qCharge (m i)) - (ng : ℂ) • 1) * (onMode m i (qCharge (m i)) - (ng : ℂ) • 1))

end SQ.Spec
