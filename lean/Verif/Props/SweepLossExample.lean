import Verif.Props.SweepLoss
import Verif.Props.LevelsExample

/-!
# C112: a fluxonium session whose sweep tabulates rates
-/

namespace SQ
open Spec

/-- The hypotheses of C112 are met by a fluxonium (a capacitor, an inductor and a junction in a loop), truncated, with
three states per grid point: the sweep over three fluxes returns, and the entry for flux noise at the
second point is what `dec_rate` returns there. -/
theorem C112_example (noise : ObjNoise) (env : NoiseEnv) :
    ∃ (eigs : EigsFn) (as : List ℂ → List ℕ) (c : CircSpec) (vals : ElemId → ℝ)
      (w0 : World (circPhys c eigs as)) (h : List Act),
      EigsLowest eigs ∧ CArgsortSpec as ∧ NoSelfLoops c.els ∧
      construct (circPhys c eigs as) vals (fun _ => 0) 1 = .ok w0 ∧ Orderly w0 h ∧ (run w0 h).circ.bd.loops = [0] ∧
      ∃ tab dec w', sweepLoss (sweepRate noise env) (setLoop [0]) 3 [[0, 1 / 2, 1]] (run w0 h) = (.ok (tab, dec), w') ∧
        sessionRate noise env "flux" (1, 0) true (run w0 (h ++ [.setFlux 0 (1 / 2), .diag (some 3)])) =
          some (.ok (dec "flux" [1])) := by
  obtain ⟨eigs, as, c, vals, w0, h, he, ha, hs, hw, hh, hm, hcard, -, hlo, -⟩ := C90_example
  obtain ⟨tab, dec, w', h1, h2⟩ := C112_circuit_flux he ha hs vals _ _ w0 hw h hh hm 3 (by norm_num) hcard noise env 0 []
    [0, 1 / 2, 1]
  exact ⟨eigs, as, c, vals, w0, h, he, ha, hs, hw, hh, hlo, tab, dec, w', h1, (h2 1 (by simp)).2 "flux" (by simp [sweepTypes])⟩

end SQ
