import Verif.Props.LevelsSession
import Verif.Model.GradSession

/-!
# C90: the derivative `get_partial_omega(el)` takes for a junction object
-/

namespace SQ
open Spec

/-- C90 for a junction object `i` of the circuit: for a level that is not degenerate, `get_partial_omega` for this element
is 2π times the unit of frequency times the derivative of the frequency that `diag` returns after
`set_value` of the junction. -/
theorem C90_junction_element {c : CircSpec} {eigs : EigsFn} {as : List ℂ → List ℕ}
    (he : EigsLowest eigs) (ha : CArgsortSpec as) (hs : NoSelfLoops c.els)
    (vals : ElemId → ℝ) (flux : LoopId → ℝ) (u : ℝ)
    (w0 : World (circPhys c eigs as)) (hw : construct (circPhys c eigs as) vals flux u = .ok w0)
    (h : List Act) (hh : Orderly w0 h) (hm : (run w0 h).circ.m ≠ []) (P) :
    let w := run w0 h
    let bd := w.circ.bd
    let d := bd.dims w.circ.m
    ∀ (i : ElemId) (num m : ℕ), (c.O.elem i).kind = .jj → num + 1 < Fintype.card (Idx d) → m + 1 < num →
    ∃ (F : ℝ → List ℝ) (ev : ℝ → List (Idx d → ℂ)),
      (∀ t, (diag (some num) (run w0 (h ++ [.setValue i t]))).1 =
        .ok (F t, (ev t).map (fun v => ⟨_, d, v⟩))) ∧
      ∀ t, SimpleLevel (F t) m →
        ∃ r, partialOmega (ev t) (partialH bd.C bd.M (buildMem bd.M.data d (fun i => (w.circ.ng i).getD 0))
            (Function.update w.vals i t) bd.B (fun j => w.flux (bd.loops.get j)) P bd.inds
            bd.juns none (gradElOf c.O _ i)) m false = .ok r ∧
          HasDerivAt (fun t => (F t).getD m 0) (r / (2 * Real.pi * w.unitFreq)) t := by
  intro w bd d i num m hi
  have hg : ∀ nl, gradElOf c.O nl i = .jun i := by
    intro nl
    unfold gradElOf
    rw [hi]
  rw [hg]
  exact C90_junction_session he ha hs vals flux u w0 hw h hh hm P i num m hi

end SQ
