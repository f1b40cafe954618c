import Verif.Model.CircuitPhys

/-!
# Calls that raise

`update` in `Model/State.lean` leaves the circuit as it was when the elements cannot be processed. Here the assignments made
before the exception are followed further: circuit.py:416-421 assigns `C`, `L`, `W`, `B`, then `R` and `S` (identity matrices)
and inverts `C`, which raises `LinAlgError` for a singular matrix.
-/

namespace SQ
open Matrix

variable {c : CircSpec} {eigs : (Σ (k : ℕ) (d : Fin k → ℕ), Op d) → ℤ →
      Except PyErr (List (ℂ × Σ (k : ℕ) (d : Fin k → ℕ), Idx d → ℂ))} {as : List ℂ → List ℕ}

/-- circuit.py:416-417: `C` replaced by the new matrix, `R` and `S` by identity matrices; `cInvTrans`, `lTrans`, `wTrans` and
`omega` are assigned later. `np.eye(self.n)` has the size of the old matrices unless modes had been removed; that case is not
followed (nothing is replaced). `B`, `elem_keys` and `loops` are left as they were: the element keys and loops are computed anew
from the same dictionary, and only the flux distribution of loops could differ. -/
noncomputable def Build.resetFrame (b : Build) (C : Matrix (Fin b.k) (Fin b.k) ℝ) : Build :=
  { b with
    C := if h : b.n = b.k then Matrix.of fun i j => C (i.cast h) (j.cast h) else b.C
    M := { b.M with
      R := if b.n = b.k then 1 else b.M.R
      S := if b.n = b.k then 1 else b.M.S } }

/-- circuit.py:397-440 `update`, with what is left behind by the inversion of a singular `C` (lines 416-419). Exceptions of
`_get_LCWB` (before any of these attributes is assigned) and of the transformations are treated as in `Model/State.lean`. -/
noncomputable def updateFull (w : World (circPhys c eigs as)) : Call (World (circPhys c eigs as)) Unit :=
  open Classical in
  match getLCWB c.sv c.torch c.fd (c.O.withVals w.vals) w.circ.bd.k c.h c.els with
  | .error _ => update w
  | .ok ⟨a, _⟩ =>
    if a.cMat.det = 0 then
      (.error .linAlg, { w with circ := {
        bd := Build.resetFrame w.circ.bd a.cMat, islands := w.circ.islands, m := w.circ.m, ms := w.circ.ms
        mem := w.circ.mem, exp := w.circ.exp, lc := w.circ.lc, trig := w.circ.trig
        efreqs := w.circ.efreqs, evecs := w.circ.evecs } })
    else update w

/-- result and next state of one call, with `updateFull` for `update` -/
noncomputable def Act.execFull (a : Act) (w : World (circPhys c eigs as)) : Except PyErr Unit × World (circPhys c eigs as) :=
  match a with
  | .update => updateFull w
  | a => a.exec w

/-- final state of a history -/
noncomputable def runFull (w : World (circPhys c eigs as)) (h : List Act) : World (circPhys c eigs as) :=
  h.foldl (fun w a => (a.execFull w).2) w

end SQ
