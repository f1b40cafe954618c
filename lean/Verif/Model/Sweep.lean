import Verif.Model.State
import Verif.Spec.Index

/-!
# sweep.py, and `check_convergence` of circuit.py

NumPy engine, without plotting and saving; the 'loss' property is in `Model/SweepLoss.lean`.
-/

namespace SQ

/-- `itertools.product(*map(range, dims))`, and the index tuples of an array of shape `dims`. -/
def gridIndices : List ℕ → List (List ℕ)
  | [] => [[]]
  | d :: ds => (List.range d).flatMap fun i => (gridIndices ds).map (i :: ·)

/-- sweep.py:94, 134: `self.efreq[:, indices] = evec.reshape(self.efreq[:, indices].shape)`, where
`self.efreq` has shape (numEig, *dims) and `indices` is a tuple *inside* the index tuple: NumPy takes it
as an array of positions along axis 1, so the selection has shape (numEig, len(indices), *dims[1:]).
When a position occurs more than once the last one is kept. -/
noncomputable def assignEfreq (numEig : ℕ) (dims : List ℕ) (tab : ℕ → List ℕ → ℝ) (ind : List ℕ) (ev : List ℝ) :
    Except PyErr (ℕ → List ℕ → ℝ) :=
  match dims with
  | [] => .error .indexError
  | d1 :: rest =>
    if ∃ i ∈ ind, d1 ≤ i then .error .indexError
    else if ev.length ≠ numEig * (ind.length * rest.prod) then .error .valueError
    else .ok fun e idx =>
      match idx with
      | [] => tab e idx
      | i :: r =>
        match ((List.range ind.length).filter fun p => ind.getD p 0 = i).getLast? with
        | none => tab e idx
        | some p => ev.getD (Spec.rowMajor (numEig :: ind.length :: rest) (e :: p :: r)) 0

variable {P : Phys}

/-- sweep.py:89-91, 129-131: setting the parameters to the grid point. -/
noncomputable def setParams (set : ℕ → ℝ → World P → Call (World P) Unit) (grid : List (List ℝ)) :
    List (ℕ × ℕ) → World P → Call (World P) Unit
  | [], w => (.ok (), w)
  | (i, ind) :: l, w =>
    match set i ((grid.getD i []).getD ind 0) w with
    | (.error e, w) => (.error e, w)
    | (.ok _, w) => setParams set grid l w

/-- sweep.py:87-94, 127-134: the loop over grid points. -/
noncomputable def sweepLoop (set : ℕ → ℝ → World P → Call (World P) Unit) (numEig : ℕ) (grid : List (List ℝ)) :
    List (List ℕ) → (ℕ → List ℕ → ℝ) → World P → Call (World P) (ℕ → List ℕ → ℝ)
  | [], tab, w => (.ok tab, w)
  | ind :: l, tab, w =>
    match setParams set grid (ind.zipIdx.map Prod.swap) w with
    | (.error e, w) => (.error e, w)
    | (.ok _, w) =>
      match diag (some numEig) w with
      | (.error e, w) => (.error e, w)
      | (.ok (ev, _), w) =>
        match assignEfreq numEig (grid.map List.length) tab ind ev with
        | .error e => (.error e, w)
        | .ok tab => sweepLoop set numEig grid l tab w

/-- sweep.py:71-109, 111-148: the table of eigenfrequencies, initially zero. -/
noncomputable def sweep (set : ℕ → ℝ → World P → Call (World P) Unit) (numEig : ℕ) (grid : List (List ℝ))
    (w : World P) : Call (World P) (ℕ → List ℕ → ℝ) :=
  sweepLoop set numEig grid (gridIndices (grid.map List.length)) (fun _ _ => 0) w

/-- sweep.py:91 `loops[i].set_flux(…)` -/
noncomputable def setLoop (loops : List LoopId) (i : ℕ) (v : ℝ) (w : World P) : Call (World P) Unit :=
  match loops[i]? with
  | none => (.error .indexError, w)
  | some l => (Act.setFlux l v).exec w

/-- sweep.py:131 `self.cr.set_charge_offset(mode=modes[i], ng=…)` -/
noncomputable def setMode (modes : List (Option ℤ)) (i : ℕ) (v : ℝ) (w : World P) : Call (World P) Unit :=
  match modes[i]? with
  | none => (.error .indexError, w)
  | some m => (Act.setChargeOffset m v).exec w

/-- sweep.py:71-109 `sweepFlux`. -/
noncomputable def sweepFlux (loops : List LoopId) (numEig : ℕ) (grid : List (List ℝ)) (w : World P) :=
  sweep (setLoop loops) numEig grid w

/-- sweep.py:111-148 `sweepCharge`. -/
noncomputable def sweepCharge (modes : List (Option ℤ)) (numEig : ℕ) (grid : List (List ℝ)) (w : World P) :=
  sweep (setMode modes) numEig grid w

/-! ### check_convergence -/

/-- number of entries selected by `slice(-t)` along an axis of length `m` -/
def sliceLen (m : ℕ) (t : ℤ) : ℕ := if -t < 0 then (m - t).toNat else min (-t).toNat m

/-- circuit.py:2113-2118: `epsilon` for the (flattened) eigenvector `v` of a circuit with mode dimensions
`m`; the reshape is in C order. -/
noncomputable def convEpsilon (m : List ℕ) (v : ℕ → ℂ) (t : ℤ) : ℝ :=
  1 - ((gridIndices (m.map (sliceLen · t))).map fun ds => ‖v (Spec.rowMajor m ds)‖ ^ 2).sum

/-- circuit.py:2090-2118 `check_convergence`. -/
noncomputable def checkConvergence (efreqs : List ℝ) (evecs : List (ℕ → ℂ)) (m : List ℕ) (idx t : ℤ)
    (threshold : ℝ) : Except PyErr (Bool × ℝ) :=
  open Classical in
  if efreqs.length = 0 ∨ evecs.length = 0 then .error .circuitState
  else
    match pyIdx evecs.length idx with
    | .error e => .error e
    | .ok i => .ok (decide (convEpsilon m (evecs.get i) t < threshold), convEpsilon m (evecs.get i) t)

end SQ
