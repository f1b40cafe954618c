import Verif.Model.Sweep
import Verif.Model.NoiseBuild

/-!
# `dec_rate` on circuit objects, and sweep.py with the 'loss' property
-/

namespace SQ

/-- Noise properties of the element and loop objects. Amplitudes of charge noise are stored in the circuit's charge
islands. -/
structure ObjNoise where
  /-- `cap.Q` (`none`: no quality factor) -/
  capQ : ElemId → Option (ℝ → ℝ)
  /-- `el.Q(omega, T)` of an inductor (`none`: NaN) -/
  indQ : ElemId → ℝ → ℝ → Option ℝ
  /-- `el.Y(omega, T)` of a junction (`none`: NaN) -/
  junY : ElemId → ℝ → ℝ → Option ℝ
  /-- `el.A` of a junction -/
  junA : ElemId → ℝ
  /-- `loop.A` -/
  loopA : LoopId → ℝ

/-- The amplitudes `dec_rate` reads for a circuit with loops `loops` and charge islands `islands`
(circuit.py:2471, 2498, 2524). -/
def ObjNoise.spec (o : ObjNoise) (loops : List LoopId) (islands : ℕ → Option ChargeObj) : NoiseSpec loops.length where
  capQ := o.capQ
  indQ := o.indQ
  junY := o.junY
  junA := o.junA
  loopA := fun l => o.loopA (loops.get l)
  chargeA := fun i => ((islands i).map ChargeObj.A).getD 0

/-- a stored eigenvector as a vector on the index set of the stored operators -/
noncomputable def vecOn {k : ℕ} (d : Fin k → ℕ) (v : Σ (k : ℕ) (d : Fin k → ℕ), Idx d → ℂ) : Option (Idx d → ℂ) :=
  open Classical in
  if h : (⟨v.1, v.2.1⟩ : Σ k : ℕ, Fin k → ℕ) = ⟨k, d⟩ then
    some (fun x => v.2.2 (cast (congrArg (fun s : Σ k : ℕ, Fin k → ℕ => Idx s.2) h.symm) x))
  else none

variable {c : CircSpec} {eigs : (Σ (k : ℕ) (d : Fin k → ℕ), Op d) → ℤ →
    Except PyErr (List (ℂ × Σ (k : ℕ) (d : Fin k → ℕ), Idx d → ℂ))} {as : List ℂ → List ℕ}

/-- circuit.py:2529-2647 `dec_rate` of a circuit object, from what the object has stored. The sine, half-angle and
inductive operators it reads were stored by the last call of `hamiltonian`; only states in which these operators still
belong to the present fluxes and truncation, and the stored eigenvectors to the present truncation, are modelled
(`none` otherwise). `partial_mats` is read only for derivatives with respect to capacitors and inductors, which
`dec_rate` does not take (hence the 0). -/
noncomputable def sessionRate (noise : ObjNoise) (env : NoiseEnv) (ty : String) (states : ℤ × ℤ) (total : Bool)
    (w : World (circPhys c eigs as)) : Option (Except PyErr Rate) :=
  open Classical in
  if w.circ.efreqs.length = 0 then some (.error .circuitState)
  else
    match w.circ.mem, w.circ.exp with
    | some mem, some ex =>
      if h : ex.1 = mem.1 ∧ w.circ.trig = some ((circPhys c eigs as).trig w.circ.bd mem ex w.flux) then
        (w.circ.evecs.mapM (vecOn mem.1)).map fun ev =>
          let bd : Build := w.circ.bd
          let nc : NoiseCirc := {
            n := bd.n, nJ := bd.nJ, b := bd.nB, nl := bd.loops.length, C := bd.C, M := bd.M, m := mem.1
            mem := { mem.2 with exp := fun i => h.1 ▸ ex.2.1 i, rootExp := fun i => h.1 ▸ ex.2.2 i }
            val := w.vals, B := bd.B, loopVals := fun l => w.flux (bd.loops.get l), P := fun _ => 0
            inds := bd.inds, juns := bd.juns, caps := branchCaps c.O c.els
            noise := noise.spec bd.loops w.circ.islands, env := env, efreqs := w.circ.efreqs, evecs := ev }
          nc.decRate ty states total
      else none
    | _, _ => none

/-- sweep.py:45-53: the keys of `self.dec`, in order. -/
def sweepTypes : List String := ["capacitive", "inductive", "quasiparticle", "charge", "cc", "flux"]

variable {P : Phys}

/-- sweep.py:95-98, 135-138: the rates at one grid point; `rate ty w` is `cr.dec_rate(dec_type=ty, states=(1, 0))`
in state `w`. Here the index is the tuple itself. -/
def fillDec (rate : String → World P → Except PyErr Rate) (ind : List ℕ) (w : World P) :
    List String → (String → List ℕ → Rate) → Except PyErr (String → List ℕ → Rate)
  | [], dec => .ok dec
  | ty :: l, dec =>
    match rate ty w with
    | .error e => .error e
    | .ok r => fillDec rate ind w l (Function.update dec ty (Function.update (dec ty) ind r))

/-- sweep.py:87-98, 127-138: the loop over grid points with 'loss' among the properties. -/
noncomputable def lossLoop (rate : String → World P → Except PyErr Rate) (set : ℕ → ℝ → World P → Call (World P) Unit)
    (numEig : ℕ) (grid : List (List ℝ)) :
    List (List ℕ) → (ℕ → List ℕ → ℝ) → (String → List ℕ → Rate) → World P →
      Call (World P) ((ℕ → List ℕ → ℝ) × (String → List ℕ → Rate))
  | [], tab, dec, w => (.ok (tab, dec), w)
  | ind :: l, tab, dec, w =>
    match setParams set grid (ind.zipIdx.map Prod.swap) w with
    | (.error e, w) => (.error e, w)
    | (.ok _, w) =>
      match diag (some numEig) w with
      | (.error e, w) => (.error e, w)
      | (.ok (ev, _), w) =>
        match assignEfreq numEig (grid.map List.length) tab ind ev with
        | .error e => (.error e, w)
        | .ok tab =>
          match fillDec rate ind w sweepTypes dec with
          | .error e => (.error e, w)
          | .ok dec => lossLoop rate set numEig grid l tab dec w

/-- sweep.py:71-148 with 'loss' among the properties: both tables start as zeros. -/
noncomputable def sweepLoss (rate : String → World P → Except PyErr Rate) (set : ℕ → ℝ → World P → Call (World P) Unit)
    (numEig : ℕ) (grid : List (List ℝ)) (w : World P) :
    Call (World P) ((ℕ → List ℕ → ℝ) × (String → List ℕ → Rate)) :=
  lossLoop rate set numEig grid (gridIndices (grid.map List.length)) (fun _ _ => 0) (fun _ _ => .val 0) w

end SQ
