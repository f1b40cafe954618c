import Verif.Model.CircuitPhys

/-!
# Several circuits in one program

Element and loop objects can be placed in several circuits. The circuits of one program share the values of elements and
loops, the frequency unit and the bookkeeping that every construction and every `update` writes into the loops (`Loop.indices`,
`Loop.k_mat`).
-/

namespace SQ

/-- the state machine of `Model/State.lean` with given external eigensolver and sort -/
abbrev EigsRoutine := (Σ (k : ℕ) (d : Fin k → ℕ), Op d) → ℤ →
  Except PyErr (List (ℂ × Σ (k : ℕ) (d : Fin k → ℕ), Idx d → ℂ))

/-- A program with the circuits `c i`; `none`: not constructed yet. `heap` holds the loop objects with their bookkeeping. -/
structure Bench {ι : Type} (c : ι → CircSpec) (eigs : EigsRoutine) (as : List ℂ → List ℕ) where
  circ : ∀ i, Option (Circ (circPhys (c i) eigs as))
  heap : LoopId → LoopObj
  vals : ElemId → ℝ
  flux : LoopId → ℝ
  unitFreq : ℝ

/-- circuit.py: the methods of a circuit (those of `Act` that are called on a circuit) -/
inductive Method
  | setTruncNums (a : NumsArg)
  | setChargeOffset (mode : Option ℤ) (ng : ℝ)
  | setChargeNoise (mode : Option ℤ) (amp : ℝ)
  | truncateCircuit (K : Option ℤ)
  | hamiltonian
  | diag (k : Option ℤ)

/-- the same call in the model of one circuit -/
def Method.act : Method → Act
  | .setTruncNums a => .setTruncNums a
  | .setChargeOffset m x => .setChargeOffset m x
  | .setChargeNoise m x => .setChargeNoise m x
  | .truncateCircuit K => .truncateCircuit K
  | .hamiltonian => .hamiltonian
  | .diag k => .diag k

/-- setters of shared objects: `Loop.set_flux` (elements.py:661-672), `set_value` of an element (elements.py), `set_unit_freq`
(settings/units) -/
inductive Setter
  | flux (l : LoopId) (v : ℝ)
  | value (i : ElemId) (v : ℝ)
  | unitFreq (u : ℝ)

/-- the same call in the model of one circuit -/
def Setter.act : Setter → Act
  | .flux l v => .setFlux l v
  | .value i v => .setValue i v
  | .unitFreq u => .setUnitFreq u

/-- one statement of the program; `other h` stands for anything else that overwrites the bookkeeping of the loops (for example a
construction that fails half way, or a circuit outside the family) -/
inductive BenchAct (ι : Type)
  | build (i : ι)
  | call (i : ι) (m : Method)
  | update (i : ι)
  | set (s : Setter)
  | other (h : LoopId → LoopObj)

variable {P : Phys}

/-- circuit.py:356-395: the attributes `__init__` sets once the elements have been processed -/
noncomputable def newCirc (bd : P.BD) : Circ P where
  bd := bd
  islands := fun i => if i < P.nModes bd ∧ P.isCharge bd i = true then some (ChargeObj.init 0 1e-4) else none
  m := []
  ms := []
  mem := none
  exp := none
  lc := none
  trig := none
  efreqs := []
  evecs := []

/-- circuit.py:397-440 `update`, given the outcome `r` of processing the elements -/
def updateWith (r : Except PyErr P.BD) (w : World P) : Call (World P) Unit :=
  match r with
  | .error e => (.error e, w)
  | .ok bd =>
    let c : Circ P := { bd := bd, islands := w.circ.islands, m := w.circ.m, ms := w.circ.ms,
                        mem := none, exp := none, lc := none, trig := none,
                        efreqs := w.circ.efreqs, evecs := w.circ.evecs }
    match c.buildOps with
    | .error e => (.error e, { w with circ := c })
    | .ok c => (.ok (), { w with circ := { c with efreqs := [], evecs := [] } })

/-- the circuit description with the loops as they are now -/
def CircSpec.withHeap (c : CircSpec) (h : LoopId → LoopObj) : CircSpec := { c with h := h }

/-- circuit.py:743-806, 593-604: the loop objects after `_get_LCWB` for `n` nodes (unchanged if it raises an exception; see
`BenchAct.other`) -/
noncomputable def heapAfter (c : CircSpec) (n : ℕ) (vals : ElemId → ℝ) (h : LoopId → LoopObj) : LoopId → LoopObj :=
  match traverse c.torch c.fd (c.O.withVals vals) n h c.els with
  | .error _ => h
  | .ok a => a.st.loopHeap

section
variable {ι : Type} [DecidableEq ι] {c : ι → CircSpec} {eigs : EigsRoutine} {as : List ℂ → List ℕ}

/-- circuit `i` with the shared values -/
def Bench.view (b : Bench c eigs as) (i : ι) : Option (World (circPhys (c i) eigs as)) :=
  (b.circ i).map fun x => ⟨x, b.vals, b.flux, b.unitFreq⟩

/-- write back circuit `i` and the shared values -/
def Bench.store (b : Bench c eigs as) (i : ι) (w : World (circPhys (c i) eigs as)) : Bench c eigs as where
  circ := Function.update b.circ i (some w.circ)
  heap := b.heap
  vals := w.vals
  flux := w.flux
  unitFreq := w.unitFreq

/-- result and next state of one statement; a call on a circuit that was not constructed is a `KeyError` (in Python a
`NameError`) -/
noncomputable def BenchAct.exec (a : BenchAct ι) (b : Bench c eigs as) : Except PyErr Unit × Bench c eigs as :=
  match a with
  | .build i =>
    let h' := match numNodes (c i).els with
      | .error _ => b.heap
      | .ok n => heapAfter (c i) n b.vals b.heap
    match buildCirc ((c i).withHeap b.heap) b.vals with
    | .error e => (.error e, { b with heap := h' })
    | .ok bd => (.ok (), { b with circ := Function.update b.circ i (some (newCirc bd)), heap := h' })
  | .call i m =>
    match b.view i with
    | none => (.error .keyError, b)
    | some w => let r := m.act.exec w; (r.1, b.store i r.2)
  | .update i =>
    match b.view i with
    | none => (.error .keyError, b)
    | some w =>
      let n := Build.k w.circ.bd
      let r := updateWith (P := circPhys (c i) eigs as) (rebuildCirc ((c i).withHeap b.heap) n b.vals) w
      (r.1, { b.store i r.2 with heap := heapAfter (c i) n b.vals b.heap })
  | .set s =>
    match s with
    | .flux l v => (.ok (), { b with flux := Function.update b.flux l (v * 2 * Real.pi) })
    | .value i v => (.ok (), { b with vals := Function.update b.vals i v })
    | .unitFreq u => (.ok (), { b with unitFreq := u })
  | .other h => (.ok (), { b with heap := h })

/-- state after a program -/
noncomputable def benchRun (b : Bench c eigs as) (h : List (BenchAct ι)) : Bench c eigs as :=
  h.foldl (fun b a => (a.exec b).2) b

end

end SQ
