import Verif.Model.Elements
import Verif.Model.Graph
import Mathlib.Analysis.SpecialFunctions.Pow.Real
import Mathlib.Data.Complex.Basic
import Mathlib.Data.List.Sort

/-!
# circuit.py, part 5: the circuit object as a state machine

What the methods compute numerically is abstracted by a `Phys` (instantiated with the functions of the
earlier modules in `Model/CircuitPhys.lean`); what this file models is which stored data each method
reads, overwrites or leaves alone, and which exceptions it raises. The engine is fixed. Element and
loop objects live outside the circuit, so their values are part of the world and can be changed by the
user at any time.
-/

namespace SQ

/-- The numerical content of a circuit. `BD` is everything computed from the elements by
`_get_LCWB` and `_transform_hamil` (C, L, W, B, S, R, cInvTrans, lTrans, wTrans, omega, element keys).
-/
structure Phys where
  BD : Type
  /-- entries 'Q', 'QQ', 'phi', 'N' of `_memory_ops` -/
  Mem : BD → Type
  /-- entries 'exp', 'root_exp' of `_memory_ops` -/
  Exp : BD → Type
  LC : BD → Type
  /-- entries 'cos', 'sin', 'sin_half', 'ind_hamil' of `_memory_ops` -/
  Trig : Type
  Op : Type
  Vec : Type
  /-- the relevant part of `__init__` (circuit.py:296-354), from the element values -/
  build : (ElemId → ℝ) → Except PyErr BD
  /-- the same part of `update` (circuit.py:402-420), given `self.n` -/
  rebuild : ℕ → (ElemId → ℝ) → Except PyErr BD
  /-- `self.n` after `__init__`, and the length of `omega` -/
  nModes : BD → ℕ
  /-- `_is_charge_mode` -/
  isCharge : BD → ℕ → Bool
  /-- `_build_op_memory` from dimensions and charge offsets -/
  memOps : (bd : BD) → List ℤ → (ℕ → Option ℝ) → Except PyErr (Mem bd)
  /-- `_get_LC_hamil` -/
  lc : (bd : BD) → Mem bd → LC bd
  /-- `_build_exp_ops` -/
  expOps : (bd : BD) → List ℤ → Exp bd
  /-- `_get_inductive_hamil`, and adding the LC part, from element and loop values -/
  ham : (bd : BD) → Mem bd → Exp bd → LC bd → (ElemId → ℝ) → (LoopId → ℝ) → Except PyErr Op
  /-- operators stored by `_get_inductive_hamil` -/
  trig : (bd : BD) → Mem bd → Exp bd → (LoopId → ℝ) → Trig
  /-- `scipy.sparse.linalg.eigs(H, k, which='SR')`: unordered eigenpairs -/
  eigs : Op → ℤ → Except PyErr (List (ℂ × Vec))
  /-- `np.argsort` of a complex array -/
  argsort : List ℂ → List ℕ

/-- circuit.py:356-395: the mutable attributes of a circuit. -/
structure Circ (P : Phys) where
  bd : P.BD
  islands : ℕ → Option ChargeObj
  m : List ℤ
  ms : List ℤ
  mem : Option (P.Mem bd)
  exp : Option (P.Exp bd)
  lc : Option (P.LC bd)
  trig : Option P.Trig
  efreqs : List ℝ
  evecs : List P.Vec

/-- The circuit, the values of elements and loops, and the frequency unit. -/
structure World (P : Phys) where
  circ : Circ P
  vals : ElemId → ℝ
  flux : LoopId → ℝ
  unitFreq : ℝ

variable {P : Phys}

/-- circuit.py:276-395 `__init__`. -/
noncomputable def construct (P : Phys) (vals : ElemId → ℝ) (flux : LoopId → ℝ) (unit : ℝ) :
    Except PyErr (World P) :=
  match P.build vals with
  | .error e => .error e
  | .ok bd =>
    .ok { circ :=
            { bd := bd
              islands := fun i => if i < P.nModes bd ∧ P.isCharge bd i = true
                then some (ChargeObj.init 0 1e-4) else none
              m := [], ms := [], mem := none, exp := none, lc := none, trig := none,
              efreqs := [], evecs := [] }
          vals := vals, flux := flux, unitFreq := unit }

/-- charge offsets of the islands (circuit.py:1490) -/
def Circ.ng (c : Circ P) : ℕ → Option ℝ := fun i => (c.islands i).map ChargeObj.chValue

/-- argument of `set_trunc_nums` -/
inductive NumsArg
  | list (l : List ℤ)
  | other

/-- circuit.py:1364-1371: dimensions for given truncation numbers. -/
def dimsOf (P : Phys) (bd : P.BD) (nums : List ℤ) : List ℤ :=
  (List.range (P.nModes bd)).map (fun i =>
    if P.isCharge bd i then 2 * nums.getD i 0 - 1 else nums.getD i 0)

/-- circuit.py:1375-1379, 433-435: `_build_op_memory`, `_get_LC_hamil`, `_build_exp_ops` in turn (only
the first can fail). -/
def Circ.buildOps (c : Circ P) : Except PyErr (Circ P) :=
  match P.memOps c.bd c.m c.ng with
  | .error e => .error e
  | .ok mem => .ok { c with mem := some mem, lc := some (P.lc c.bd mem), exp := some (P.expOps c.bd c.m) }

/-- circuit.py:1340-1379 `set_trunc_nums`. -/
def setTruncNums (arg : NumsArg) (w : World P) : Call (World P) Unit :=
  match arg with
  | .other => (.error .valueError, w)
  | .list nums =>
    if nums.length ≠ P.nModes w.circ.bd then (.error .valueError, w)
    else
      let c := { w.circ with
        m := dimsOf P w.circ.bd nums
        ms := (dimsOf P w.circ.bd nums).filter (fun x => x ≠ 1) }
      match c.buildOps with
      | .error e => (.error e, { w with circ := c })
      | .ok c => (.ok (), { w with circ := c })

/-- circuit.py:484-496 `trunc_nums`; `int(x/2)` truncates. -/
def truncNums (w : World P) : Except PyErr (List ℤ) :=
  if w.circ.m.length < P.nModes w.circ.bd then .error .indexError
  else .ok ((List.range (P.nModes w.circ.bd)).map (fun i =>
    if P.isCharge w.circ.bd i then (w.circ.m.getD i 0 + 1).tdiv 2 else w.circ.m.getD i 0))

/-- the island addressed by a mode argument (`none`: not an integer), circuit.py:1392-1395 -/
def islandOf (c : Circ P) (mode : Option ℤ) : Option (ℕ × ChargeObj) :=
  match mode with
  | none => none
  | some k => if k - 1 < 0 then none else (c.islands (k - 1).toNat).map (fun o => ((k - 1).toNat, o))

/-- `self.charge_islands[i].set_offset(ng)` -/
def Circ.setIsland (c : Circ P) (i : ℕ) (o : ChargeObj) : Circ P :=
  { c with islands := Function.update c.islands i (some o) }

/-- circuit.py:1381-1404 `set_charge_offset`. -/
def setChargeOffset (mode : Option ℤ) (ng : ℝ) (w : World P) : Call (World P) Unit :=
  match islandOf w.circ mode with
  | none => (.error .valueError, w)
  | some (i, o) =>
    if w.circ.m.length = 0 then (.ok (), { w with circ := w.circ.setIsland i (o.setOffset ng) })
    else
      match P.memOps w.circ.bd w.circ.m (w.circ.setIsland i (o.setOffset ng)).ng with
      | .error e => (.error e, { w with circ := w.circ.setIsland i (o.setOffset ng) })
      | .ok mem => (.ok (), { w with circ := { w.circ.setIsland i (o.setOffset ng) with
          mem := some mem, lc := some (P.lc w.circ.bd mem) } })

/-- circuit.py:1406-1422 `set_charge_noise`: the method called does not exist. -/
def setChargeNoise (mode : Option ℤ) (_amp : ℝ) (w : World P) : Call (World P) Unit :=
  match islandOf w.circ mode with
  | none => (.error .valueError, w)
  | some _ => (.error .attributeError, w)

/-- circuit.py:2147-2164 `hamiltonian`; a circuit loaded from a `picklecopy` has no `_memory_ops`
(`AttributeError`). -/
def hamiltonian (w : World P) : Call (World P) P.Op :=
  if w.circ.m.length = 0 then (.error .circuitState, w)
  else
    match w.circ.mem, w.circ.exp, w.circ.lc with
    | some mem, some ex, some lc =>
      match P.ham w.circ.bd mem ex lc w.vals w.flux with
      | .error e => (.error e, w)
      | .ok H => (.ok H, { w with circ := { w.circ with
          trig := some (P.trig w.circ.bd mem ex w.flux) } })
    | _, _, _ => (.error .attributeError, w)

/-- `np.sort` -/
noncomputable def npSort (l : List ℝ) : List ℝ :=
  open Classical in l.mergeSort (fun a b => decide (a ≤ b))

/-- circuit.py:1966-1976: sorting of the eigensolver's output. -/
noncomputable def sortEigs {V : Type} (argsort : List ℂ → List ℕ) (raw : List (ℂ × V)) :
    List ℝ × List V :=
  let freqs := npSort (raw.map (fun p => p.1.re))
  let arg := argsort (raw.map Prod.fst)
  (freqs, arg.filterMap (fun i => (raw[i]?).map Prod.snd))

/-- circuit.py:1938-1986 `_diag_np`. -/
noncomputable def diagNp (k : ℤ) (w : World P) : Call (World P) (List ℝ × List P.Vec) :=
  match hamiltonian w with
  | (.error e, w) => (.error e, w)
  | (.ok H, w) =>
    match P.eigs H k with
    | .error e => (.error e, w)
    | .ok raw =>
      let s := sortEigs P.argsort raw
      (.ok (s.1.map (fun f => f / (2 * Real.pi * w.unitFreq)), s.2),
        { w with circ := { w.circ with efreqs := s.1, evecs := s.2 } })

/-- circuit.py:2016-2049 `diag` (`none`: not an integer), NumPy engine. Under PyTorch
(circuit.py:1988-2014, torch_extensions.py:143-203) the same numbers are computed by `_diag_np` and
stored as tensors; autograd bookkeeping is not modelled here. -/
noncomputable def diag (k : Option ℤ) (w : World P) : Call (World P) (List ℝ × List P.Vec) :=
  if w.circ.m.length = 0 then (.error .circuitState, w)
  else
    match k with
    | none => (.error .valueError, w)
    | some k => diagNp k w

/-- circuit.py:464-472 `efreqs`. -/
noncomputable def efreqs (w : World P) : Except PyErr (List ℝ) :=
  if w.circ.efreqs.length = 0 then .error .circuitState
  else .ok (w.circ.efreqs.map (fun f => f / (2 * Real.pi * w.unitFreq)))

/-- circuit.py:474-482 `evecs`. -/
def evecs (w : World P) : Except PyErr (List P.Vec) :=
  if w.circ.evecs.length = 0 then .error .circuitState else .ok w.circ.evecs

/-- circuit.py:397-440 `update`. If recomputing from the elements fails, the attributes assigned
before the exception are not tracked (the circuit is left as it was here); the number of modes
`self.n` and the charge islands are not recomputed. -/
def update (w : World P) : Call (World P) Unit :=
  match P.rebuild (P.nModes w.circ.bd) w.vals with
  | .error e => (.error e, w)
  | .ok bd =>
    let c : Circ P := { bd := bd, islands := w.circ.islands, m := w.circ.m, ms := w.circ.ms,
                        mem := none, exp := none, lc := none, trig := none,
                        efreqs := w.circ.efreqs, evecs := w.circ.evecs }
    match c.buildOps with
    | .error e => (.error e, { w with circ := c })
    | .ok c => (.ok (), { w with circ := { c with efreqs := [], evecs := [] } })

/-- circuit.py:2073-2087: truncation numbers chosen by `truncate_circuit` for `K ≥ 1` (exact real
arithmetic instead of floating point). -/
noncomputable def truncChoice (P : Phys) (bd : P.BD) (K : ℤ) : List ℤ :=
  let avg : ℝ := (K : ℝ) ^ (1 / (P.nModes bd : ℝ))
  let charge : ℝ := (1 / 2) * (avg + 1)
  (List.range (P.nModes bd)).map (fun i => if P.isCharge bd i then ⌊charge⌋ else ⌊avg⌋)

/-- circuit.py:2051-2088 `truncate_circuit` (`none`: not an integer). -/
noncomputable def truncateCircuit (K : Option ℤ) (w : World P) : Call (World P) (List ℤ) :=
  match K with
  | none => (.error .valueError, w)
  | some K =>
    if K < 1 then (.error .valueError, w)
    else if P.nModes w.circ.bd = 0 then (.error .zeroDivision, w)
    else
      let nums := truncChoice P w.circ.bd K
      match setTruncNums (.list nums) w with
      | (.error e, w) => (.error e, w)
      | (.ok _, w) => (.ok nums, w)

/-- Guards of the methods that only read the circuit: `charge_op` (circuit.py:1848) needs truncation
numbers; `matrix_elements` (2423), `eig_phase_coord` (2222), `get_partial_omega` (2809),
`get_partial_vec` (2898) need eigenvectors; `dec_rate` (2561) needs eigenfrequencies;
`check_convergence` (2110) both. -/
inductive Reader
  | chargeOp | matrixElements | eigPhaseCoord | partialOmega | partialVec | decRate | checkConvergence

/-- A reading method with guard and the rest of its body abstracted. -/
def Reader.run (r : Reader) {α : Type} (body : World P → Except PyErr α) (w : World P) :
    Except PyErr α :=
  match r with
  | .chargeOp => if w.circ.m.length = 0 then .error .circuitState else body w
  | .matrixElements | .eigPhaseCoord | .partialOmega | .partialVec =>
    if w.circ.evecs.length = 0 then .error .circuitState else body w
  | .decRate => if w.circ.efreqs.length = 0 then .error .circuitState else body w
  | .checkConvergence =>
    if w.circ.efreqs.length = 0 ∨ w.circ.evecs.length = 0 then .error .circuitState else body w

/-! ### histories -/

/-- Calls a user can make on a circuit and its elements. -/
inductive Act
  | setTruncNums (a : NumsArg)
  | setChargeOffset (mode : Option ℤ) (ng : ℝ)
  | setChargeNoise (mode : Option ℤ) (amp : ℝ)
  | truncateCircuit (K : Option ℤ)
  | setFlux (l : LoopId) (v : ℝ)
  | setValue (i : ElemId) (v : ℝ)
  | setUnitFreq (u : ℝ)
  | hamiltonian
  | diag (k : Option ℤ)
  | update

/-- result (success or exception) and next state of one call -/
noncomputable def Act.exec (a : Act) (w : World P) : Except PyErr Unit × World P :=
  match a with
  | .setTruncNums a => SQ.setTruncNums a w
  | .setChargeOffset mode ng => SQ.setChargeOffset mode ng w
  | .setChargeNoise mode amp => SQ.setChargeNoise mode amp w
  | .truncateCircuit K => let r := SQ.truncateCircuit K w; (r.1.map (fun _ => ()), r.2)
  | .setFlux l v => (.ok (), { w with flux := Function.update w.flux l (v * 2 * Real.pi) })
  | .setValue i v => (.ok (), { w with vals := Function.update w.vals i v })
  | .setUnitFreq u => (.ok (), { w with unitFreq := u })
  | .hamiltonian => let r := SQ.hamiltonian w; (r.1.map (fun _ => ()), r.2)
  | .diag k => let r := SQ.diag k w; (r.1.map (fun _ => ()), r.2)
  | .update => SQ.update w

/-- final state of a history -/
noncomputable def run (w : World P) (h : List Act) : World P :=
  h.foldl (fun w a => (a.exec w).2) w

end SQ
