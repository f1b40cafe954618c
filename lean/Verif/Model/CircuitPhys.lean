import Verif.Model.State
import Verif.Model.Ops

/-!
# circuit.py, part 6: the numerical content of the circuit object

Instantiates the state machine of `Model/State.lean` with the construction (`getLCWB`,
`transformHamil`, `finishModes`) and operator functions (`buildMem`, `lcHamil`, `hamiltonianOf`) of
the earlier modules. `circPhys` is the numerical content of one circuit description.
-/

namespace SQ
open Matrix

/-- A circuit description (engine, flux distribution, objects, edge list, loop bookkeeping at
construction) together with the external numerical routines. The values in `O` are initial values
only. -/
structure CircSpec where
  torch : Bool
  fd : FluxDist
  O : Objs
  els : Elements
  h : LoopId → LoopObj
  lib : ∀ n, NumLib n
  sv : SvdFn
  argsort : ArgsortFn
  argmax : ∀ k, ArgmaxFn k
  draws : Draws
  fuel : ℕ

/-- the objects with other element values -/
def Objs.withVals (O : Objs) (vals : ElemId → ℝ) : Objs :=
  { O with elem := fun i => { O.elem i with value := vals i } }

/-- What `_get_LCWB` and `_transform_hamil` leave in the circuit: `loops`, `elem_keys`, C, B and the
mode data. (L, W and the parameter dictionary are not read by the methods of the state machine.) -/
structure Build where
  n : ℕ
  nJ : ℕ
  nB : ℕ
  C : Matrix (Fin n) (Fin n) ℝ
  loops : List LoopId
  B : Matrix (Fin nB) (Fin loops.length) ℝ
  inds : List (IndKey nB)
  juns : List (JunKey nB nJ)
  M : Modes nJ n

/-- entries of `elem_keys[Inductor]`; the branch number is always a row of B (C18) -/
def indKeysOf (b : ℕ) (l : List (Edge × ElemId × ℕ)) : List (IndKey b) :=
  l.filterMap (fun k => if h : k.2.2 < b then some ⟨k.1, k.2.1, ⟨k.2.2, h⟩⟩ else none)

/-- entries of `elem_keys[Junction]` -/
def junKeysOf (b nJ : ℕ) (l : List (Edge × ElemId × ℕ × ℕ)) : List (JunKey b nJ) :=
  l.filterMap (fun k => if h : k.2.2.1 < b ∧ k.2.2.2 < nJ then
    some ⟨k.1, k.2.1, ⟨k.2.2.1, h.1⟩, ⟨k.2.2.2, h.2⟩⟩ else none)

/-- `self.B` (empty without loops) -/
def fluxTable {b : ℕ} {ls : List LoopId} {f : LoopId → LoopObj}
    (B : Option (Matrix (Fin b) (Fin (ls.map f).length) ℝ)) : Matrix (Fin b) (Fin ls.length) ℝ :=
  match B with
  | none => 0
  | some B => Matrix.of fun i l => B i (l.cast (by simp))

/-- circuit.py:323-348 / 412-421: C, L, W, B and the transformations for `n` nodes; `finish` says
what happens to the transformed modes afterwards. -/
noncomputable def buildWith (c : CircSpec) (n : ℕ) (vals : ElemId → ℝ)
    (finish : ∀ {nJ : ℕ}, Trans nJ n → Modes nJ n) : Except PyErr Build :=
  open Classical in
  match getLCWB c.sv c.torch c.fd (c.O.withVals vals) n c.h c.els with
  | .error e => .error e
  | .ok ⟨a, B⟩ =>
    if a.cMat.det = 0 then .error .linAlg
    else
      let W := arrayOf n a.wMat
      match transformHamil (c.lib n) c.sv c.argsort (c.argmax _) c.draws a.numJunWithoutInd
          a.cMat a.lMat W c.fuel (initTrans a.cMat a.lMat W) with
      | none => .error .noReturn
      | some (.error e) => .error e
      | some (.ok t) =>
        .ok { n := n, nJ := a.wMat.length, nB := a.st.kMat.length, C := a.cMat, loops := a.st.loops
              B := fluxTable B
              inds := indKeysOf _ a.st.indKeys
              juns := junKeysOf _ _ a.st.junKeys
              M := finish t }

/-- circuit.py:296-354: `__init__` up to the removal of uncoupled modes. -/
noncomputable def buildCirc (c : CircSpec) (vals : ElemId → ℝ) : Except PyErr Build :=
  match numNodes c.els with
  | .error e => .error e
  | .ok n => buildWith c n vals (finishModes c.torch)

/-- circuit.py:402-421: the same part of `update`: `self.n` is what construction left, and modes are
not removed. -/
noncomputable def rebuildCirc (c : CircSpec) (n : ℕ) (vals : ElemId → ℝ) : Except PyErr Build :=
  buildWith c n vals (fun t => restrict t (List.finRange n))

/-- dimensions as natural numbers -/
def Build.dims (b : Build) (m : List ℤ) : Fin b.M.keep.length → ℕ := fun i => (m.getD i 0).toNat

/-- number of (retained) modes -/
def Build.k (b : Build) : ℕ := b.M.keep.length

/-- circuit.py:865-880 `_is_charge_mode`. -/
noncomputable def Build.isCharge (b : Build) (i : ℕ) : Bool :=
  open Classical in
  if h : i < b.M.keep.length then decide (b.M.omega ⟨i, h⟩ = 0) else false

/-- circuit.py:1621-1671 `_build_op_memory` with its exceptions: `self.m[j]` and
`self.charge_islands[i]` may be missing. QuTiP's behaviour for dimensions below 1 is modelled as
`ValueError`. -/
noncomputable def Build.memOps (b : Build) (m : List ℤ) (ng : ℕ → Option ℝ) :
    Except PyErr (Σ d : Fin b.M.keep.length → ℕ, OpMem b.nJ d) :=
  open Classical in
  if m.length < b.M.keep.length then .error .indexError
  else if ∃ i, i < b.M.keep.length ∧ m.getD i 0 < 1 then .error .valueError
  else if ∃ i, b.isCharge i = true ∧ ng i = none then .error .keyError
  else .ok ⟨b.dims m, buildMem b.M.data (b.dims m) (fun i => (ng i).getD 0)⟩

/-- circuit.py:1759-1786: external fluxes at the branches. -/
noncomputable def Build.fluxes (b : Build) (flux : LoopId → ℝ) : Fin b.nB → ℝ :=
  extFlux b.B (fun i => flux (b.loops.get i))

/-- circuit.py:2147-2164 `hamiltonian` from the stored operators; operators of different dimensions
cannot be added (they never occur together, C48). -/
noncomputable def Build.ham (b : Build) (mem : Σ d : Fin b.M.keep.length → ℕ, OpMem b.nJ d)
    (ex : Σ d : Fin b.M.keep.length → ℕ, (Fin b.nJ → Op d) × (Fin b.nJ → Op d))
    (lc : Σ d : Fin b.M.keep.length → ℕ, Op d) (vals : ElemId → ℝ) (flux : LoopId → ℝ) :
    Except PyErr (Σ (k : ℕ) (d : Fin k → ℕ), Op d) :=
  open Classical in
  if h : ex.1 = mem.1 ∧ lc.1 = mem.1 then
    match hamiltonianOf b.C b.M
        { mem.2 with exp := fun i => h.1 ▸ ex.2.1 i, rootExp := fun i => h.1 ▸ ex.2.2 i }
        (h.2 ▸ lc.2) vals (b.fluxes flux) b.inds b.juns with
    | .error e => .error e
    | .ok H => .ok ⟨_, _, H⟩
  else .error .valueError

/-- The numerical content of a circuit; `Trig` (operators cached for later use by the decoherence and
gradient functions) is the list of cosine, sine and half-angle sine operators. `eigs` and `argsort`
are the external eigensolver and `np.argsort`. -/
noncomputable def circPhys (c : CircSpec)
    (eigs : (Σ (k : ℕ) (d : Fin k → ℕ), Op d) → ℤ →
      Except PyErr (List (ℂ × Σ (k : ℕ) (d : Fin k → ℕ), Idx d → ℂ)))
    (cargsort : List ℂ → List ℕ) : Phys where
  BD := Build
  Mem := fun b => Σ d : Fin b.M.keep.length → ℕ, OpMem b.nJ d
  Exp := fun b => Σ d : Fin b.M.keep.length → ℕ, (Fin b.nJ → Op d) × (Fin b.nJ → Op d)
  LC := fun b => Σ d : Fin b.M.keep.length → ℕ, Op d
  Trig := List (Σ (k : ℕ) (d : Fin k → ℕ), Op d × Op d × Op d)
  Op := Σ (k : ℕ) (d : Fin k → ℕ), Op d
  Vec := Σ (k : ℕ) (d : Fin k → ℕ), Idx d → ℂ
  build := buildCirc c
  rebuild := rebuildCirc c
  nModes := Build.k
  isCharge := Build.isCharge
  memOps := Build.memOps
  lc := fun b mem => ⟨mem.1, lcHamil b.M.data mem.2⟩
  expOps := fun b m => ⟨b.dims m, fun i => tens (expFactor b.M.data (b.dims m) i),
    fun i => tens (rootExpFactor b.M.data (b.dims m) i)⟩
  ham := Build.ham
  trig := fun b mem ex flux =>
    open Classical in
    if h : ex.1 = mem.1 then
      let mem' : OpMem b.nJ mem.1 :=
        { mem.2 with exp := fun i => h ▸ ex.2.1 i, rootExp := fun i => h ▸ ex.2.2 i }
      b.juns.map (fun key => ⟨_, _, cosOp mem' key.wId (b.fluxes flux key.bId),
        sinOp mem' key.wId (b.fluxes flux key.bId), sinHalfOp mem' key.wId (b.fluxes flux key.bId)⟩)
    else []
  eigs := eigs
  argsort := cargsort

end SQ
