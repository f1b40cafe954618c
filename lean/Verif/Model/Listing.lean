import Verif.Model.Symbolic
import Verif.Model.Flux
import Mathlib.Analysis.SpecialFunctions.Log.Base
import Mathlib.Data.Nat.Digits.Defs

/-!
# What `description()` prints

The text consists of the symbolic Hamiltonian and of equations that give its symbols their values.  The layout
(separators, LaTeX or plain) is not modelled; an equation is kept as its symbol and its number.
-/

namespace SQ
open Real

/-- `np.round(x, d)`: to `d` decimals, half to even -/
noncomputable def npRound (d : ℕ) (x : ℝ) : ℝ := (rint (x * 10 ^ d) : ℝ) / 10 ^ d

/-- `float(f'{x:.{d}e}')`: to `d + 1` significant digits, half to even -/
noncomputable def sciRound (d : ℕ) (x : ℝ) : ℝ :=
  open Classical in
  if x = 0 then 0 else
    (rint (x * (10 : ℝ) ^ ((d : ℤ) - ⌊logb 10 |x|⌋)) : ℝ) * (10 : ℝ) ^ (⌊logb 10 |x|⌋ - (d : ℤ))

/-- The symbols of symbolic.py:45-93; indices from zero, printed from one. -/
inductive Sym
  | phi (i : ℕ)
  | a (i : ℕ)
  | ad (i : ℕ)
  | n (i : ℕ)
  | ext (i : ℕ)
  | zp (i : ℕ)
  | omega (i : ℕ)
  | ng (i : ℕ)
  | EC (i j : ℕ)
  | EL (i : ℕ)
  | EJ (i : ℕ)
  deriving DecidableEq

/-- Python's `str` of a positive integer -/
def decimal (n : ℕ) : List Char := ((Nat.digits 10 n).map Nat.digitChar).reverse

/-- Names of the symbols (symbolic.py:45-93), which for sympy are their identity. -/
def Sym.name : Sym → List Char
  | .phi i => ['p', 'h', 'i', '_'] ++ decimal (i + 1)
  | .a i => ['a', '_'] ++ decimal (i + 1)
  | .ad i => ['a', 'd', '_'] ++ decimal (i + 1)
  | .n i => ['n', '_'] ++ decimal (i + 1)
  | .ext i => ['p', 'h', 'i', '_', 'e'] ++ decimal (i + 1)
  | .zp i => ['z', 'p', '_'] ++ decimal (i + 1)
  | .omega i => ['o', 'm', 'e', 'g', 'a', '_'] ++ decimal (i + 1)
  | .ng i => ['n', 'g', '_'] ++ decimal (i + 1)
  | .EC i j => ['E', 'C', '_'] ++ (decimal (i + 1) ++ decimal (j + 1))
  | .EL i => ['E', 'L', '_'] ++ decimal (i + 1)
  | .EJ i => ['E', 'J', '_'] ++ decimal (i + 1)

/-- A printed equation. -/
inductive Eqn
  /-- symbol = number -/
  | value (s : Sym) (x : ℝ)
  /-- symbol / 2π = number -/
  | over2pi (s : Sym) (x : ℝ)
  /-- φ_i = zp_i (a_i + ad_i) -/
  | phase (i : ℕ)

variable {n nJ k b nl : ℕ}

/-- texts.py:87-109 `mode_txt`: for every mode its kind (`true`: harmonic) and its equations; `ng` is the list
`coeff_dict['ng']` of the modes from `har_dim` on. -/
noncomputable def modeTxt (c : Descrip n nJ k b nl) (ng : List ℝ) : List (Bool × List Eqn) :=
  (List.finRange k).map fun (i : Fin k) =>
    if i.val < c.harDim then
      (true, [.phase i, .over2pi (.omega i) (sciRound 5 (npRound 5 (c.omega i))), .value (.zp i) (sciRound 2 (c.phiZp i))])
    else (false, [.value (.ng i) (npRound 3 (ng.getD (i - c.harDim) 0))])

/-- texts.py:111-133 `param_txt`; `EL` and `EJ` are the lists of values in `coeff_dict`, `flux` the list
`coeff_dict['EL_has_ext_flux']`. -/
noncomputable def paramTxt (c : Descrip n nJ k b nl) (EL EJ : List ℝ) (flux : List Bool) : List Eqn :=
  ((List.finRange k).filter (fun i => c.harDim ≤ i.val)).flatMap (fun i =>
    ((List.finRange k).filter (fun j => i ≤ j)).map (fun j => .value (.EC i j) (npRound 3 (c.EC i j)))) ++
  EL.zipIdx.filterMap (fun q => if flux.getD q.2 false then some (.value (.EL q.2) (npRound 3 q.1)) else none) ++
  EJ.zipIdx.map (fun q => .value (.EJ q.2) (npRound 3 q.1))

/-- texts.py:135-143 `loop_txt`. -/
noncomputable def loopTxt (c : Descrip n nJ k b nl) : List Eqn :=
  (List.finRange nl).map fun (l : Fin nl) => .over2pi (.ext l) (npRound 2 (c.loops l))

/-- circuit.py:1200-1204: the matrices are rounded before they enter the dictionary. -/
noncomputable def Descrip.rounded (c : Descrip n nJ k b nl) : Descrip n nJ k b nl :=
  { c with
    W := c.W.map (npRound 6)
    S := c.S.map (npRound 3)
    B := c.B.map (npRound 2) }

/-- circuit.py:1234-1238: whether a row of the rounded matrix is not zero -/
noncomputable def Descrip.hasFlux (c : Descrip n nJ k b nl) (inds : List (IndKey b)) : List Bool :=
  open Classical in inds.map fun key => decide (∑ l, |c.B key.bId l| ≠ 0)

/-- What is printed: the summands of the Hamiltonian, the modes with their kinds, and the equations. -/
structure Printed (k nl : ℕ) where
  ham : List (SymExpr k nl)
  modes : List (Bool × List Eqn)
  params : List Eqn
  loops : List Eqn

/-- circuit.py:1252-1255: offsets of the islands from mode `har_dim` on, a missing one being a `KeyError`. -/
def islandValues (islands : ℕ → Option ChargeObj) (harDim k : ℕ) : Except PyErr (List ℝ) :=
  ((List.range k).drop harDim).mapM fun i => match islands i with
    | none => .error .keyError
    | some o => .ok (o.getValue false 0)

/-- circuit.py:1188-1255: the dictionary `descrip_vars` -/
noncomputable def dictOf (b : Build) (uf : ℝ) (vals : ElemId → ℝ) (flux : LoopId → ℝ) (islands : ℕ → Option ChargeObj) :
    Descrip b.n b.nJ b.M.keep.length b.nB b.loops.length :=
  (b.descrip uf vals flux (fun i => ((islands i).map ChargeObj.chValue).getD 0)).rounded

/-- circuit.py:1188-1300 `description` (with texts.py:145-154 `print_circuit_description`) of a circuit whose
matrices and keys are `b`. -/
noncomputable def Build.description (b : Build) (uf : ℝ) (vals : ElemId → ℝ) (flux : LoopId → ℝ)
    (islands : ℕ → Option ChargeObj) : Except PyErr (Printed b.M.keep.length b.loops.length) := do
  let EJ ← (dictOf b uf vals flux islands).EJ.mapM id
  let EL ← (dictOf b uf vals flux islands).EL.mapM id
  let ng ← islandValues islands (dictOf b uf vals flux islands).harDim b.M.keep.length
  return { ham := constructHamiltonian (dictOf b uf vals flux islands) b.inds b.juns
           modes := modeTxt (dictOf b uf vals flux islands) ng
           params := paramTxt (dictOf b uf vals flux islands) EL EJ ((dictOf b uf vals flux islands).hasFlux b.inds)
           loops := loopTxt (dictOf b uf vals flux islands) }

/-- circuit.py:1188-1300 `description()` of a circuit object, in its present state -/
noncomputable def describeNow {c : CircSpec} {eigs as} (w : World (circPhys c eigs as)) :
    Except PyErr (Printed (Modes.keep (Build.M w.circ.bd)).length (Build.loops w.circ.bd).length) :=
  Build.description w.circ.bd w.unitFreq w.vals w.flux w.circ.islands

end SQ
