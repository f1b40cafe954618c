import Verif.Model.SweepLoss

/-!
# Sweep objects, their tables and files (sweep.py, storage.py)

Arrays and lists of the program are objects with an identity, so that what a `Sweep` object, its caller and a file share
(or do not share) can be stated. Plots are not modelled beyond the exception `plot` raises.
-/

namespace SQ

/-- `efreq`: level, grid index -/
abbrev FreqTab := ℕ → List ℕ → ℝ
/-- `dec`: type of loss, grid index -/
abbrev RateTab := String → List ℕ → Rate

/-- sweep.py:71-75, 111-115: `self.type` with `self.params` -/
inductive SweepKind
  | flux (loops : List LoopId)
  | charge (modes : List (Option ℤ))

variable {P : Phys}

/-- sweep.py:90-91, 130-131 -/
noncomputable def SweepKind.set : SweepKind → ℕ → ℝ → World P → Call (World P) Unit
  | .flux loops => setLoop loops
  | .charge modes => setMode modes

/-- identity of a list of grid points: a list of the caller, or one made by `load` -/
inductive GridRef
  | caller (i : ℕ)
  | loaded (k : ℕ)
  deriving DecidableEq

/-- sweep.py:27-58: the attributes of a `Sweep` object. `grid`, `efreq` and `dec` are references (`none`: `None`; the
dictionary of six `None` before the first sweep with losses is `none` too). The circuit is the one of the program. -/
structure SweepObj where
  numEig : ℕ
  /-- `'loss' in properties` -/
  loss : Bool
  kind : Option SweepKind
  grid : Option GridRef
  efreq : Option ℕ
  dec : Option ℕ

/-- storage.py:27-29: what the file written by `save` holds of a `Sweep` object, by value (the pickled circuit is the
subject of C53). -/
structure SweepFile where
  numEig : ℕ
  loss : Bool
  kind : Option SweepKind
  grid : Option (List (List ℝ))
  efreq : Option FreqTab
  dec : Option RateTab

/-- The state of a program that sweeps: circuit and elements, the grids (lists) and arrays in memory by identity, the
first identity not yet used by an array, the `Sweep` objects and the files. The dictionary `dec` with its six arrays is
one object here. -/
structure Desk (P : Phys) where
  w : World P
  grids : GridRef → List (List ℝ)
  tabs : ℕ → FreqTab
  decs : ℕ → RateTab
  next : ℕ
  sweeps : ℕ → Option SweepObj
  files : String → Option SweepFile

/-- before the first `Sweep` object is made, without files -/
def Desk.start (w : World P) (grids : GridRef → List (List ℝ)) : Desk P where
  w := w
  grids := grids
  tabs := fun _ _ _ => 0
  decs := fun _ _ _ => .val 0
  next := 0
  sweeps := fun _ => none
  files := fun _ => none

/-- storage.py:27-29: pickling copies everything reachable. -/
def Desk.contents (d : Desk P) (o : SweepObj) : SweepFile where
  numEig := o.numEig
  loss := o.loss
  kind := o.kind
  grid := o.grid.map d.grids
  efreq := o.efreq.map d.tabs
  dec := o.dec.map d.decs

/-- sweep.py:87-98, 127-138: the loop over the grid, which fills the arrays in place: what they hold is also given when the
loop ends with an exception. Nothing else of the program runs during the loop. -/
noncomputable def fillTables (rate : String → World P → Except PyErr Rate) (set : ℕ → ℝ → World P → Call (World P) Unit)
    (numEig : ℕ) (loss : Bool) (grid : List (List ℝ)) :
    List (List ℕ) → FreqTab → RateTab → World P → Except PyErr Unit × FreqTab × RateTab × World P
  | [], tab, dec, w => (.ok (), tab, dec, w)
  | ind :: l, tab, dec, w =>
    match setParams set grid (ind.zipIdx.map Prod.swap) w with
    | (.error e, w) => (.error e, tab, dec, w)
    | (.ok _, w) =>
      match diag (some numEig) w with
      | (.error e, w) => (.error e, tab, dec, w)
      | (.ok (ev, _), w) =>
        match assignEfreq numEig (grid.map List.length) tab ind ev with
        | .error e => (.error e, tab, dec, w)
        | .ok tab =>
          if loss then
            match fillDec rate ind w sweepTypes dec with
            | .error e => (.error e, tab, dec, w)
            | .ok dec => fillTables rate set numEig loss grid l tab dec w
          else fillTables rate set numEig loss grid l tab dec w

/-- `if toFile:`: neither `None` nor the empty string -/
def fileName : Option String → Option String
  | none => none
  | some f => if f = "" then none else some f

/-- sweep.py:103-109, 142-148: after the loop. `plot` raises NotImplementedError (a RuntimeError) for grids of more than one
dimension (storage.py:37-38); with a file named, the object is saved and nothing returned. -/
def sweepEnd (toFile : Option String) (plotF : Bool) (dim : ℕ) (o : SweepObj) (out : ℕ × Option ℕ) (res : Except PyErr Unit)
    (d : Desk P) : Call (Desk P) (Option (ℕ × Option ℕ)) :=
  match res with
  | .error e => (.error e, d)
  | .ok _ =>
    if plotF = true ∧ 2 ≤ dim then (.error .runtimeError, d)
    else match fileName toFile with
      | some f => (.ok none, { d with files := Function.update d.files f (some (d.contents o)) })
      | none => (.ok (some out), d)

/-- sweep.py:71-109 `sweepFlux`, 111-148 `sweepCharge` of the `Sweep` object `s`, with the list `gid` as grid. New arrays
are made and kept in the object; they are returned unless a file is named. When the loop fails with losses, `dec` is given
at the last completed grid point (the entries of the failing one are not modelled). -/
noncomputable def sweepCall (rate : String → World P → Except PyErr Rate) (s : ℕ) (kind : SweepKind) (gid : GridRef)
    (toFile : Option String) (plotF : Bool) (d : Desk P) : Call (Desk P) (Option (ℕ × Option ℕ)) :=
  match d.sweeps s with
  | none => (.error .attributeError, d)
  | some o =>
    let r := fillTables rate kind.set o.numEig o.loss (d.grids gid) (gridIndices ((d.grids gid).map List.length))
      (fun _ _ => 0) (fun _ _ => .val 0) d.w
    let o' : SweepObj := { o with
      kind := some kind, grid := some gid, efreq := some d.next, dec := if o.loss then some d.next else o.dec }
    sweepEnd toFile plotF (d.grids gid).length o' (d.next, o'.dec) r.1
      { d with
        w := r.2.2.2
        next := d.next + 1
        tabs := Function.update d.tabs d.next r.2.1
        decs := if o.loss then Function.update d.decs d.next r.2.2.1 else d.decs
        sweeps := Function.update d.sweeps s (some o') }

/-- storage.py:27-29 `save` -/
def saveCall (s : ℕ) (f : String) (d : Desk P) : Call (Desk P) (Option (ℕ × Option ℕ)) :=
  match d.sweeps s with
  | none => (.error .attributeError, d)
  | some o => (.ok none, { d with files := Function.update d.files f (some (d.contents o)) })

/-- storage.py:31-34 `load`: a new object with new arrays and a new grid, here named `s`. A missing file is an exception
(FileNotFoundError, here `keyError`). -/
def loadCall (s : ℕ) (f : String) (d : Desk P) : Call (Desk P) (Option (ℕ × Option ℕ)) :=
  match d.files f with
  | none => (.error .keyError, d)
  | some c => (.ok none, { d with
      next := d.next + 1
      grids := Function.update d.grids (.loaded d.next) (c.grid.getD [])
      tabs := Function.update d.tabs d.next (c.efreq.getD fun _ _ => 0)
      decs := Function.update d.decs d.next (c.dec.getD fun _ _ => .val 0)
      sweeps := Function.update d.sweeps s (some
        { numEig := c.numEig, loss := c.loss, kind := c.kind, grid := c.grid.map fun _ => .loaded d.next,
          efreq := c.efreq.map fun _ => d.next, dec := c.dec.map fun _ => d.next }) })

/-- What a program with sweeps may do. -/
inductive DeskOp
  /-- a call on the circuit, an element or a loop -/
  | act (a : Act)
  /-- `Sweep(cr, numEig, properties)` (sweep.py:27-58) -/
  | new (s numEig : ℕ) (loss : Bool)
  | sweep (s : ℕ) (kind : SweepKind) (gid : GridRef) (toFile : Option String) (plotF : Bool)
  | save (s : ℕ) (f : String)
  | load (s : ℕ) (f : String)
  /-- the caller changes a list of grid points in place -/
  | editGrid (gid : GridRef) (g : List (List ℝ))
  /-- the caller changes an array of frequencies, or of rates, in place -/
  | editTab (k : ℕ) (t : FreqTab)
  | editDec (k : ℕ) (t : RateTab)

/-- one step of a program; failing steps leave what they did before the exception -/
noncomputable def DeskOp.exec (rate : String → World P → Except PyErr Rate) (op : DeskOp) (d : Desk P) :
    Call (Desk P) (Option (ℕ × Option ℕ)) :=
  match op with
  | .act a => ((a.exec d.w).1.map fun _ => none, { d with w := (a.exec d.w).2 })
  | .new s numEig loss => (.ok none, { d with sweeps := Function.update d.sweeps s (some ⟨numEig, loss, none, none, none, none⟩) })
  | .sweep s kind gid toFile plotF => sweepCall rate s kind gid toFile plotF d
  | .save s f => saveCall s f d
  | .load s f => loadCall s f d
  | .editGrid gid g => (.ok none, { d with grids := Function.update d.grids gid g })
  | .editTab k t => (.ok none, { d with tabs := Function.update d.tabs k t })
  | .editDec k t => (.ok none, { d with decs := Function.update d.decs k t })

/-- a program -/
noncomputable def deskRun (rate : String → World P → Except PyErr Rate) (d : Desk P) (ops : List DeskOp) : Desk P :=
  ops.foldl (fun d op => (op.exec rate d).2) d

end SQ
