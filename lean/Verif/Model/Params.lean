import Verif.Model.CircuitPhys

/-!
# Optimization parameters: elements.py `CircuitComponent`, circuit.py `parameters` and friends

Tensors are objects with identity (`TId`); a component's `internal_value` and an entry of
`Circuit._parameters` are references to them. Under NumPy the referenced object is a Python float and
only its `val` is meaningful.
-/

namespace SQ

abbrev TId := ℕ

/-- A scalar tensor: value, `requires_grad`, `is_leaf`, `grad`. -/
structure Tensor where
  val : ℝ
  reqGrad : Bool
  isLeaf : Bool
  grad : Option ℝ

/-- The engine, the tensors, the components' values and the circuit's parameters and matrices. -/
structure PWorld where
  torch : Bool
  tensors : TId → Tensor
  /-- `internal_value` -/
  value : Comp → TId
  /-- `Circuit._parameters` -/
  params : List (Comp × TId)
  /-- what the last construction or update computed -/
  bd : Option Build

/-- The objects as the circuit traversal sees them (`base`: classes, attached capacitors and loops). -/
def PWorld.objs (base : Objs) (w : PWorld) : Objs where
  elem := fun i => { base.elem i with
    value := (w.tensors (w.value (.elem i))).val
    reqGrad := (w.tensors (w.value (.elem i))).reqGrad
    isLeaf := (w.tensors (w.value (.elem i))).isLeaf }
  loopValue := fun l => (w.tensors (w.value (.loop l))).val
  loopReqGrad := fun l => (w.tensors (w.value (.loop l))).reqGrad
  loopIsLeaf := fun l => (w.tensors (w.value (.loop l))).isLeaf

/-- exceptions.py:18-20 `raise_optim_error_if_needed`, in front of `body`. -/
def optimOnly {α : Type*} (w : PWorld) (body : Call PWorld α) : Call PWorld α :=
  if w.torch = false then (.error .modeError, w) else body

/-- circuit.py:397-440 `update`, as far as parameters and matrices are concerned; `n` is `self.n`,
`rest` the remaining work (operators), which may raise an exception. Simplification: if the traversal
itself raises an exception, `_parameters` is taken as empty (Python leaves the entries collected so
far). -/
noncomputable def PWorld.update (c : CircSpec) (n : ℕ) (rest : Build → Except PyErr Unit) (w : PWorld) :
    Call PWorld Unit :=
  let O := w.objs c.O
  match traverse w.torch c.fd O n c.h c.els with
  | .error e => (.error e, { w with params := [] })
  | .ok a =>
    let w1 := { w with params := a.st.params.map (fun p => (p.1, w.value p.1)) }
    match rebuildCirc { c with torch := w.torch, O := O } n (fun i => (O.elem i).value) with
    | .error e => (.error e, w1)
    | .ok bd => (rest bd, { w1 with bd := some bd })

/-- circuit.py:516-518: `for i, element in enumerate(keys): element.internal_value = new_params[i]`;
`.error` is the `IndexError`. -/
def assignLoop : List Comp → List TId → PWorld → Call PWorld Unit
  | [], _, w => (.ok (), w)
  | _ :: _, [], w => (.error .indexError, w)
  | k :: ks, t :: ts, w => assignLoop ks ts { w with value := Function.update w.value k t }

/-- circuit.py:511-521 the setter of `parameters`. -/
noncomputable def PWorld.setParameters (c : CircSpec) (n : ℕ) (rest : Build → Except PyErr Unit)
    (new : List TId) (w : PWorld) : Call PWorld Unit :=
  optimOnly w <|
    match assignLoop (w.params.map Prod.fst) new w with
    | (.error _, w') => (.error .valueError, w')
    | (.ok _, w') => w'.update c n rest

/-- Changing the tensor `t` in place. -/
def PWorld.setTensor (w : PWorld) (t : TId) (x : Tensor) : PWorld :=
  { w with tensors := Function.update w.tensors t x }

/-- The PyTorch-only API: elements.py:37-65 and circuit.py:498-576. -/
inductive POp
  | getRequiresGrad (k : Comp)
  | setRequiresGrad (k : Comp) (f : Bool)
  | isLeaf (k : Comp)
  | getGrad (k : Comp)
  | setGrad (k : Comp) (g : Option ℝ)
  | parameters
  | setParameters (new : List TId)
  | parametersGrad
  | parametersDict
  | parametersElems
  | getParamsType
  | zeroGrad

/-- what these calls return -/
inductive PRet
  | none
  | bool (b : Bool)
  | grad (g : Option ℝ)
  | tensors (l : List TId)
  | comps (l : List Comp)
  | dict (l : List (Comp × TId))
  /-- list of gradients, some of them `None` -/
  | gradList (l : List (Option ℝ))
  /-- stacked tensor -/
  | gradTensor (l : List ℝ)
  | kinds (l : List (Option Kind))

/-- class of a component (`none`: Loop) -/
def compKind (base : Objs) : Comp → Option Kind
  | .elem i => some (base.elem i).kind
  | .loop _ => none

/-- circuit.py:575-576: `for val in self.parameters: val.grad = None`. -/
def clearGrads (ts : List TId) (w : PWorld) : PWorld :=
  ts.foldl (fun w t => w.setTensor t { w.tensors t with grad := none }) w

/-- circuit.py:531-541 body of `parameters_grad`. -/
noncomputable def gradsOf (w : PWorld) : PRet :=
  let l := w.params.map (fun p => (w.tensors p.2).grad)
  if l.contains none then .gradList l else .gradTensor (l.filterMap id)

/-- Executing a call. `requires_grad = False` on a non-leaf tensor raises PyTorch's RuntimeError. -/
noncomputable def POp.exec (c : CircSpec) (n : ℕ) (rest : Build → Except PyErr Unit) (op : POp)
    (w : PWorld) : Call PWorld PRet :=
  match op with
  | .getRequiresGrad k => optimOnly w (.ok (.bool (w.tensors (w.value k)).reqGrad), w)
  | .setRequiresGrad k f => optimOnly w <|
      if (w.tensors (w.value k)).isLeaf = false ∧ f = false then (.error .runtimeError, w)
      else (.ok .none, w.setTensor (w.value k) { w.tensors (w.value k) with reqGrad := f })
  | .isLeaf k => optimOnly w (.ok (.bool (w.tensors (w.value k)).isLeaf), w)
  | .getGrad k => optimOnly w (.ok (.grad (w.tensors (w.value k)).grad), w)
  | .setGrad k g => optimOnly w
      (.ok .none, w.setTensor (w.value k) { w.tensors (w.value k) with grad := g })
  | .parameters => optimOnly w (.ok (.tensors (w.params.map Prod.snd)), w)
  | .setParameters new =>
      match w.setParameters c n rest new with
      | (.error e, w') => (.error e, w')
      | (.ok _, w') => (.ok .none, w')
  | .parametersGrad => optimOnly w (.ok (gradsOf w), w)
  | .parametersDict => optimOnly w (.ok (.dict w.params), w)
  | .parametersElems => optimOnly w (.ok (.comps (w.params.map Prod.fst)), w)
  | .getParamsType => optimOnly w (.ok (.kinds (w.params.map (fun p => compKind c.O p.1))), w)
  | .zeroGrad => optimOnly w (.ok .none, clearGrads (w.params.map Prod.snd) w)

/-- elements.py:146-155, 292-301, 477-487, 625-628: constructors, `value` being the outcome of the
value part (`capInit`, `indInit`, `jjInit`; a loop's cannot fail). -/
def componentInit {α : Type*} (torch : Bool) (value : Except PyErr α) (requiresGrad : Bool) :
    Except PyErr (α × Bool) :=
  match value with
  | .error e => .error e
  | .ok x =>
    if requiresGrad then
      if torch = false then .error .modeError else .ok (x, true)
    else .ok (x, false)

/-- elements.py:136-155 `Capacitor(...)`: value and `requires_grad`. -/
noncomputable def capNew (g : Globals) (z v : ℝ) (unit : Option String) (err : ℝ) (rg : Bool) :=
  componentInit (getOptimMode g) (capInit g z v unit err) rg
/-- elements.py:280-301 `Inductor(...)`. -/
noncomputable def indNew (g : Globals) (z v : ℝ) (unit : Option String) (err : ℝ) (rg : Bool) :=
  componentInit (getOptimMode g) (indInit g z v unit err) rg
/-- elements.py:462-487 `Junction(...)`. -/
noncomputable def jjNew (g : Globals) (z v : ℝ) (unit : Option String) (err : ℝ) (rg : Bool) :=
  componentInit (getOptimMode g) (jjInit g z v unit err) rg
/-- elements.py:611-628 `Loop(value, A, id_str, requires_grad)`. -/
noncomputable def loopNew (g : Globals) (v A : ℝ) (rg : Bool) :=
  componentInit (getOptimMode g) (.ok (LoopObj.init v A)) rg

end SQ
