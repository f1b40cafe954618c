import Verif.Model.Graph

/-!
# circuit.py: pickling (`__getstate__`, `__setstate__`, `picklecopy`) and `safecopy`
-/

namespace SQ

/-! ### Attribute dictionaries -/

/-- An attribute value: a Boolean, or anything else. -/
inductive PyVal (α : Type*)
  | bool (b : Bool)
  | other (x : α)

/-- `__dict__`, insertion ordered. -/
abbrev Attrs (α : Type*) := List (String × PyVal α)

def Attrs.get {α : Type*} (d : Attrs α) (k : String) : Option (PyVal α) := List.lookup k d

/-- `d[k] = v` -/
def Attrs.set {α : Type*} (d : Attrs α) (k : String) (v : PyVal α) : Attrs α :=
  if (d.map Prod.fst).contains k then d.map (fun p => if p.1 = k then (k, v) else p) else d ++ [(k, v)]

/-- `bool(v)`; simplification: everything but `False` counts as true. -/
def PyVal.truthy {α : Type*} : PyVal α → Bool
  | .bool b => b
  | .other _ => true

/-- circuit.py:442-455 `__getstate__`. -/
def getState {α : Type*} (d : Attrs α) : Except PyErr (Attrs α) :=
  match d.get "_toggle_fullcopy" with
  | none => .error .attributeError
  | some v =>
    let avoid := if v.truthy then [] else ["_memory_ops", "_LC_hamil"]
    .ok (d.filter (fun p => !avoid.contains p.1))

/-- circuit.py:457-462 `__setstate__`. -/
def setState {α : Type*} (st : Attrs α) : Attrs α := Attrs.set st "_toggle_fullcopy" (.bool true)

/-- `copy.copy(circuit)`: a new object whose state is set from `__getstate__`. -/
def copyObj {α : Type*} (d : Attrs α) : Except PyErr (Attrs α) := (getState d).map setState

/-- circuit.py:727-741 `picklecopy`. -/
def picklecopy {α : Type*} (d : Attrs α) : Except PyErr (Attrs α) :=
  (copyObj d).map (fun d => d.set "_toggle_fullcopy" (.bool false))

/-- Dumping and loading. The serializer (dill) is assumed to give back the state it was given. -/
def loadDumped {α : Type*} (d : Attrs α) : Except PyErr (Attrs α) := (getState d).map setState

/-! ### `safecopy` -/

/-- Elements and loops with identity; ids from `next` on are unused. -/
structure SHeap where
  elem : ElemId → ElemObj
  loopValue : LoopId → ℝ
  loopReqGrad : LoopId → Bool
  loopIsLeaf : LoopId → Bool
  nextE : ℕ
  nextL : ℕ

/-- What a circuit refers to: `elements`, `loops`, keys of `_parameters`, `elem_keys` and keys of the
operators in `_memory_ops` and of `partial_mats`. -/
structure SCirc where
  elements : Elements
  loops : List LoopId
  params : List Comp
  junKeys : List (Edge × ElemId × ℕ × ℕ)
  indKeys : List (Edge × ElemId × ℕ)
  opKeys : List (ElemId × ℕ)
  partials : List ElemId

/-- `replacement_dict`; the last assignment for a key is first in the list. -/
structure Repl where
  elems : List (ElemId × ElemId)
  loops : List (LoopId × LoopId)

def Repl.elem (r : Repl) (i : ElemId) : Except PyErr ElemId :=
  match r.elems.lookup i with
  | some j => .ok j
  | none => .error .keyError

def Repl.loop (r : Repl) (l : LoopId) : Except PyErr LoopId :=
  match r.loops.lookup l with
  | some j => .ok j
  | none => .error .keyError

def Repl.comp (r : Repl) : Comp → Except PyErr Comp
  | .elem i => (r.elem i).map .elem
  | .loop l => (r.loop l).map .loop

/-- `copy(loop)` with `internal_value.detach().clone()`: a leaf that needs no gradient. -/
def allocLoop (l : LoopId) (H : SHeap) : SHeap :=
  { H with
    loopValue := Function.update H.loopValue H.nextL (H.loopValue l)
    loopReqGrad := Function.update H.loopReqGrad H.nextL false
    loopIsLeaf := Function.update H.loopIsLeaf H.nextL true
    nextL := H.nextL + 1 }

/-- circuit.py:640-645: copies of the loops. -/
def copyLoops : List LoopId → Repl → SHeap → List LoopId × Repl × SHeap
  | [], r, H => ([], r, H)
  | l :: ls, r, H =>
    let q := copyLoops ls { r with loops := (l, H.nextL) :: r.loops } (allocLoop l H)
    (H.nextL :: q.1, q.2)

/-- circuit.py:652-664: copy of one element: a detached value, the same attached capacitor, and the
loops replaced (inductive elements). -/
def copyElem (i : ElemId) (r : Repl) (H : SHeap) : Except PyErr (ElemId × Repl × SHeap) :=
  let o := H.elem i
  match (if o.inductive then o.loops.mapM r.loop else .ok o.loops) with
  | .error e => .error e
  | .ok ls =>
    .ok (H.nextE, { r with elems := (i, H.nextE) :: r.elems },
      { H with
        elem := Function.update H.elem H.nextE { o with loops := ls, reqGrad := false, isLeaf := true }
        nextE := H.nextE + 1 })

/-- one edge -/
def copyElems : List ElemId → Repl → SHeap → Except PyErr (List ElemId × Repl × SHeap)
  | [], r, H => .ok ([], r, H)
  | i :: is, r, H =>
    match copyElem i r H with
    | .error e => .error e
    | .ok (j, r, H) =>
      match copyElems is r H with
      | .error e => .error e
      | .ok (js, r, H) => .ok (j :: js, r, H)

/-- circuit.py:649-669: all edges. (An edge without elements would be missing in the `defaultdict`;
edges are assumed to carry elements.) -/
def copyEdges : Elements → Repl → SHeap → Except PyErr (Elements × Repl × SHeap)
  | [], r, H => .ok ([], r, H)
  | (e, is) :: es, r, H =>
    match copyElems is r H with
    | .error e => .error e
    | .ok (js, r, H) =>
      match copyEdges es r H with
      | .error e => .error e
      | .ok (es', r, H) => .ok ((e, js) :: es', r, H)

/-- circuit.py:671-711: parameters, element keys, `partial_mats` and operators. -/
def rekey (c : SCirc) (els : Elements) (loops : List LoopId) (r : Repl) : Except PyErr SCirc := do
  let params ← c.params.mapM r.comp
  let junKeys ← c.junKeys.mapM (fun k => (r.elem k.2.1).map (fun i => (k.1, i, k.2.2)))
  let indKeys ← c.indKeys.mapM (fun k => (r.elem k.2.1).map (fun i => (k.1, i, k.2.2)))
  let partials := c.partials.map (fun i => match r.elem i with
    | .ok j => j
    | .error _ => i)
  let opKeys ← c.opKeys.mapM (fun k => (r.elem k.1).map (fun i => (i, k.2)))
  return { elements := els, loops := loops, params := params, junKeys := junKeys, indKeys := indKeys,
           opKeys := opKeys, partials := partials }

/-- elements a circuit refers to, including attached capacitors -/
def SCirc.reach (H : SHeap) (c : SCirc) : List ElemId :=
  (c.elements.flatMap Prod.snd).flatMap (fun i =>
    if (H.elem i).inductive then [i, (H.elem i).cap] else [i]) ++ c.partials

/-- `copy.deepcopy`: every object is copied, identities within the circuit are preserved; here by
shifting all ids. A tensor that is not a leaf cannot be copied (PyTorch's RuntimeError). -/
def deepCopy (torch : Bool) (H : SHeap) (c : SCirc) : Except PyErr (SHeap × SCirc) :=
  if !torch || (c.reach H).all (fun i => (H.elem i).isLeaf) && c.loops.all H.loopIsLeaf then
    let fe : ElemId → ElemId := fun i => i + H.nextE
    let fl : LoopId → LoopId := fun l => l + H.nextL
    let fc : Comp → Comp := fun k => match k with
      | .elem i => .elem (fe i)
      | .loop l => .loop (fl l)
    .ok ({ elem := fun i => if i < H.nextE then H.elem i
             else { H.elem (i - H.nextE) with
               cap := fe (H.elem (i - H.nextE)).cap, loops := (H.elem (i - H.nextE)).loops.map fl }
           loopValue := fun l => if l < H.nextL then H.loopValue l else H.loopValue (l - H.nextL)
           loopReqGrad := fun l => if l < H.nextL then H.loopReqGrad l else H.loopReqGrad (l - H.nextL)
           loopIsLeaf := fun l => if l < H.nextL then H.loopIsLeaf l else H.loopIsLeaf (l - H.nextL)
           nextE := H.nextE + H.nextE, nextL := H.nextL + H.nextL },
         { elements := c.elements.map (fun p => (p.1, p.2.map fe))
           loops := c.loops.map fl
           params := c.params.map fc
           junKeys := c.junKeys.map (fun k => (k.1, fe k.2.1, k.2.2))
           indKeys := c.indKeys.map (fun k => (k.1, fe k.2.1, k.2.2))
           opKeys := c.opKeys.map (fun k => (fe k.1, k.2))
           partials := c.partials.map fe })
  else .error .runtimeError

/-- circuit.py:606-725 `safecopy()`; matrices, eigenpairs and numerical operators are values and left
out. -/
def safecopy (torch : Bool) (H : SHeap) (c : SCirc) : Except PyErr (SHeap × SCirc) :=
  if torch then
    let q := copyLoops c.loops ⟨[], []⟩ H
    match copyEdges c.elements q.2.1 q.2.2 with
    | .error e => .error e
    | .ok (els, r, H') =>
      match rekey c els q.1 r with
      | .error e => .error e
      | .ok c' => deepCopy true H' c'
  else deepCopy false H c

end SQ
