import Verif.Model.Elements
import Mathlib.Data.Matrix.Basic
import Mathlib.LinearAlgebra.Matrix.Defs

/-!
# circuit.py, part 1: circuit edges and the traversal that builds C, L, W

Simplifications
* node numbers are natural numbers (the library documents non-negative node numbers);
* elements are objects with identity (`ElemId`), so one object can sit on several edges;
* element values are exact reals; `VerySmallCap`/`VeryLargeCap` objects used directly on an edge
  are not modelled (only as attached capacitors);
* `elements` (a Python dict, insertion ordered) is a list of (edge, element list).
-/

namespace SQ

abbrev ElemId := ℕ
abbrev LoopId := ℕ
abbrev Edge := ℕ × ℕ

/-- The three element classes (elements.py:108, 247, 427). -/
inductive Kind
  | cap | ind | jj
  deriving DecidableEq, Repr

/-- An element object as seen by the circuit: class, `internal_value`, attached capacitor
(`.cap`, inductive elements only), loops (`.loops`), autograd flags (elements.py:26-65,
300-311, 486-497). -/
structure ElemObj where
  kind : Kind
  value : ℝ
  cap : ElemId
  loops : List LoopId
  reqGrad : Bool
  isLeaf : Bool

/-- `hasattr(el, 'loops')` (circuit.py:166): inductors and junctions. -/
def ElemObj.inductive (o : ElemObj) : Bool := o.kind != .cap

/-- A component that can be an optimisation parameter: element or loop. -/
inductive Comp
  | elem (i : ElemId)
  | loop (l : LoopId)
  deriving DecidableEq, Repr

/-- circuit.py:281,290: the accepted `flux_dist` values. -/
inductive FluxDist
  | all | junctions | inductors
  deriving DecidableEq, Repr

/-- The objects a circuit refers to and that the traversal only reads: elements, and the
autograd flags and values of loops. -/
structure Objs where
  elem : ElemId → ElemObj
  loopValue : LoopId → ℝ
  loopReqGrad : LoopId → Bool
  loopIsLeaf : LoopId → Bool

/-- The dictionary given to `Circuit(elements)`. -/
abbrev Elements := List (Edge × List ElemId)

/-! ### Python containers -/

/-- Index normalisation of Python/numpy for an axis of length `n`: negative indices count from
the end, anything else out of range is an `IndexError`. -/
def pyIdx (n : ℕ) (i : ℤ) : Except PyErr (Fin n) :=
  if h : 0 ≤ i ∧ i < n then .ok ⟨i.toNat, by omega⟩
  else if h : -(n : ℤ) ≤ i ∧ i < 0 then .ok ⟨(i + n).toNat, by omega⟩
  else .error .indexError

/-- `w[i] += d` on a Python list. -/
def addAt (w : List ℤ) (i : ℕ) (d : ℤ) : Except PyErr (List ℤ) :=
  if i < w.length then .ok (w.modify i (· + d)) else .error .indexError

/-- `m[i, j] = x` on a numpy array. -/
def matSet {n : ℕ} (M : Matrix (Fin n) (Fin n) ℝ) (i j : ℤ) (x : ℝ) :
    Except PyErr (Matrix (Fin n) (Fin n) ℝ) :=
  match pyIdx n i with
  | .error e => .error e
  | .ok i =>
    match pyIdx n j with
    | .error e => .error e
    | .ok j => .ok (Matrix.of fun a b => if a = i ∧ b = j then x else M a b)

/-- row of a numpy array made from a Python list of numbers -/
def rowVec (n : ℕ) (w : List ℤ) : Fin n → ℝ := fun i => (w.getD i 0 : ℤ)

/-! ### CircuitEdge -/

/-- circuit.py:78-92 `CircuitEdge._set_w_at_edge`. -/
def wAtEdge (n : ℕ) (e : Edge) : Except PyErr (List ℤ) :=
  let w := List.replicate (n + 1) (0 : ℤ)
  if e.1 = 0 ∨ e.2 = 0 then
    match addAt w (e.1 + e.2) 1 with
    | .error er => .error er
    | .ok w => .ok (w.drop 1)
  else
    match addAt w e.1 1 with
    | .error er => .error er
    | .ok w =>
      match addAt w e.2 (-1) with
      | .error er => .error er
      | .ok w => .ok (w.drop 1)

/-- circuit.py:94-113 `CircuitEdge._set_matrix_rep`. -/
def matrixRep (n : ℕ) (e : Edge) : Except PyErr (Matrix (Fin n) (Fin n) ℝ) :=
  let m : Matrix (Fin n) (Fin n) ℝ := 0
  if e.1 = 0 ∨ e.2 = 0 then
    let i : ℤ := (e.1 : ℤ) + e.2 - 1
    matSet m i i 1
  else
    let i : ℤ := (e.1 : ℤ) - 1
    let j : ℤ := (e.2 : ℤ) - 1
    match matSet m i i 1 with
    | .error er => .error er
    | .ok m =>
      match matSet m j j 1 with
      | .error er => .error er
      | .ok m =>
        match matSet m i j (-1) with
        | .error er => .error er
        | .ok m => matSet m j i (-1)

/-- State of the circuit object and of its loops during the traversal
(circuit.py:296-317, 757-780). `partialMats` is the `defaultdict(lambda: 0)`. -/
structure BSt (n : ℕ) where
  loopHeap : LoopId → LoopObj
  loops : List LoopId
  indKeys : List (Edge × ElemId × ℕ)
  junKeys : List (Edge × ElemId × ℕ × ℕ)
  params : List (Comp × ℝ)
  partialMats : ElemId → Matrix (Fin n) (Fin n) ℝ
  bId : ℕ
  kMat : List (List ℤ)
  cEdge : List ℝ

/-- `internal_value` of a component. -/
def compValue (O : Objs) : Comp → ℝ
  | .elem i => (O.elem i).value
  | .loop l => O.loopValue l

/-- `el.requires_grad or not el.is_leaf` (circuit.py:590). -/
def compTracked (O : Objs) : Comp → Bool
  | .elem i => (O.elem i).reqGrad || !(O.elem i).isLeaf
  | .loop l => O.loopReqGrad l || !(O.loopIsLeaf l)

/-- circuit.py:578-591 `Circuit.add_to_parameters`. -/
def addToParams (O : Objs) (c : Comp) (ps : List (Comp × ℝ)) : List (Comp × ℝ) :=
  if compTracked O c && !(ps.map Prod.fst).contains c then ps ++ [(c, compValue O c)] else ps

variable {n : ℕ}

/-- circuit.py:593-604 `Circuit.add_loop`. -/
def addLoop (l : LoopId) (st : BSt n) : BSt n :=
  if st.loops.contains l then st
  else { st with
    loopHeap := Function.update st.loopHeap l (st.loopHeap l).reset
    loops := st.loops ++ [l] }

/-- circuit.py:132-138: one iteration of `update_circuit_loop_from_element`. -/
def loopStep (torch : Bool) (O : Objs) (w : List ℤ) (b : ℕ) (l : LoopId) (st : BSt n) : BSt n :=
  let st := addLoop l st
  let st := { st with loopHeap := Function.update st.loopHeap l ((st.loopHeap l).addIndex b) }
  let st := { st with loopHeap := Function.update st.loopHeap l ((st.loopHeap l).addToKMat w) }
  if torch then { st with params := addToParams O (.loop l) st.params } else st

/-- circuit.py:115-138 `CircuitEdge.update_circuit_loop_from_element`. -/
def updateLoops (torch : Bool) (O : Objs) (w : List ℤ) (b : ℕ) (ls : List LoopId) (st : BSt n) :
    BSt n :=
  ls.foldl (fun st l => loopStep torch O w b l st) st

/-- elements.py:406-413, 564-571 `get_cap_for_flux_dist` (VerySmallCap = 1e-20 F,
VeryLargeCap = 1e20 F, elements.py:235-244). -/
noncomputable def capForFluxDist (O : Objs) (fd : FluxDist) (o : ElemObj) : ℝ :=
  match fd with
  | .all => (O.elem o.cap).value
  | .junctions => if o.kind = .jj then 1e-20 else 1e20
  | .inductors => if o.kind = .jj then 1e20 else 1e-20

/-- `el.partial_mat(mat_rep)` (elements.py:223-226, 415-424): capacitors return the edge matrix,
inductors the edge matrix divided by the squared inductance. -/
noncomputable def partialMat (o : ElemObj) (m : Matrix (Fin n) (Fin n) ℝ) :
    Matrix (Fin n) (Fin n) ℝ :=
  match o.kind with
  | .cap => m
  | .ind => Matrix.of fun i j => m i j / (o.value ^ 2)
  | .jj => 0

/-- `self.circ.partial_mats[i] += x`. -/
def addPartial (i : ElemId) (x : Matrix (Fin n) (Fin n) ℝ)
    (p : ElemId → Matrix (Fin n) (Fin n) ℝ) : ElemId → Matrix (Fin n) (Fin n) ℝ :=
  Function.update p i (p i + x)

/-- circuit.py:161-198: the body of the loop over the elements of one edge in
`process_edge_and_update_circ`. -/
noncomputable def procElem (torch : Bool) (fd : FluxDist) (O : Objs) (e : Edge) (w : List ℤ)
    (m : Matrix (Fin n) (Fin n) ℝ) (wId : ℕ) (st : BSt n) (i : ElemId) : BSt n :=
  let o := O.elem i
  -- case of the inductive element (166-190)
  let st :=
    if o.inductive then
      let st :=
        if torch then
          { st with
            params := addToParams O (.elem o.cap) st.params
            partialMats := addPartial o.cap (partialMat (O.elem o.cap) m) st.partialMats }
        else st
      let st :=
        if o.kind = .jj then { st with junKeys := st.junKeys ++ [(e, i, st.bId, wId)] }
        else { st with indKeys := st.indKeys ++ [(e, i, st.bId)] }
      let st := updateLoops torch O w st.bId o.loops st
      { st with
        bId := st.bId + 1
        kMat := st.kMat ++ [w]
        cEdge := st.cEdge ++ [capForFluxDist O fd o] }
    else st
  -- case of L and C (193-195); junctions have no `partial_mat`
  let st :=
    if o.kind = .jj then st
    else { st with partialMats := addPartial i (partialMat o m) st.partialMats }
  if torch then { st with params := addToParams O (.elem i) st.params } else st

/-- circuit.py:140-202 `CircuitEdge.process_edge_and_update_circ`. -/
noncomputable def procEdge (torch : Bool) (fd : FluxDist) (O : Objs) (e : Edge) (w : List ℤ)
    (m : Matrix (Fin n) (Fin n) ℝ) (wId : ℕ) (els : List ElemId) (st : BSt n) : BSt n :=
  els.foldl (procElem torch fd O e w m wId) st

/-- circuit.py:163,169: `edge_elems_by_type[Capacitor]` after processing: an element on the edge
contributes itself (capacitor) or its attached capacitor (inductive element). -/
def edgeCaps (O : Objs) (els : List ElemId) : List ElemId :=
  els.map (fun i => if (O.elem i).inductive then (O.elem i).cap else i)

/-- circuit.py:163: `edge_elems_by_type[Inductor]`. -/
def edgeInds (O : Objs) (els : List ElemId) : List ElemId :=
  els.filter (fun i => (O.elem i).kind == .ind)

/-- circuit.py:163: `edge_elems_by_type[Junction]`. -/
def edgeJuncs (O : Objs) (els : List ElemId) : List ElemId :=
  els.filter (fun i => (O.elem i).kind == .jj)

/-- circuit.py:208-216 `get_eff_cap_value`. -/
def effCap (O : Objs) (els : List ElemId) : ℝ :=
  ((edgeCaps O els).map (fun i => (O.elem i).value)).sum

/-- circuit.py:218-226 `get_eff_ind_value`; `1/0.0` raises `ZeroDivisionError`. -/
noncomputable def effInd (O : Objs) (els : List ElemId) : Except PyErr ℝ :=
  if (edgeInds O els).any (fun i => decide ((O.elem i).value = 0)) then .error .zeroDivision
  else .ok ((edgeInds O els).map (fun i => 1 / (O.elem i).value)).sum

/-- Local variables of `_get_LCWB` (circuit.py:752-780) together with the traversal state. -/
structure Acc (n : ℕ) where
  st : BSt n
  cMat : Matrix (Fin n) (Fin n) ℝ
  lMat : Matrix (Fin n) (Fin n) ℝ
  wMat : List (List ℤ)
  wId : ℕ
  numJunWithoutInd : ℕ

/-- circuit.py:782-806: one iteration over the edges in `_get_LCWB`. -/
noncomputable def edgeStep (torch : Bool) (fd : FluxDist) (O : Objs) (a : Acc n)
    (p : Edge × List ElemId) : Except PyErr (Acc n) :=
  match wAtEdge n p.1 with
  | .error e => .error e
  | .ok w =>
    match matrixRep n p.1 with
    | .error e => .error e
    | .ok m =>
      let st := procEdge torch fd O p.1 w m a.wId p.2 a.st
      let numJ :=
        if (edgeJuncs O p.2).length ≠ 0 ∧ (edgeInds O p.2).length = 0 then a.numJunWithoutInd + 1
        else a.numJunWithoutInd
      let cMat := a.cMat + effCap O p.2 • m
      match effInd O p.2 with
      | .error e => .error e
      | .ok x =>
        let lMat := a.lMat + x • m
        if (edgeJuncs O p.2).length ≠ 0 then
          .ok { st := st, cMat := cMat, lMat := lMat, wMat := a.wMat ++ [w], wId := a.wId + 1,
                numJunWithoutInd := numJ }
        else
          .ok { st := st, cMat := cMat, lMat := lMat, wMat := a.wMat, wId := a.wId,
                numJunWithoutInd := numJ }

/-- circuit.py:782-806: the whole loop over the edges. -/
noncomputable def buildEdges (torch : Bool) (fd : FluxDist) (O : Objs) :
    Elements → Acc n → Except PyErr (Acc n)
  | [], a => .ok a
  | p :: ps, a =>
    match edgeStep torch fd O a p with
    | .error e => .error e
    | .ok a => buildEdges torch fd O ps a

/-- Initial state of the traversal: circuit.py:296 / 408 (`loops = []`), 307-317 / 402-409
(`elem_keys`, `_parameters` emptied), 757-780; the loops' own bookkeeping (`loopHeap`) is
whatever earlier use left there. -/
def initAcc (n : ℕ) (h : LoopId → LoopObj) : Acc n where
  st := { loopHeap := h, loops := [], indKeys := [], junKeys := [], params := [],
          partialMats := fun _ => 0, bId := 0, kMat := [], cEdge := [] }
  cMat := 0
  lMat := 0
  wMat := []
  wId := 0
  numJunWithoutInd := 0

/-- circuit.py:752-806: the traversal part of `_get_LCWB` for a circuit with `n` nodes. -/
noncomputable def traverse (torch : Bool) (fd : FluxDist) (O : Objs) (n : ℕ)
    (h : LoopId → LoopObj) (els : Elements) : Except PyErr (Acc n) :=
  buildEdges torch fd O els (initAcc n h)

/-- Python `max` of tuples: lexicographic comparison, first maximal element. -/
def lexLt (a b : Edge) : Bool := a.1 < b.1 || (a.1 == b.1 && a.2 < b.2)

/-- `max(self.elements)` for a non-empty dict. -/
def lexMax : Edge → List Edge → Edge
  | m, [] => m
  | m, e :: es => if lexLt m e then lexMax e es else lexMax m es

/-- circuit.py:299 `self.n = max(max(self.elements))`; `max` of an empty dict is a
`ValueError`. -/
def numNodes (els : Elements) : Except PyErr ℕ :=
  match els.map Prod.fst with
  | [] => .error .valueError
  | e :: es => let m := lexMax e es; .ok (max m.1 m.2)

end SQ
