import Verif.Model.Copy

/-! # What can be seen of a circuit and its objects -/

namespace SQ.Spec

/-- an element as seen from its circuit: class, value, value of the attached capacitor, and its loops
as positions in the circuit's list of loops -/
structure ElemView where
  kind : Kind
  value : ℝ
  cap : Option ℝ
  loops : List ℕ

def viewElem (H : SHeap) (loops : List LoopId) (i : ElemId) : ElemView :=
  if (H.elem i).kind = .cap then ⟨(H.elem i).kind, (H.elem i).value, none, []⟩
  else ⟨(H.elem i).kind, (H.elem i).value, some (H.elem (H.elem i).cap).value,
    (H.elem i).loops.map (fun l => loops.idxOf l)⟩

/-- edges with their elements, and the values of the loops -/
def view (H : SHeap) (c : SCirc) : List (Edge × List ElemView) × List ℝ :=
  (c.elements.map (fun p => (p.1, p.2.map (viewElem H c.loops))), c.loops.map H.loopValue)

/-- the elements placed on edges, with repetitions -/
def placed (c : SCirc) : List ElemId := c.elements.flatMap Prod.snd

/-- A circuit as construction leaves it: everything exists, the loops are those of the elements, keys
are placed elements, parameters are loops, placed elements or attached capacitors. -/
structure Built (H : SHeap) (c : SCirc) : Prop where
  elem_lt : ∀ i ∈ placed c, i < H.nextE
  cap_lt : ∀ i ∈ placed c, (H.elem i).kind ≠ .cap → (H.elem i).cap < H.nextE
  loops_mem : ∀ i ∈ placed c, (H.elem i).kind ≠ .cap → ∀ l ∈ (H.elem i).loops, l ∈ c.loops
  loops_lt : ∀ l ∈ c.loops, l < H.nextL
  loops_nodup : c.loops.Nodup
  jun_placed : ∀ k ∈ c.junKeys, k.2.1 ∈ placed c
  ind_placed : ∀ k ∈ c.indKeys, k.2.1 ∈ placed c
  op_placed : ∀ k ∈ c.opKeys, k.1 ∈ placed c
  param_elem : ∀ i, Comp.elem i ∈ c.params →
    i ∈ placed c ∨ ∃ j ∈ placed c, (H.elem j).kind ≠ .cap ∧ i = (H.elem j).cap
  param_loop : ∀ l, Comp.loop l ∈ c.params → l ∈ c.loops
  partial_ok : ∀ i ∈ c.partials,
    i ∈ placed c ∨ ∃ j ∈ placed c, (H.elem j).kind ≠ .cap ∧ i = (H.elem j).cap

/-- `c'` is `c` with every element `i` replaced by `fe i` and every loop `l` by `fl l` -/
structure Renamed (fe : ElemId → ElemId) (fl : LoopId → LoopId) (c c' : SCirc) : Prop where
  elements : c'.elements = c.elements.map (fun p => (p.1, p.2.map fe))
  loops : c'.loops = c.loops.map fl
  params : c'.params = c.params.map (fun k => match k with
    | .elem i => Comp.elem (fe i)
    | .loop l => Comp.loop (fl l))
  junKeys : c'.junKeys = c.junKeys.map (fun k => (k.1, fe k.2.1, k.2.2))
  indKeys : c'.indKeys = c.indKeys.map (fun k => (k.1, fe k.2.1, k.2.2))
  opKeys : c'.opKeys = c.opKeys.map (fun k => (fe k.1, k.2))

end SQ.Spec
