import Verif.Model.CircuitPhys
import Verif.Model.Elements

/-!
# texts.py: the element and loop descriptions

Texts are lists of characters. How a rounded number is written (`np.round(_, 2)` and the formats
`<` and `e`) is a parameter. The printed text equals the returned one.
-/

namespace SQ

/-- the last key with branch number `i` (the loops of texts.py:184-190 keep overwriting `el`) -/
def lastMatch {K : Type*} (bId : K → ℕ) (el : K → ElemId) (i : ℕ) (keys : List K)
    (start : Option ElemId) : Option ElemId :=
  keys.foldl (fun e key => if i = bId key then some (el key) else e) start

/-- texts.py:183-190: the element shown in row `i` -/
def Build.rowElem (b : Build) (i : ℕ) : Option ElemId :=
  lastMatch (fun key => (key.bId : ℕ)) (fun key => key.el) i b.juns
    (lastMatch (fun key => (key.bId : ℕ)) (fun key => key.el) i b.inds none)

/-- one row: the element, the branch label and the entries `|B[i, j]|` -/
structure LoopRow where
  el : ElemId
  label : ℕ
  entries : List ℝ

/-- Python's `f'{s:{n}}'` and `f'{s:<{n}}'` for strings: pad on the right -/
def padTo (s : List Char) (n : ℕ) : List Char := s ++ List.replicate (n - s.length) ' '

/-- texts.py:182-193: the rows; `el.id_str` of `None` is an `AttributeError` -/
noncomputable def Build.loopRowsList (b : Build) : Except PyErr (List LoopRow) :=
  (List.finRange b.nB).mapM fun i : Fin b.nB =>
    match b.rowElem i with
    | none => .error .attributeError
    | some e => .ok { el := e, label := i + 1
                      entries := (List.finRange b.loops.length).map (fun j => |b.B i j|) }

/-- Python's `max` of a list -/
def pyMax : List ℕ → Except PyErr ℕ
  | [] => .error .valueError
  | l => .ok (l.foldr max 0)

/-- texts.py:158-165: the two column widths `nr` and `nh` -/
noncomputable def Build.widths (b : Build) (elName : ElemId → List Char)
    (loopName : LoopId → List Char) : Except PyErr (ℕ × ℕ) :=
  match pyMax (b.juns.map (fun k => (elName k.el).length) ++
      b.inds.map (fun k => (elName k.el).length)) with
  | .error e => .error e
  | .ok nr =>
    match pyMax (b.loops.map (fun l => (loopName l).length)) with
    | .error e => .error e
    | .ok nh => .ok (nr, nh)

/-- texts.py:174-175: the header -/
def headerLine (nr nh : ℕ) (names : List (List Char)) : List Char :=
  List.replicate (nr + 5 + 5) ' ' ++
    (List.intercalate (List.replicate 10 ' ') (names.map (fun s => padTo s nh)))

/-- texts.py:193-195: one row -/
def rowLine (elName : ElemId → List Char) (fmt : ℝ → List Char) (nr nh : ℕ) (r : LoopRow) :
    List Char :=
  padTo (elName r.el) nr ++ padTo (", b".toList ++ (toString r.label).toList ++ [':']) (5 + 5) ++
    (r.entries.map (fun x => padTo (fmt x) (nh + 10))).flatten

/-- texts.py:155-199 `print_loop_description`, as the list of its lines. -/
noncomputable def Build.loopDescription (b : Build) (elName : ElemId → List Char)
    (loopName : LoopId → List Char) (fmt : ℝ → List Char) : Except PyErr (List (List Char)) :=
  match b.widths elName loopName with
  | .error e => .error e
  | .ok (nr, nh) =>
    match b.loopRowsList with
    | .error e => .error e
    | .ok rows =>
      let header := headerLine nr nh (b.loops.map loopName)
      .ok (header :: List.replicate header.length '-' :: rows.map (rowLine elName fmt nr nh))

/-- texts.py:14-18 `ELEMENT_NAMES` -/
def kindName : Kind → String
  | .cap => "C"
  | .ind => "L"
  | .jj => "JJ"

/-- elements.py:134, 278, 460 `value_unit` -/
def valueUnit : Kind → String
  | .cap => "F"
  | .ind => "H"
  | .jj => "Hz"

/-- elements.py:201-221, 359-377, 535-547 `get_value` by kind of element -/
noncomputable def kindGetValue : Kind → String → Elem → Except PyErr ℝ
  | .cap => capGetValue
  | .ind => indGetValue
  | .jj => jjGetValue

/-- one line of the element description: name, number, unit -/
structure ElLine where
  name : String
  number : ℝ
  unit : String

/-- texts.py:201-212 `print_el_description`: per edge the edge and the lines of its elements. -/
noncomputable def elDescription (O : Objs) (els : Elements) :
    Except PyErr (List (Edge × List ElLine)) :=
  els.mapM fun p => do
    let lines ← p.2.mapM fun i => do
      let x ← kindGetValue (O.elem i).kind (valueUnit (O.elem i).kind) ⟨(O.elem i).value, 0⟩
      pure (⟨kindName (O.elem i).kind, x, valueUnit (O.elem i).kind⟩ : ElLine)
    pure (p.1, lines)

end SQ
