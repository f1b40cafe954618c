import Verif.Model.Shared
import Verif.Model.NoiseBuild

/-!
# The lists a circuit is built from

`Circuit.__init__` copies the dictionary of elements, but keeps the list objects of the caller as its values. Later methods
(`update`, `dec_rate`, the description of the elements) read the elements through these lists.
-/

namespace SQ

/-- identity of a Python list object -/
abbrev ListId := ℕ

/-- a dictionary from edges to list objects -/
abbrev ListDict := List (Edge × ListId)

/-- the elements a dictionary of list objects stands for, with the present contents of the lists -/
def listed (d : ListDict) (lists : ListId → List ElemId) : Elements := d.map fun p => (p.1, lists p.2)

/-- the description of a circuit with other elements -/
def CircSpec.withEls (c : CircSpec) (els : Elements) : CircSpec := { c with els := els }

/-- A program with one circuit: contents of the lists, the dictionary of the caller, the attribute `elements` of the circuit, and
the circuit itself. -/
structure Script (c : CircSpec) (eigs : EigsRoutine) (as : List ℂ → List ℕ) where
  lists : ListId → List ElemId
  dict : ListDict
  own : ListDict
  w : World (circPhys c eigs as)

/-- statements: calls on the circuit and setters (`Act`); in-place changes of a list object (`append`, `remove`, item
assignment, …); assignment to and deletion of entries of the dictionary of the caller -/
inductive ScriptAct
  | call (a : Act)
  | editList (l : ListId) (new : List ElemId)
  | setEntry (e : Edge) (l : ListId)
  | delEntry (e : Edge)

variable {c : CircSpec} {eigs : EigsRoutine} {as : List ℂ → List ℕ}

/-- circuit.py:276-395 `__init__`: `self.elements` is a new dictionary with the same keys and the same list objects
(circuit.py:286-288); the elements are read through it. -/
noncomputable def Script.construct (c : CircSpec) (eigs : EigsRoutine) (as : List ℂ → List ℕ) (lists : ListId → List ElemId)
    (dict : ListDict) (vals : ElemId → ℝ) (flux : LoopId → ℝ) (u : ℝ) : Except PyErr (Script c eigs as) :=
  match buildCirc (c.withEls (listed dict lists)) vals with
  | .error e => .error e
  | .ok bd => .ok { lists := lists, dict := dict, own := dict, w := ⟨newCirc (P := circPhys c eigs as) bd, vals, flux, u⟩ }

/-- the elements the methods of the circuit see now: circuit.py:778-780 (`update`), 2596-2597 (`dec_rate`), 1335 -/
def Script.elements (s : Script c eigs as) : Elements := listed s.own s.lists

/-- result and next state of one statement -/
noncomputable def ScriptAct.exec (a : ScriptAct) (s : Script c eigs as) : Except PyErr Unit × Script c eigs as :=
  match a with
  | .call .update =>
    let r := updateWith (P := circPhys c eigs as) (rebuildCirc (c.withEls s.elements) (Build.k s.w.circ.bd) s.w.vals) s.w
    (r.1, { s with w := r.2 })
  | .call a => let r := a.exec s.w; (r.1, { s with w := r.2 })
  | .editList l new => (.ok (), { s with lists := Function.update s.lists l new })
  | .setEntry e l => (.ok (), { s with dict := (s.dict.filter fun p => decide (p.1 ≠ e)) ++ [(e, l)] })
  | .delEntry e => (.ok (), { s with dict := s.dict.filter fun p => decide (p.1 ≠ e) })

/-- state after a program -/
noncomputable def scriptRun (s : Script c eigs as) (h : List ScriptAct) : Script c eigs as :=
  h.foldl (fun s a => (a.exec s).2) s

/-- the capacitors `dec_rate('capacitive', …)` sums over now (circuit.py:2596-2601) -/
def Script.lossCaps (s : Script c eigs as) : List (Edge × ElemId) := branchCaps c.O s.elements

end SQ
