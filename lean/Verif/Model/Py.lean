import Mathlib.Data.Real.Basic

/-!
# Python conventions used by the model

Exceptions are values.  A method with side effects is a function
`σ → Except PyErr α × σ`; the second component is the state as it is at the moment the
call returns *or raises*, so partial mutation before an exception is visible.
-/

namespace SQ

/-- The exception classes raised by the modelled code.
`ModeError`, `CircuitStateError`: SQcircuit/exceptions.py:25-41; the others are Python's /
numpy's. -/
inductive PyErr
  | valueError
  | modeError
  | keyError
  | indexError
  | attributeError
  | zeroDivision
  | circuitState
  | linAlg
  | recursion
  | typeError
  | runtimeError
  /-- not an exception: the model's value for a call that has not returned within its fuel -/
  | noReturn
  deriving DecidableEq, Repr

/-- Result of a call on an object in state `σ`: outcome and the state afterwards. -/
abbrev Call (σ α : Type _) := Except PyErr α × σ

/-- A Python dict with string keys, as an association list (first match wins; the tables of
units.py have distinct keys). -/
abbrev Table := List (String × ℝ)

/-- `u in table` for a Python dict. -/
def Table.has (t : Table) (u : String) : Bool := t.any (fun p => p.1 == u)

/-- `table[u]`, raising `KeyError` when absent. -/
def Table.get (t : Table) (u : String) : Except PyErr ℝ :=
  match t.find? (fun p => p.1 == u) with
  | some p => .ok p.2
  | none => .error .keyError

end SQ
