import Verif.Model.Lists

/-!
# Programs that go on using the lists of a circuit
-/

namespace SQ.Spec

/-- the calls on the circuit and the setters of a program, without its changes of lists and dictionary -/
def calls : List ScriptAct → List Act
  | [] => []
  | .call a :: h => a :: calls h
  | _ :: h => calls h

/-- the program changes no list of the dictionary in place -/
def LeavesLists (d : ListDict) (h : List ScriptAct) : Prop := ∀ l new, .editList l new ∈ h → ∀ p ∈ d, p.2 ≠ l

end SQ.Spec
