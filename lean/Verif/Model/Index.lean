import Verif.Model.Ops

/-!
# Tensor product index decomposition
-/

namespace SQ

/-- circuit.py:2183-2188: `mP`, the products of the trailing dimensions. Python's `self.m[-1 - i]` is
the entry `n - 1 - i`. -/
def buildMP (n : ℕ) (m : List ℕ) : List ℕ :=
  (List.range (n - 1)).foldl (fun mP i =>
    if i = 0 then mP ++ [m.getD (m.length - 1) 0]
    else (mP.getD 0 0 * m.getD (m.length - 1 - i) 0) :: mP) []

/-- circuit.py:2190-2199: one iteration of the decomposition. `int(indexP / mP[i])` is modelled as
exact integer division (float division is exact enough below 2^53). -/
def modesStep (n : ℕ) (mP : List ℕ) (st : List ℕ × ℕ) (i : ℕ) : List ℕ × ℕ :=
  if i = n - 1 then (st.1 ++ [st.2], st.2)
  else (st.1 ++ [st.2 / mP.getD i 0], st.2 % mP.getD i 0)

/-- circuit.py:2166-2201 `_tensor_to_modes`. -/
def tensorToModes (m : List ℕ) (tensorIndex : ℕ) : List ℕ :=
  ((List.range m.length).foldl (modesStep m.length (buildMP m.length m)) ([], tensorIndex)).1

end SQ
