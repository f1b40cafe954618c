import Verif.Model.Phase

/-!
# circuit.py: the array returned by `eig_phase_coord`
-/

namespace SQ

/-- A NumPy array, as `phi_list[mode]` and `state` in circuit.py:2227-2312: its shape and its entries by multi-index. -/
structure NDArr (α : Type*) where
  shape : List ℕ
  get : List ℕ → α

/-- circuit.py:2227 `np.meshgrid(*grid, indexing='ij')`: one array per grid axis, all of the shape of the grid. -/
noncomputable def meshgrid (grid : List (List ℝ)) : List (NDArr ℝ) :=
  (List.range grid.length).map fun d =>
    { shape := grid.map List.length, get := fun idx => (grid.getD d []).getD (idx.getD d 0) 0 }

/-- circuit.py:2303: the multi-index with zeros put back on axes of length 1 -/
def unsqueeze : List ℕ → List ℕ → List ℕ
  | [], _ => []
  | s :: ss, idx =>
    if s = 1 then 0 :: unsqueeze ss idx
    else match idx with
      | [] => 0 :: unsqueeze ss []
      | i :: idx => i :: unsqueeze ss idx

/-- circuit.py:2303 `np.squeeze`. -/
def squeeze {α : Type*} (a : NDArr α) : NDArr α where
  shape := a.shape.filter (fun s => decide (s ≠ 1))
  get := fun idx => a.get (unsqueeze a.shape idx)

/-- circuit.py:2307-2310 (`indModes`): exchange of the first two entries -/
def swapTwo {α : Type*} : List α → List α
  | a :: b :: l => b :: a :: l
  | l => l

/-- circuit.py:2305-2310: transposition of the first two axes if there are at least two. -/
def transposeTwo {α : Type*} (a : NDArr α) : NDArr α :=
  if a.shape.length > 1 then { shape := swapTwo a.shape, get := fun idx => a.get (swapTwo idx) } else a

/-- circuit.py:2241 `self._evecs[k]`: Python indexing of a list, negative indices counting from the end. -/
def pyIndex {α : Type*} (l : List α) (k : ℤ) : Except PyErr α :=
  match (if k < 0 then (if k + l.length < 0 then none else l[(k + l.length).toNat]?) else l[k.toNat]?) with
  | none => .error .indexError
  | some a => .ok a

/-- circuit.py:2203-2312 `eig_phase_coord`: `evecs` are the entries of the stored eigenvectors, `k` the index of the
state (`none`: not an integer) and `grid` the phases of each axis. There is at least one mode and each has at least one
state, so the loop body, where the index errors arise, is executed. Entries are combined as in `eigPhaseCoord`. -/
noncomputable def eigPhaseCoordGrid {nJ n : ℕ} (hyperu : ℝ → ℝ → ℝ → ℝ) (D : ModeData nJ n) (m : Fin n → ℕ)
    (evecs : List (ℕ → ℂ)) (k : Option ℤ) (grid : List (List ℝ)) : Except PyErr (NDArr ℂ) :=
  if evecs.length = 0 then .error .circuitState
  else
    match k with
    | none => .error .valueError
    | some k =>
      let phiList := meshgrid grid
      match pyIndex evecs k with
      | .error e => .error e
      | .ok v =>
        if phiList.length < n then .error .indexError
        else
          let state : NDArr ℂ :=
            { shape := grid.map List.length
              get := fun idx => eigPhaseCoord hyperu D m v fun mode => ((phiList.map fun a => a.get idx).getD mode 0) }
          .ok (transposeTwo (squeeze state))

end SQ
