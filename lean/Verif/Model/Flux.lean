import Verif.Model.Graph
import Mathlib.LinearAlgebra.Matrix.NonsingularInverse
import Mathlib.Algebra.Order.Floor.Ring

/-!
# Loop vectors and external flux distribution (second half of `_get_LCWB`)

External routine: the singular values `np.linalg.svd(m)[1]` are a parameter
`sv : ∀ b m, Matrix (Fin b) (Fin m) ℝ → List ℝ`. `np.linalg.inv` is exact inversion, failing with
`LinAlgError` on non-square or singular input (numpy may invert numerically singular matrices
instead: not modelled).
-/

namespace SQ
open Matrix

/-- singular value routine -/
abbrev SvdFn := ∀ b m : ℕ, Matrix (Fin b) (Fin m) ℝ → List ℝ

/-- functions.py:309-318 `remove_zero_columns`: the columns kept. -/
noncomputable def nonzeroCols {b n : ℕ} (k : Matrix (Fin b) (Fin n) ℝ) : List (Fin n) :=
  open Classical in (List.finRange n).filter (fun j => decide (∃ i, k i j ≠ 0))

/-- functions.py:321-336 `remove_dependent_columns`: the columns (of the input) kept. The indices
of singular values above `tol` are used as column indices. -/
noncomputable def keptCols (sv : SvdFn) {b n : ℕ} (k : Matrix (Fin b) (Fin n) ℝ) : List (Fin n) :=
  let nz := nonzeroCols k
  let s := sv b nz.length (Matrix.of fun i j => k i (nz.get j))
  let independent := (List.range s.length).filter (fun t => decide (|s.getD t 0| > (1e-5 : ℝ)))
  independent.filterMap (fun t => nz[t]?)

/-- numpy array from a list of incidence vectors -/
def arrayOf (n : ℕ) (rows : List (List ℤ)) : Matrix (Fin rows.length) (Fin n) ℝ :=
  Matrix.of fun i => rowVec n (rows.get i)

/-- view of a list of rows of length `b` as a square matrix; `np.linalg.inv` rejects others. -/
def squareOf {b : ℕ} (rows : List (Fin b → ℝ)) : Except PyErr (Matrix (Fin b) (Fin b) ℝ) :=
  if h : rows.length = b then .ok (Matrix.of fun i => rows.get (i.cast h.symm))
  else .error .linAlg

/-- `np.linalg.inv`. -/
noncomputable def npInv {b : ℕ} (A : Matrix (Fin b) (Fin b) ℝ) :
    Except PyErr (Matrix (Fin b) (Fin b) ℝ) :=
  open Classical in if A.det = 0 then .error .linAlg else .ok A⁻¹

/-- first unit row `b` of `get_g` -/
def unitRow (b : ℕ) : Fin b → ℝ := fun i => if (i : ℕ) = 0 then 1 else 0

/-- elements.py:683-690 `Loop.get_g`. `kMat` is the loop's list of incidence vectors. -/
noncomputable def getG (sv : SvdFn) (n : ℕ) (kMat : List (List ℤ)) :
    Except PyErr (Fin kMat.length → ℝ) :=
  let k := arrayOf n kMat
  let kept := keptCols sv k
  if kMat.length = 0 then .error .indexError
  else
    match squareOf (unitRow kMat.length :: kept.map (fun j i => k i j)) with
    | .error e => .error e
    | .ok A =>
      match npInv A with
      | .error e => .error e
      | .ok Ai => .ok (Ai *ᵥ unitRow kMat.length)

/-- `g = np.zeros((1, b_id)); g[0, loop.indices] = vals` (circuit.py:815-817). -/
noncomputable def scatter (b : ℕ) (indices : List ℕ) (vals : List ℝ) : Except PyErr (Fin b → ℝ) :=
  if indices.any (fun i => decide (b ≤ i)) then .error .indexError
  else .ok ((indices.zip vals).foldl
    (fun f p => fun i : Fin b => if (i : ℕ) = p.1 then p.2 else f i) (fun _ => 0))

/-- circuit.py:815-818: the rows contributed by the loops. -/
noncomputable def loopRows (sv : SvdFn) (n b : ℕ) : List LoopObj → Except PyErr (List (Fin b → ℝ))
  | [] => .ok []
  | l :: ls =>
    match getG sv n l.kMat with
    | .error e => .error e
    | .ok g =>
      match scatter b l.indices (List.ofFn g) with
      | .error e => .error e
      | .ok row =>
        match loopRows sv n b ls with
        | .error e => .error e
        | .ok rows => .ok (row :: rows)

/-- Round half to even (numpy `rint`). -/
noncomputable def rint (x : ℝ) : ℤ :=
  open Classical in
  let f := ⌊x⌋
  if x - f < 1 / 2 then f else if 1 / 2 < x - f then f + 1 else if 2 ∣ f then f else f + 1

/-- `np.around(x, 5)`. -/
noncomputable def round5 (x : ℝ) : ℝ := rint (x * 1e5) / 1e5

/-- circuit.py:808-833: the matrix `B` (`none` for circuits without loops, where `b_mat` stays an
empty array). `ValueError` and its subclass `LinAlgError` become `ValueError`. -/
noncomputable def fluxMatrix (sv : SvdFn) (n : ℕ) (kMat : List (List ℤ)) (cEdge : List ℝ)
    (loops : List LoopObj) :
    Except PyErr (Option (Matrix (Fin kMat.length) (Fin loops.length) ℝ)) :=
  let b := kMat.length
  let k := arrayOf n kMat
  let kept := keptCols sv k
  let xRows : List (Fin b → ℝ) := kept.map (fun j i => k i j * cEdge.getD i 0)
  let r : Except PyErr (Option (Matrix (Fin b) (Fin loops.length) ℝ)) :=
    match loopRows sv n b loops with
    | .error e => .error e
    | .ok gRows =>
      if loops.length = 0 then .ok none
      else
        if b < loops.length then .error .valueError
        else
          match squareOf (xRows ++ gRows) with
          | .error e => .error e
          | .ok X =>
            match npInv X with
            | .error e => .error e
            | .ok Xi =>
              -- `i_mat` is zero except for an identity block in the last rows
              .ok (some (Matrix.of fun i l =>
                ∑ t : Fin b, Xi i t *
                  (if b - loops.length ≤ (t : ℕ) ∧ (t : ℕ) - (b - loops.length) = (l : ℕ)
                   then 1 else 0)))
  match r with
  | .ok none => .ok none
  | .ok (some B) => .ok (some (Matrix.of fun i l => round5 (B i l)))
  | .error .valueError => .error .valueError
  | .error .linAlg => .error .valueError
  | .error e => .error e

/-- circuit.py:743-835 `_get_LCWB`: traversal followed by the flux distribution. -/
noncomputable def getLCWB (sv : SvdFn) (torch : Bool) (fd : FluxDist) (O : Objs) (n : ℕ)
    (h : LoopId → LoopObj) (els : Elements) :
    Except PyErr (Σ a : Acc n, Option (Matrix (Fin a.st.kMat.length)
      (Fin (a.st.loops.map a.st.loopHeap).length) ℝ)) :=
  match traverse torch fd O n h els with
  | .error e => .error e
  | .ok a =>
    match fluxMatrix sv n a.st.kMat a.st.cEdge (a.st.loops.map a.st.loopHeap) with
    | .error e => .error e
    | .ok B => .ok ⟨a, B⟩

/-- circuit.py:1759-1786 `_get_external_flux_at_element`: `loops` are the current loop values (in
radians), `B` the flux distribution; without loops the sum is empty. -/
noncomputable def extFlux {b nl : ℕ} (B : Matrix (Fin b) (Fin nl) ℝ) (loopVals : Fin nl → ℝ)
    (bId : Fin b) : ℝ :=
  (List.finRange nl).foldl (fun acc i => acc + loopVals i * B bId i) 0

end SQ
