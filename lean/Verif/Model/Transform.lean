import Verif.Model.Flux
import Mathlib.Analysis.SpecialFunctions.Pow.Real

/-!
# circuit.py, part 2: coordinate transformations and removal of uncoupled modes

External routines are parameters: `scipy.linalg.sqrtm`, `numpy.linalg.svd` (singular values and
right factor), `numpy.linalg.eig` (eigenvalues), `numpy.argsort`, `numpy.random.randn`.  Matrix
inversion is exact.  Python's recursion in `_get_and_apply_transformation_2` and its `while` loop
are unbounded; they are modelled with fuel, and `none` means "has not returned yet" (in CPython the
recursion ends in `RecursionError`).
-/

namespace SQ
open Matrix Real

/-- The transformation state of a circuit (circuit.py:331-348): transformed inverse capacitance,
susceptance and W matrices, accumulated flux (S) and charge (R) transformations, and the mode
frequencies. `nJ` is the number of rows of W. -/
structure Trans (nJ n : ℕ) where
  cInv : Matrix (Fin n) (Fin n) ℝ
  l : Matrix (Fin n) (Fin n) ℝ
  w : Matrix (Fin nJ) (Fin n) ℝ
  S : Matrix (Fin n) (Fin n) ℝ
  R : Matrix (Fin n) (Fin n) ℝ
  omega : Fin n → ℝ

/-- numpy / scipy routines on `n × n` matrices. -/
structure NumLib (n : ℕ) where
  sqrtm : Matrix (Fin n) (Fin n) ℝ → Matrix (Fin n) (Fin n) ℝ
  svdD : Matrix (Fin n) (Fin n) ℝ → Fin n → ℝ
  svdVh : Matrix (Fin n) (Fin n) ℝ → Matrix (Fin n) (Fin n) ℝ
  eigvals : Matrix (Fin n) (Fin n) ℝ → Fin n → ℝ

/-- `np.argsort` on `k` keys. -/
abbrev ArgsortFn := ∀ k : ℕ, (Fin k → ℝ) → List (Fin k)

/-- settings.py:4-8 `ACC`. -/
noncomputable def accSing : ℝ := 1e-11
/-- settings.py:4-8 `ACC`. -/
noncomputable def accGS : ℝ := 1e-6
/-- settings.py:4-8 `ACC`. -/
noncomputable def accHar : ℝ := 1e-11

variable {nJ n : ℕ}

/-- circuit.py:331-348: state before the transformations. -/
noncomputable def initTrans (C L : Matrix (Fin n) (Fin n) ℝ) (W : Matrix (Fin nJ) (Fin n) ℝ) :
    Trans nJ n where
  cInv := C⁻¹
  l := L
  w := W
  S := 1
  R := 1
  omega := fun _ => 0

/-- circuit.py:882-900 `_apply_transformation`. -/
def applyT (s r : Matrix (Fin n) (Fin n) ℝ) (t : Trans nJ n) : Trans nJ n :=
  { t with
    cInv := rᵀ * t.cInv * r
    l := sᵀ * t.l * s
    w := if nJ ≠ 0 then t.w * s else t.w
    S := t.S * s
    R := t.R * r }

/-- `np.max` of a vector (of at least one entry). -/
noncomputable def vmax (v : Fin n → ℝ) : ℝ := ⨆ i, v i

/-- circuit.py:924-926: number of eigenvalues of L that are negligible relative to the largest. -/
noncomputable def numSings (eigs : Fin n → ℝ) : ℕ :=
  open Classical in (Finset.univ.filter (fun i => eigs i / vmax eigs < accSing)).card

/-- circuit.py:916-929: the scaling values D and the first singular location. -/
noncomputable def t1Scale (D : Fin n → ℝ) (eigs : Fin n → ℝ) : (Fin n → ℝ) × ℕ :=
  open Classical in
  if vmax D = 0 then (fun _ => 1, 0)
  else
    let sing := n - numSings eigs
    (fun i => if sing ≤ (i : ℕ) then vmax D else D i, sing)

/-- circuit.py:932-933: S1 and R1. -/
noncomputable def t1S (cRoot Vh : Matrix (Fin n) (Fin n) ℝ) (D : Fin n → ℝ) :
    Matrix (Fin n) (Fin n) ℝ :=
  cRoot⁻¹ * Vhᵀ * diagonal (fun i => √(D i))

/-- circuit.py:902-939 `_get_and_apply_transformation_1`. -/
noncomputable def t1 (lib : NumLib n) (C L : Matrix (Fin n) (Fin n) ℝ) (t : Trans nJ n) :
    Trans nJ n :=
  let cRoot := lib.sqrtm C
  let lRoot := lib.sqrtm L
  let M := lRoot * cRoot⁻¹
  let (D, sing) := t1Scale (lib.svdD M) (lib.eigvals L)
  let s := t1S cRoot (lib.svdVh M) D
  let r := (s⁻¹)ᵀ
  let t := applyT s r t
  -- self.lTrans[sing_locs, sing_locs] = 0
  { t with l := Matrix.of fun i j => if i = j ∧ sing ≤ (i : ℕ) then 0 else t.l i j }

/-- circuit.py:1180: natural frequencies. -/
noncomputable def setOmega (t : Trans nJ n) : Trans nJ n :=
  { t with omega := fun i => √(t.cInv i i * t.l i i) }

/-- circuit.py:865-880 `_is_charge_mode` (index in range). -/
def Trans.isCharge (t : Trans nJ n) (j : Fin n) : Prop := t.omega j = 0

/-! ### second transformation -/

/-- Euclidean norm, `np.linalg.norm` of a vector. -/
noncomputable def vnorm {k : ℕ} (v : Fin k → ℝ) : ℝ := √(∑ i, v i ^ 2)

/-- circuit.py:960-963: rows divided by (norm + 1e-9). -/
noncomputable def normRow {k : ℕ} (v : Fin k → ℝ) : Fin k → ℝ := fun c => v c / (vnorm v + 1e-9)

/-- circuit.py:973-974: subtract the projections on the basis vectors. -/
noncomputable def gsResidual {k : ℕ} (basis : List (Fin k → ℝ)) (a : Fin k → ℝ) : Fin k → ℝ :=
  a - (basis.map (fun e => (a ⬝ᵥ e) • e)).sum

/-- circuit.py:972-977: one iteration over the sorted rows. -/
noncomputable def gsStep {m k : ℕ} (A : Matrix (Fin m) (Fin k) ℝ)
    (st : List (Fin m) × List (Fin k → ℝ)) (i : Fin m) : List (Fin m) × List (Fin k → ℝ) :=
  open Classical in
  let a' := gsResidual st.2 (normRow (A i))
  if ∃ c, |a' c| > accGS then (st.1 ++ [i], st.2 ++ [fun c => a' c / vnorm a']) else st

/-- circuit.py:941-978 `_independent_rows`. -/
noncomputable def independentRows (argsort : ArgsortFn) {m k : ℕ} (A : Matrix (Fin m) (Fin k) ℝ) :
    List (Fin m) × List (Fin k → ℝ) :=
  (argsort m (fun i => - vnorm (A i))).foldl (gsStep A) ([], [])

/-- State of the `while` loop (circuit.py:1074-1093); `t` counts the random draws. -/
structure BasisSt (m k : ℕ) where
  ind : List (Fin m)
  rnd : List (Fin k → ℝ)
  basis : List (Fin k → ℝ)
  t : ℕ

/-- Frobenius norm (circuit.py:1089). -/
noncomputable def frob {m k : ℕ} (A : Matrix (Fin m) (Fin k) ℝ) : ℝ := √(∑ i, ∑ j, A i j ^ 2)

/-- source of `np.random.randn`: draw number, row, column -/
abbrev Draws := ℕ → ℕ → ℕ → ℝ

/-- matrix from a list of rows -/
def rowsMat {k : ℕ} (rows : List (Fin k → ℝ)) : Matrix (Fin rows.length) (Fin k) ℝ :=
  Matrix.of fun i => rows.get i

/-- circuit.py:1083-1093: body of the `while` loop. -/
noncomputable def basisStep (argsort : ArgsortFn) (draws : Draws) {m k : ℕ}
    (A : Matrix (Fin m) (Fin k) ℝ) (st : BasisSt m k) : BasisSt m k :=
  if st.basis.length = 0 then
    let r := independentRows argsort A
    { st with ind := r.1, basis := r.2 }
  else
    let rnd := (List.range (k - st.basis.length)).map
      (fun row => fun c : Fin k => frob A * draws st.t row c)
    { st with rnd := rnd, basis := (independentRows argsort (rowsMat (st.basis ++ rnd))).2,
              t := st.t + 1 }

/-- circuit.py:1082-1093: `while len(basis) != nq`, with fuel. -/
noncomputable def basisLoop (argsort : ArgsortFn) (draws : Draws) {m k : ℕ}
    (A : Matrix (Fin m) (Fin k) ℝ) : ℕ → BasisSt m k → Option (BasisSt m k)
  | 0, st => if st.basis.length = k then some st else none
  | fuel + 1, st =>
    if st.basis.length = k then some st
    else basisLoop argsort draws A fuel (basisStep argsort draws A st)

/-- the charge-mode columns `self.omega == 0` -/
noncomputable def chargeCols (omega : Fin n → ℝ) : List (Fin n) :=
  open Classical in (List.finRange n).filter (fun j => decide (omega j = 0))

/-- circuit.py:1057-1064: the charge part of the reduced, transformed W. -/
noncomputable def wCharge (sv : SvdFn) (W : Matrix (Fin nJ) (Fin n) ℝ)
    (S1 : Matrix (Fin n) (Fin n) ℝ) (omega : Fin n → ℝ) :
    Matrix (Fin (keptCols sv Wᵀ).length) (Fin (chargeCols omega).length) ℝ :=
  Matrix.of fun i j => (W * S1) ((keptCols sv Wᵀ).get i) ((chargeCols omega).get j)

/-- `block_diag(np.eye(self.n - nq), F)` (circuit.py:1097), of size n. -/
noncomputable def blockS2 {k : ℕ} (hk : k ≤ n) (F : Matrix (Fin k) (Fin k) ℝ) :
    Matrix (Fin n) (Fin n) ℝ :=
  Matrix.of fun i j =>
    if h : n - k ≤ (i : ℕ) ∧ n - k ≤ (j : ℕ) then
      F ⟨(i : ℕ) - (n - k), by omega⟩ ⟨(j : ℕ) - (n - k), by omega⟩
    else if i = j then 1 else 0

theorem chargeCols_length_le (omega : Fin n → ℝ) : (chargeCols omega).length ≤ n := by
  unfold chargeCols
  exact (List.length_filter_le _ _).trans (by simp)

/-- circuit.py:980-1008 `_round_to_zero_one`. -/
noncomputable def roundZeroOne (numJunWithoutInd : ℕ) (omega : Fin n → ℝ)
    (w : Matrix (Fin nJ) (Fin n) ℝ) : Matrix (Fin nJ) (Fin n) ℝ :=
  open Classical in
  Matrix.of fun i j =>
    if omega j = 0 then
      let x := if numJunWithoutInd = 0 then 0 else w i j
      let x := if |x| < accGS then 0 else x
      let x := if |x - 1| < accGS then 1 else x
      if |x + 1| < accGS then -1 else x
    else w i j

/-- circuit.py:1010-1035 `_is_gram_schmidt_successful`. -/
def gsSuccessful (numJunWithoutInd : ℕ) (t : Trans nJ n) (s : Matrix (Fin n) (Fin n) ℝ) : Prop :=
  ∀ j, t.omega j = 0 → ∀ i,
    ¬ (|roundZeroOne numJunWithoutInd t.omega (t.w * s) i j| ≠ 0 ∧
       |roundZeroOne numJunWithoutInd t.omega (t.w * s) i j| ≠ 1)

/-- Result of choosing S2: not yet returned, exception, or a matrix and the next draw number. -/
abbrev Attempt (n : ℕ) := Option (Except PyErr (Matrix (Fin n) (Fin n) ℝ × ℕ))

/-- circuit.py:1056-1105: the choice of S2 in one call (W non-empty). -/
noncomputable def t2Choose (sv : SvdFn) (argsort : ArgsortFn) (draws : Draws) (numJ : ℕ)
    (W : Matrix (Fin nJ) (Fin n) ℝ) (S1 : Matrix (Fin n) (Fin n) ℝ) (fuel tDraw : ℕ)
    (t : Trans nJ n) : Attempt n :=
  let wc := wCharge sv W S1 t.omega
  let nq := (chargeCols t.omega).length
  if nq ≠ 0 ∧ numJ ≠ 0 then
    match basisLoop argsort draws wc fuel ⟨[], [], [], tDraw⟩ with
    | none => none
    | some st =>
      let fRows := st.ind.map (fun i => wc i) ++ st.rnd
      match squareOf fRows with
      | .error e => some (.error e)
      | .ok F =>
        match npInv F with
        | .error e => some (.error e)
        | .ok Fi => some (.ok (blockS2 (chargeCols_length_le t.omega) Fi, st.t))
  else some (.ok (1, tDraw))

/-- circuit.py:1047-1121 `_get_and_apply_transformation_2`, with fuel for loop and recursion. -/
noncomputable def t2 (sv : SvdFn) (argsort : ArgsortFn) (draws : Draws) (numJ : ℕ)
    (W : Matrix (Fin nJ) (Fin n) ℝ) (S1 : Matrix (Fin n) (Fin n) ℝ) :
    ℕ → ℕ → Trans nJ n → Option (Except PyErr (Trans nJ n))
  | 0, _, _ => none
  | fuel + 1, tDraw, t =>
    open Classical in
    match t2Choose sv argsort draws numJ W S1 fuel tDraw t with
    | none => none
    | some (.error e) => some (.error e)
    | some (.ok (s, tDraw')) =>
      match npInv sᵀ with
      | .error e => some (.error e)
      | .ok r =>
        if gsSuccessful numJ t s then
          let t := applyT s r t
          some (.ok { t with w := roundZeroOne numJ t.omega t.w })
        else t2 sv argsort draws numJ W S1 fuel tDraw' t

/-! ### third transformation -/

/-- circuit.py:1455-1469 `_impedance`. -/
noncomputable def Trans.impedance (t : Trans nJ n) (j : Fin n) : ℝ := √(t.cInv j j / t.l j j)

/-- circuit.py:1585-1601 `_phi_zp`. -/
noncomputable def Trans.phiZp (t : Trans nJ n) (j : Fin n) : ℝ :=
  (2 * π / Phi0) * √(hbar / 2 * t.impedance j)

/-- `np.abs(self.alpha(range(nJ), j))` (circuit.py:1603-1619, 1146). -/
noncomputable def Trans.absAlpha (t : Trans nJ n) (j : Fin n) (i : Fin nJ) : ℝ :=
  |t.phiZp j * t.w i j|

/-- circuit.py:1147: couplings below the threshold are set to zero (harmonic modes only). -/
noncomputable def t3Elim (t : Trans nJ n) : Trans nJ n :=
  open Classical in
  { t with w := Matrix.of fun i j =>
      if t.omega j ≠ 0 ∧ t.absAlpha j i < accHar then 0 else t.w i j }

/-- `np.argmax`, defined on non-empty arrays -/
abbrev ArgmaxFn (k : ℕ) := k ≠ 0 → (Fin k → ℝ) → Fin k

/-- circuit.py:1132-1162: the number `s` by which harmonic mode `j` is divided; `wE` is the matrix
after elimination of small couplings. `argmax` is `np.argmax`. -/
noncomputable def t3Scale (argmax : ArgmaxFn nJ) (t : Trans nJ n)
    (wE : Matrix (Fin nJ) (Fin n) ℝ) (j : Fin n) : ℝ :=
  open Classical in
  if h : nJ ≠ 0 then
    if vmax (t.absAlpha j) > accHar then |wE (argmax h (t.absAlpha j)) j|
    else vmax (fun i => |t.S i j|)
  else vmax (fun i => |t.S i j|)

/-- circuit.py:1123-1168 `_get_and_apply_transformation_3`. -/
noncomputable def t3 (argmax : ArgmaxFn nJ) (t : Trans nJ n) : Trans nJ n :=
  open Classical in
  let te := t3Elim t
  let s := diagonal (fun j => if t.omega j = 0 then 1 else 1 / t3Scale argmax t te.w j)
  let r := (sᵀ)⁻¹
  applyT s r te

/-- circuit.py:1170-1186 `_transform_hamil`. -/
noncomputable def transformHamil (lib : NumLib n) (sv : SvdFn) (argsort : ArgsortFn)
    (argmax : ArgmaxFn nJ) (draws : Draws) (numJ : ℕ)
    (C L : Matrix (Fin n) (Fin n) ℝ) (W : Matrix (Fin nJ) (Fin n) ℝ) (fuel : ℕ)
    (t : Trans nJ n) : Option (Except PyErr (Trans nJ n)) :=
  let ta := setOmega (t1 lib C L t)
  let S1 := t1S (lib.sqrtm C) (lib.svdVh (lib.sqrtm L * (lib.sqrtm C)⁻¹))
    (t1Scale (lib.svdD (lib.sqrtm L * (lib.sqrtm C)⁻¹)) (lib.eigvals L)).1
  if nJ ≠ 0 then
    match t2 sv argsort draws numJ W S1 fuel 0 ta with
    | none => none
    | some (.error e) => some (.error e)
    | some (.ok tb) => some (.ok (t3 argmax tb))
  else some (.ok (t3 argmax ta))

/-! ### removal of uncoupled modes -/

/-- The mode data kept after removal (circuit.py:848-863): `keep` lists the retained indices (what
`np.delete` leaves), `S`, `R` and the capacitance matrix keep their full size. -/
structure Modes (nJ n : ℕ) where
  keep : List (Fin n)
  cInv : Matrix (Fin keep.length) (Fin keep.length) ℝ
  l : Matrix (Fin keep.length) (Fin keep.length) ℝ
  w : Matrix (Fin nJ) (Fin keep.length) ℝ
  omega : Fin keep.length → ℝ
  S : Matrix (Fin n) (Fin n) ℝ
  R : Matrix (Fin n) (Fin n) ℝ

/-- mode data for a given list of retained indices -/
def restrict (t : Trans nJ n) (keep : List (Fin n)) : Modes nJ n where
  keep := keep
  cInv := Matrix.of fun i j => t.cInv (keep.get i) (keep.get j)
  l := Matrix.of fun i j => t.l (keep.get i) (keep.get j)
  w := Matrix.of fun i j => t.w i (keep.get j)
  omega := fun i => t.omega (keep.get i)
  S := t.S
  R := t.R

/-- circuit.py:837-846 `_get_uncoupled_indices`: the columns of wTrans whose number of zero entries
equals the number of rows. -/
noncomputable def uncoupled (w : Matrix (Fin nJ) (Fin n) ℝ) : List (Fin n) :=
  open Classical in
  (List.finRange n).filter (fun j =>
    decide ((Finset.univ.filter (fun i => w i j = 0)).card = nJ))

/-- circuit.py:848-863 `_update_nmodes_remove_uncoupled_modes`. -/
noncomputable def removeUncoupled (t : Trans nJ n) : Modes nJ n :=
  restrict t ((List.finRange n).filter (fun j => !(uncoupled t.w).contains j))

/-- circuit.py:350-354: uncoupled modes are removed if there are junctions and the engine is
NumPy. -/
noncomputable def finishModes (torch : Bool) (t : Trans nJ n) : Modes nJ n :=
  if nJ ≠ 0 ∧ torch = false then removeUncoupled t else restrict t (List.finRange n)

end SQ
