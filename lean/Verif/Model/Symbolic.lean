import Verif.Model.CircuitPhys
import Verif.Model.Elements

/-!
# symbolic.py and the parameters of `description()`

`description` prints a symbolic Hamiltonian built from the element keys and a dictionary
`descrip_vars`, and lists the values of its symbols.

Simplifications: the rounding of the listed values (2, 3, 5 or 6 digits) is not modelled, neither is
`sm.nsimplify`; sympy's reordering of sums and of commuting factors does not change the value of an
expression; linear forms in the phase operators and in the external phases are kept as their
coefficient vectors.  Without loops the code uses one column of zeros for B; here there is no column,
the forms in external phases being zero either way.
-/

namespace SQ
open Matrix Real

variable {nJ k : ℕ}

/-- The dictionary `descrip_vars` (circuit.py:1188-1255), as far as the Hamiltonian and the lists of
values read it. -/
structure Descrip (n nJ k b nl : ℕ) where
  harDim : ℕ
  W : Matrix (Fin nJ) (Fin k) ℝ
  S : Matrix (Fin n) (Fin n) ℝ
  B : Matrix (Fin b) (Fin nl) ℝ
  omega : Fin k → ℝ
  phiZp : Fin k → ℝ
  EJ : List (Except PyErr ℝ)
  EL : List (Except PyErr ℝ)
  EC : Matrix (Fin k) (Fin k) ℝ
  loops : Fin nl → ℝ
  ng : Fin k → ℝ

/-- circuit.py:1188-1255 `_compute_descrip_vars`; `uf` is `unt.get_unit_freq()`, `vals` the stored
element values, `flux` the stored loop values (2π times the flux in flux quanta). -/
noncomputable def Build.descrip (b : Build) (uf : ℝ) (vals : ElemId → ℝ) (flux : LoopId → ℝ)
    (ng : Fin b.M.keep.length → ℝ) : Descrip b.n b.nJ b.M.keep.length b.nB b.loops.length where
  harDim := open Classical in (Finset.univ.filter (fun i => b.M.omega i ≠ 0)).card
  W := b.M.w
  S := b.M.S
  B := b.B
  omega := fun i => b.M.omega i / (2 * π * uf)
  phiZp := fun i => b.M.data.phiZp i
  EJ := b.juns.map (fun key => match jjGetValue "Hz" ⟨vals key.el, 0⟩ with
    | .error e => .error e
    | .ok x => .ok (x / (2 * π * uf)))
  EL := b.inds.map (fun key => match indGetValue "Hz" ⟨vals key.el, 0⟩ with
    | .error e => .error e
    | .ok x => .ok (x / uf))
  EC := (((2 * eCharge) ^ 2 / (hbar * 2 * π * uf)) • quadCInv b.M.cInv)
  loops := fun l => flux (b.loops.get l) / 2 / π
  ng := ng

/-- Symbolic expressions over `k` modes and `nl` loops (symbolic.py:45-93 for the symbols). -/
inductive SymExpr (k nl : ℕ)
  | omega (i : Fin k)
  | a (i : Fin k)
  | ad (i : Fin k)
  | n (i : Fin k)
  | ng (i : Fin k)
  | EC (i j : Fin k)
  | EL (i : ℕ)
  | EJ (i : ℕ)
  /-- Σ w_i φ_i -/
  | phis (w : Fin k → ℝ)
  /-- Σ β_l φ_ext,l -/
  | exts (β : Fin nl → ℝ)
  | cos (e : SymExpr k nl)
  | add (x y : SymExpr k nl)
  | sub (x y : SymExpr k nl)
  | mul (x y : SymExpr k nl)
  | neg (x : SymExpr k nl)

variable {n b nl : ℕ}

/-- symbolic.py:99-105 `har_mode_hamil` (`range(har_dim)`). -/
def harModeTerms (c : Descrip n nJ k b nl) : List (SymExpr k nl) :=
  ((List.finRange k).filter (fun i => i.val < c.harDim)).map
    (fun i => .mul (.mul (.omega i) (.ad i)) (.a i))

/-- symbolic.py:108-117 `charge_mode_hamil`: over `i in range(har_dim, n_modes)`,
`j in range(i, n_modes)`. -/
def chargeModeTerms (c : Descrip n nJ k b nl) : List (SymExpr k nl) :=
  ((List.finRange k).filter (fun i => c.harDim ≤ i.val)).flatMap (fun i =>
    ((List.finRange k).filter (fun j => i ≤ j)).map (fun j =>
      .mul (.mul (.EC i j) (.sub (.n i) (.ng i))) (.sub (.n i) (.ng j))))

/-- entry of an array; in-range for the edges of element keys -/
def entryAt (S : Matrix (Fin n) (Fin n) ℝ) (r c : ℕ) : ℝ :=
  if h : r < n ∧ c < n then S ⟨r, h.1⟩ ⟨c, h.2⟩ else 0

/-- symbolic.py:128-132: the row `w` of an inductor, cut to the harmonic modes. -/
def symW (c : Descrip n nJ k b nl) (edge : Edge) : Fin k → ℝ := fun i =>
  if i.val < c.harDim then
    if edge.1 = 0 ∨ edge.2 = 0 then entryAt c.S (edge.1 + edge.2 - 1) i
    else entryAt c.S (edge.1 - 1) i - entryAt c.S (edge.2 - 1) i
  else 0

/-- symbolic.py:120-145 `inductive_hamil`. -/
noncomputable def inductiveTerms (c : Descrip n nJ k b nl) (inds : List (IndKey b)) : List (SymExpr k nl) :=
  open Classical in
  inds.zipIdx.filterMap (fun q =>
    if ∑ l, |c.B q.1.bId l| = 0 then none
    else some (.mul (.mul (.EL q.2) (.phis (symW c q.1.edge))) (.exts (c.B q.1.bId))))

/-- symbolic.py:148-164 `jj_hamil`. -/
def jjTerms (c : Descrip n nJ k b nl) (juns : List (JunKey b nJ)) : List (SymExpr k nl) :=
  juns.zipIdx.map (fun q =>
    .mul (.neg (.EJ q.2)) (.cos (.add (.phis (c.W q.1.wId)) (.exts (c.B q.1.bId)))))

/-- symbolic.py:167-179 `construct_hamiltonian`: the list of summands (lists whose sum is the zero
expression are left out, which does not change the sum). -/
noncomputable def constructHamiltonian (c : Descrip n nJ k b nl) (inds : List (IndKey b))
    (juns : List (JunKey b nJ)) : List (SymExpr k nl) :=
  harModeTerms c ++ chargeModeTerms c ++ inductiveTerms c inds ++ jjTerms c juns

end SQ
