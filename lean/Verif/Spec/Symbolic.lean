import Verif.Model.Symbolic

/-!
# Meaning of the symbolic Hamiltonian

Symbols take the values listed by `description()`. Energies E_C, E_L, E_J are listed as frequencies in
the unit `uf` and are read as angular frequencies 2π·uf·E; ω is listed as ω/2π. Loop phases are 2π
times the listed fluxes. `a`, `a†`, `n` are the truncated annihilation, creation and charge operators
of the mode, φ = φ_zp (a + a†) for harmonic modes, and e^{iwφ} is the shift by w of the charge basis
for charge modes.
-/

namespace SQ.Spec
open Matrix Real

variable {n nJ k b nl : ℕ}

/-- operator of one mode, identity on the others -/
def onMode (m : Fin k → ℕ) (i : Fin k) (A : Matrix (Fin (m i)) (Fin (m i)) ℂ) : Op m :=
  tens (Function.update (fun _ => 1) i A)

/-- e^{iwφ} of one mode -/
noncomputable def modePhase (c : Descrip n nJ k b nl) (m : Fin k → ℕ) (w : Fin k → ℝ) (i : Fin k) :
    Matrix (Fin (m i)) (Fin (m i)) ℂ :=
  open Classical in
  if i.val < c.harDim then
    NormedSpace.exp ((Complex.I * (w i * c.phiZp i : ℝ)) • (qDestroy (m i) + qCreate (m i)))
  else Matrix.of fun x y => if ((x : ℕ) : ℝ) = (y : ℕ) + w i then 1 else 0

/-- value of the external phases Σ β_l φ_ext,l -/
noncomputable def extPhase (c : Descrip n nJ k b nl) (β : Fin nl → ℝ) : ℝ := ∑ l, β l * (2 * π * c.loops l)

/-- a listed value (none if computing it fails) -/
noncomputable def listed (l : List (Except PyErr ℝ)) (i : ℕ) : ℝ :=
  match l[i]? with
  | some (.ok x) => x
  | _ => 0

/-- Value of an expression. A sum of phases of charge modes alone has no value as an operator on the
truncated space (0 here); such sums only occur inside cosines. -/
noncomputable def evalSym (c : Descrip n nJ k b nl) (uf : ℝ) (m : Fin k → ℕ) : SymExpr k nl → Op m
  | .omega i => ((2 * π * uf * c.omega i : ℝ) : ℂ) • 1
  | .a i => onMode m i (qDestroy (m i))
  | .ad i => onMode m i (qCreate (m i))
  | .n i => onMode m i (qCharge (m i))
  | .ng i => ((c.ng i : ℝ) : ℂ) • 1
  | .EC i j => ((2 * π * uf * c.EC i j : ℝ) : ℂ) • 1
  | .EL i => ((2 * π * uf * listed c.EL i : ℝ) : ℂ) • 1
  | .EJ i => ((2 * π * uf * listed c.EJ i : ℝ) : ℂ) • 1
  | .phis w => ∑ i, if i.val < c.harDim then
      ((w i * c.phiZp i : ℝ) : ℂ) • onMode m i (qDestroy (m i) + qCreate (m i)) else 0
  | .exts β => ((extPhase c β : ℝ) : ℂ) • 1
  | .cos (.add (.phis w) (.exts β)) =>
      let E := Complex.exp (Complex.I * (extPhase c β : ℝ)) • tens (modePhase c m w)
      (1 / 2 : ℂ) • (E + Eᴴ)
  | .cos _ => 0
  | .add x y => evalSym c uf m x + evalSym c uf m y
  | .sub x y => evalSym c uf m x - evalSym c uf m y
  | .mul x y => evalSym c uf m x * evalSym c uf m y
  | .neg x => - evalSym c uf m x

/-- value of a sum of terms -/
noncomputable def evalSum (c : Descrip n nJ k b nl) (uf : ℝ) (m : Fin k → ℕ) (l : List (SymExpr k nl)) : Op m :=
  (l.map (evalSym c uf m)).sum

end SQ.Spec
