import Verif.Model.Listing

/-!
# C118: reading what `description()` prints
-/

namespace SQ.Spec
open SQ Real

/-- symbols occurring in an expression -/
def _root_.SQ.SymExpr.syms {k nl : ℕ} : SymExpr k nl → Set Sym
  | .omega i => {.omega i}
  | .a i => {.a i}
  | .ad i => {.ad i}
  | .n i => {.n i}
  | .ng i => {.ng i}
  | .EC i j => {.EC i j}
  | .EL i => {.EL i}
  | .EJ i => {.EJ i}
  | .phis w => {s | ∃ i : Fin k, w i ≠ 0 ∧ s = .phi i}
  | .exts β => {s | ∃ l : Fin nl, β l ≠ 0 ∧ s = .ext l}
  | .cos e => e.syms
  | .add x y => x.syms ∪ y.syms
  | .sub x y => x.syms ∪ y.syms
  | .mul x y => x.syms ∪ y.syms
  | .neg x => x.syms

/-- the symbol an equation is about -/
def _root_.SQ.Eqn.sym : Eqn → Sym
  | .value s _ => s
  | .over2pi s _ => s
  | .phase i => .phi i

/-- all printed equations -/
def _root_.SQ.Printed.eqns {k nl : ℕ} (p : Printed k nl) : List Eqn :=
  p.modes.flatMap Prod.snd ++ p.params ++ p.loops

/-- a symbol for a number -/
def _root_.SQ.Sym.isNumber : Sym → Bool
  | .omega _ | .ng _ | .EC _ _ | .EL _ | .EJ _ | .ext _ | .zp _ => true
  | _ => false

/-- The printed numbers are those of the circuit, up to the digits shown: `b` its matrices and keys, `uf` the unit of
frequency in Hz, `vals` the values of its elements (F, H, 2π Hz), `flux` those of its loops (2π times flux quanta),
`offset` the charge offsets of its modes. -/
structure Faithful (b : Build) (uf : ℝ) (vals : ElemId → ℝ) (flux : LoopId → ℝ) (offset : ℕ → Option ℝ)
    (eqns : List Eqn) : Prop where
  /-- frequencies of harmonic modes, rounded to 5 decimals and then to 6 significant digits -/
  omega : ∀ i x, .over2pi (.omega i) x ∈ eqns → ∃ (h : i < b.M.keep.length) (y : ℝ),
    |y - b.M.omega ⟨i, h⟩ / (2 * π * uf)| ≤ 0.000005 ∧ |x - y| ≤ 0.000005 * |y|
  /-- zero-point fluctuations, to 3 significant digits -/
  zp : ∀ i x, .value (.zp i) x ∈ eqns → ∃ h : i < b.M.keep.length,
    |x - b.M.data.phiZp ⟨i, h⟩| ≤ 0.005 * |b.M.data.phiZp ⟨i, h⟩|
  ng : ∀ i x, .value (.ng i) x ∈ eqns → ∃ q, offset i = some q ∧ |x - q| ≤ 0.0005
  /-- charging energies over h -/
  EC : ∀ i j x, .value (.EC i j) x ∈ eqns → ∃ (hi : i < b.M.keep.length) (hj : j < b.M.keep.length),
    |x - (2 * eCharge) ^ 2 / (2 * π * hbar) / uf *
      (if i = j then b.M.cInv ⟨i, hi⟩ ⟨j, hj⟩ / 2 else b.M.cInv ⟨i, hi⟩ ⟨j, hj⟩)| ≤ 0.0005
  /-- inductive energies (Φ₀/2π)²/L over h -/
  EL : ∀ i x, .value (.EL i) x ∈ eqns → ∃ key, b.inds[i]? = some key ∧
    |x - (Phi0 / (2 * π)) ^ 2 / vals key.el / (2 * π * hbar) / uf| ≤ 0.0005
  EJ : ∀ i x, .value (.EJ i) x ∈ eqns → ∃ key, b.juns[i]? = some key ∧ |x - vals key.el / (2 * π) / uf| ≤ 0.0005
  ext : ∀ l x, .over2pi (.ext l) x ∈ eqns → ∃ id, b.loops[l]? = some id ∧ |x - flux id / (2 * π)| ≤ 0.005

/-- `x` is `y` written with `d` decimals -/
def Decimals (d : ℕ) (x y : ℝ) : Prop := (∃ z : ℤ, x = z / 10 ^ d) ∧ |x - y| ≤ 1 / 2 / 10 ^ d

/-- the row of an edge in the coordinates of the modes, from two rows of matrix entries written with three decimals -/
def EdgeRow {n : ℕ} (S : Matrix (Fin n) (Fin n) ℝ) (e : Edge) (i : Fin n) (x : ℝ) : Prop :=
  if e.1 = 0 ∨ e.2 = 0 then ∃ r : Fin n, r.val + 1 = e.1 + e.2 ∧ Decimals 3 x (S r i)
  else ∃ r s : Fin n, ∃ y z : ℝ, r.val + 1 = e.1 ∧ s.val + 1 = e.2 ∧ Decimals 3 y (S r i) ∧ Decimals 3 z (S s i) ∧ x = y - z

end SQ.Spec
