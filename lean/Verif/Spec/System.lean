import Verif.Model.System

/-! # Specification of coupled systems -/

namespace SQ.Spec
open Matrix

/-- the circuits in the order in which the couplings mention them -/
def mentions (cps : List Couple) : List CircId := cps.flatMap (fun cp => [cp.cr1, cp.cr2])

/-- node potentials of the circuits (nodes are numbered from 1) as one vector, circuit after circuit -/
def stack (sub : CircId → SubCirc) (v : CircId → ℕ → ℝ) : List CircId → ℕ → ℝ
  | [], _ => 0
  | c :: cs, p => if p < (sub c).nodes then v c (p + 1) else stack sub v cs (p - (sub c).nodes)

/-- uᵀ M u -/
def form (N : ℕ) (M : ℕ → ℕ → ℝ) (u : ℕ → ℝ) : ℝ :=
  ∑ p ∈ Finset.range N, ∑ q ∈ Finset.range N, u p * M p q * u q

/-- capacitive energy (twice) of one circuit -/
def selfForm (sub : CircId → SubCirc) (v : CircId → ℕ → ℝ) (c : CircId) : ℝ :=
  form (sub c).nodes (sub c).C (fun p => v c (p + 1))

/-- capacitive energy (twice) of one coupling -/
def coupleForm (v : CircId → ℕ → ℝ) (cp : Couple) : ℝ :=
  match cp.cap with
  | none => 0
  | some c => c * (v cp.cr1 cp.attr1.toNat - v cp.cr2 cp.attr2.toNat) ^ 2

/-- both ends of the coupling are nodes of their circuits -/
def ValidCouple (sub : CircId → SubCirc) (cp : Couple) : Prop :=
  (1 ≤ cp.attr1 ∧ cp.attr1 ≤ (sub cp.cr1).nodes) ∧ (1 ≤ cp.attr2 ∧ cp.attr2 ≤ (sub cp.cr2).nodes)

/-- an operator of subsystem `s`, acting as the identity on all others -/
def Embeds {k : ℕ} {d : Fin k → ℕ} (s : Fin k) (A : Matrix (Fin (d s)) (Fin (d s)) ℂ) (X : Op d) : Prop :=
  ∀ x y : Idx d, X x y = if ∀ i, i ≠ s → x i = y i then A (x s) (y s) else 0

/-- the modes of all circuits: circuit number and mode number, from 0 -/
abbrev ModeIx (sub : CircId → SubCirc) (cs : List CircId) := Σ s : Fin cs.length, Fin (sub (cs.get s)).n

/-- number of a mode when the modes of all circuits are counted one circuit after the other -/
def modeIdx (sub : CircId → SubCirc) (cs : List CircId) (x : ModeIx sub cs) : ℕ :=
  ((cs.take x.1).map (fun c => (sub c).n)).sum + x.2

/-- charge operator of a mode in the tensor product space -/
def modeCharge (sub : CircId → SubCirc) (cs : List CircId) (x : ModeIx sub cs) : Op (sysDims sub cs) :=
  opInSys x.1 (show Matrix (Fin (sysDims sub cs x.1)) (Fin (sysDims sub cs x.1)) ℂ from (sub (cs.get x.1)).Q x.2)

/-- row-major index of digits in a mixed-radix system, most significant first -/
def kronIndex (digits : List (ℕ × ℕ)) : ℕ := digits.foldl (fun acc xd => acc * xd.2 + xd.1) 0

end SQ.Spec
