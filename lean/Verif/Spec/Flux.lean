import Verif.Model.Flux
import Mathlib.LinearAlgebra.Matrix.Rank

/-!
# Specification vocabulary for loops and the external flux distribution
-/

namespace SQ.Spec
open SQ

/-- What is assumed of `numpy.linalg.svd`: it returns min(b, m) singular values in descending
order, non-negative, and the number of those above the tolerance 1e-5 is the rank. -/
structure SvdSpec (sv : SvdFn) : Prop where
  length : ∀ b m M, (sv b m M).length = min b m
  sorted : ∀ b m M, (sv b m M).Pairwise (· ≥ ·)
  nonneg : ∀ b m M, ∀ x ∈ sv b m M, 0 ≤ x
  rank : ∀ b m M, ((sv b m M).filter (fun x => decide (|x| > (1e-5 : ℝ)))).length = M.rank

/-- entry of the incidence vector `w` at node `j` -/
def nodeEntry (w : List ℤ) (j : ℕ) : ℝ := ((w.getD j 0 : ℤ) : ℝ)

/-- the loops' bookkeeping agrees with the circuit's list of branch incidence vectors -/
def LoopsConsistent (ws : List (List ℤ)) (loops : List LoopObj) : Prop :=
  ∀ l ∈ loops, l.indices.Nodup ∧ l.indices.length = l.kMat.length ∧
    ∀ p (hp : p < l.indices.length), ws[l.indices[p]]? = l.kMat[p]?

/-- `g` is the loop vector of a loop with branch indices `indices`: weight 1 on the first branch,
nothing outside the loop, and closing at every node. -/
structure IsLoopVector (n : ℕ) (ws : List (List ℤ)) (indices : List ℕ)
    (g : Fin ws.length → ℝ) : Prop where
  first : ∀ b : Fin ws.length, indices.head? = some (b : ℕ) → g b = 1
  support : ∀ b : Fin ws.length, (b : ℕ) ∉ indices → g b = 0
  closes : ∀ j, j < n → ∑ b, g b * nodeEntry (ws.get b) j = 0

/-- capacitance attributed to an inductive element when external flux is distributed: its attached
capacitor ('all'), or vanishing on junctions and huge on inductors ('junctions'), or the other way
round ('inductors') -/
noncomputable def fluxCap (O : Objs) (fd : FluxDist) (i : ElemId) : ℝ :=
  match fd, (O.elem i).kind with
  | .all, _ => (O.elem (O.elem i).cap).value
  | .junctions, .jj => 1e-20
  | .junctions, _ => 1e20
  | .inductors, .jj => 1e20
  | .inductors, _ => 1e-20

/-- no element lists a loop twice -/
def LoopsListedOnce (O : Objs) : Prop := ∀ i, (O.elem i).loops.Nodup

end SQ.Spec
