import Verif.Model.PhaseGrid

/-! # Specification of the layout of sampled wave functions -/

namespace SQ.Spec
open SQ

/-- `x` picks one point on each axis of the grid -/
def GridPoint (grid : List (List ℝ)) (x : List ℕ) : Prop := List.Forall₂ (fun i g => i < g.length) x grid

/-- the entries of `l` belonging to axes with more or fewer than one point -/
def longAxes {α : Type*} (grid : List (List ℝ)) (l : List α) : List α :=
  ((l.zip grid).filter fun p => decide (p.2.length ≠ 1)).map Prod.fst

/-- `idx` is a valid multi-index of an array of shape `shape` -/
def ValidIndex (shape idx : List ℕ) : Prop := List.Forall₂ (fun i s => i < s) idx shape

/-- the list with its first two entries exchanged (unchanged if there are fewer) -/
def exchanged {α : Type*} (l : List α) : List α :=
  match l with
  | a :: b :: r => b :: a :: r
  | l => l

end SQ.Spec
