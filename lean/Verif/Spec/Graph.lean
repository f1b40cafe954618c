import Verif.Model.Graph

/-!
# Circuit graphs: what C, L, W, loops and parameters are supposed to be

Only the *data types* of the model are used here (edges, element objects, dictionaries), none of
its functions.
-/

namespace SQ.Spec
open SQ

/-- an edge between two different existing nodes (0 is ground) -/
def ValidEdge (n : ℕ) (e : Edge) : Prop := e.1 ≠ e.2 ∧ e.1 ≤ n ∧ e.2 ≤ n

/-- all edges of the dictionary are valid -/
def ValidElements (n : ℕ) (els : Elements) : Prop := ∀ p ∈ els, ValidEdge n p.1

/-- signed incidence of edge `e` at node `k`: +1 at the first node, -1 at the second; for an edge
to ground, +1 at the other node. -/
def incidence (e : Edge) (k : ℕ) : ℤ :=
  if e.1 = 0 then (if k = e.2 then 1 else 0)
  else if e.2 = 0 then (if k = e.1 then 1 else 0)
  else if k = e.1 then 1 else if k = e.2 then -1 else 0

/-- node potential (or flux): component of `x`, 0 at ground -/
def pot {n : ℕ} (x : Fin n → ℝ) : ℕ → ℝ
  | 0 => 0
  | k + 1 => if h : k < n then x ⟨k, h⟩ else 0

/-- difference of node potentials across an edge -/
def branchDiff {n : ℕ} (x : Fin n → ℝ) (e : Edge) : ℝ := pot x e.1 - pot x e.2

/-- capacitance an element placed on an edge puts there: its own, or that of its attached
capacitor -/
def placedCap (O : Objs) (i : ElemId) : ℝ :=
  match (O.elem i).kind with
  | .cap => (O.elem i).value
  | _ => (O.elem (O.elem i).cap).value

/-- inverse inductance an element placed on an edge puts there -/
noncomputable def placedInvInd (O : Objs) (i : ElemId) : ℝ :=
  match (O.elem i).kind with
  | .ind => 1 / (O.elem i).value
  | _ => 0

/-- all placements (edge, element), in dictionary order -/
def placements (els : Elements) : List (Edge × ElemId) :=
  els.flatMap (fun p => p.2.map (fun i => (p.1, i)))

/-- the inductive placements (inductors and junctions), in dictionary order -/
def inductivePlacements (O : Objs) (els : Elements) : List (Edge × ElemId) :=
  (placements els).filter (fun q => decide ((O.elem q.2).kind ≠ .cap))

/-- edges carrying at least one junction, in dictionary order -/
def junctionEdges (O : Objs) (els : Elements) : List Edge :=
  (els.filter (fun p => p.2.any (fun i => decide ((O.elem i).kind = .jj)))).map Prod.fst

/-- each item once, in order of first occurrence -/
def firstUses {α : Type*} [DecidableEq α] : List α → List α
  | [] => []
  | x :: xs => x :: (firstUses xs).filter (fun y => decide (y ≠ x))

/-- every capacitor placed (directly or attached) has positive value -/
def PositiveCaps (O : Objs) (els : Elements) : Prop :=
  ∀ q ∈ placements els, 0 < placedCap O q.2

/-- every placed inductor has positive value -/
def PositiveInds (O : Objs) (els : Elements) : Prop :=
  ∀ q ∈ placements els, (O.elem q.2).kind = .ind → 0 < (O.elem q.2).value

/-- two nodes joined by an edge carrying at least one element -/
def Joined (els : Elements) (a b : ℕ) : Prop :=
  ∃ p ∈ els, p.2 ≠ [] ∧ ((p.1.1 = a ∧ p.1.2 = b) ∨ (p.1.1 = b ∧ p.1.2 = a))

/-- every node is connected to ground through edges carrying elements -/
def GroundConnected (n : ℕ) (els : Elements) : Prop :=
  ∀ k, k ≤ n → Relation.ReflTransGen (Joined els) k 0

/-- largest node number occurring in the dictionary -/
def largestNode (els : Elements) : ℕ :=
  (els.map (fun p => max p.1.1 p.1.2)).foldr max 0

/-- incidence vector of an edge over the nodes 1..n -/
def incVec (n : ℕ) (e : Edge) : List ℤ := (List.range n).map (fun k => incidence e (k + 1))

/-- matrix of an edge: outer product of its incidence vector with itself -/
def edgeMat (n : ℕ) (e : Edge) : Matrix (Fin n) (Fin n) ℝ :=
  Matrix.of fun a b => (incidence e (a + 1) : ℝ) * incidence e (b + 1)

/-- inductive placements numbered 0, 1, 2, … in dictionary order -/
def numbered (O : Objs) (els : Elements) : List ((Edge × ElemId) × ℕ) :=
  (inductivePlacements O els).zipIdx

/-- all uses of loops by inductive placements: (loop, branch number, edge), in order -/
def loopUses (O : Objs) (els : Elements) : List (LoopId × ℕ × Edge) :=
  (numbered O els).flatMap (fun q => (O.elem q.1.2).loops.map (fun l => (l, q.2, q.1.1)))

/-- uses of one loop: (branch number, edge) -/
def usesOf (O : Objs) (els : Elements) (l : LoopId) : List (ℕ × Edge) :=
  ((loopUses O els).filter (fun u => decide (u.1 = l))).map Prod.snd

/-- the components a placed element brings along, in order: for an inductive element its attached
capacitor, its loops and itself -/
def brings (O : Objs) (i : ElemId) : List Comp :=
  if (O.elem i).kind = .cap then [.elem i]
  else .elem (O.elem i).cap :: ((O.elem i).loops.map Comp.loop ++ [.elem i])

/-- a component takes part in optimisation -/
def Tracked (O : Objs) : Comp → Prop
  | .elem i => (O.elem i).reqGrad = true ∨ (O.elem i).isLeaf = false
  | .loop l => O.loopReqGrad l = true ∨ O.loopIsLeaf l = false

/-- number of times a placed element contributes its edge's capacitance through object `i` -/
def carries (O : Objs) (i j : ElemId) : Bool :=
  if (O.elem j).kind = .cap then decide (j = i) else decide ((O.elem j).cap = i)

/-- attached capacitors are capacitors -/
def WellTyped (O : Objs) : Prop := ∀ i, (O.elem i).kind ≠ .cap → (O.elem (O.elem i).cap).kind = .cap

/-- the same objects with the value of element `i` replaced -/
def setVal (O : Objs) (i : ElemId) (v : ℝ) : Objs :=
  { O with elem := Function.update O.elem i { O.elem i with value := v } }

end SQ.Spec
