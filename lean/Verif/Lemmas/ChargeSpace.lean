import Verif.Lemmas.Unimodular
import Verif.Lemmas.Traverse
import Verif.Lemmas.Transform2

/-!
# The charge subspace of a circuit graph

Node potentials annihilated by the susceptance matrix are constant on the clusters joined by
inductors and vanish on the cluster of ground.
-/

namespace SQ
open Matrix Spec

variable {n q : ℕ}

/-- row of `Sq` at a node, zero at ground -/
def nodeRow (Sq : Matrix (Fin n) (Fin q) ℝ) : ℕ → Fin q → ℝ
  | 0 => 0
  | k + 1 => if h : k < n then Sq ⟨k, h⟩ else 0

theorem pot_mulVec (Sq : Matrix (Fin n) (Fin q) ℝ) (y : Fin q → ℝ) (a : ℕ) :
    pot (Sq *ᵥ y) a = nodeRow Sq a ⬝ᵥ y := by
  cases a with
  | zero => simp [pot, nodeRow]
  | succ k =>
    by_cases h : k < n
    · simp [pot, nodeRow, h, mulVec]
    · simp [pot, nodeRow, h]

/-- The charge subspace in an integral basis: if the columns of `Sq` are a basis of the potentials
that agree across all edges in `E`, then every row of `Sq` is zero or one of the rows of an invertible
matrix. -/
theorem charge_basis (E : Set Edge) (Sq : Matrix (Fin n) (Fin q) ℝ)
    (hinj : ∀ y, Sq *ᵥ y = 0 → y = 0)
    (hspan : ∀ x : Fin n → ℝ, (∀ e ∈ E, pot x e.1 = pot x e.2) ↔ ∃ y, x = Sq *ᵥ y) :
    ∃ (B : Matrix (Fin q) (Fin q) ℝ) (comp : ℕ → Option (Fin q)), IsUnit B.det ∧
      ∀ a, nodeRow Sq a = match comp a with | none => 0 | some c => B c := by
  classical
  -- choose q independent rows
  have hrank : Sq.rank = q := by
    have h1 : LinearIndependent ℝ Sq.col := by
      rw [Fintype.linearIndependent_iff]
      intro g hg i
      have : Sq *ᵥ g = 0 := by
        rw [← hg]; funext j; simp [mulVec, dotProduct, mul_comm]
      rw [hinj g this]; rfl
    have h2 : LinearIndependent ℝ (Sqᵀ).row := h1
    have h3 := h2.rank_matrix
    rw [rank_transpose] at h3
    simpa using h3
  obtain ⟨κ, a, ha, hsp, hlia⟩ := exists_linearIndependent' ℝ Sq.row
  have hfin : Finite κ := Finite.of_injective a ha
  have : Fintype κ := Fintype.ofFinite κ
  have hcard : Fintype.card κ = q := by
    have h1 := linearIndependent_iff_card_eq_finrank_span.1 hlia
    rw [h1, Set.finrank, hsp, ← Sq.rank_eq_finrank_span_row, hrank]
  let e : Fin q ≃ κ := (Fintype.equivFinOfCardEq hcard).symm
  let f : Fin q → Fin n := a ∘ e
  let B : Matrix (Fin q) (Fin q) ℝ := Sq.submatrix f id
  have hB : IsUnit B.det := by
    have h2 : LinearIndependent ℝ B.row := by
      have : B.row = (Sq.row ∘ a) ∘ e := rfl
      rw [this]; exact hlia.comp e e.injective
    exact (isUnit_iff_isUnit_det _).1 ((linearIndependent_rows_iff_isUnit (A := B)).1 h2)
  -- every node row is zero or one of the chosen rows
  have key : ∀ b, ∃ c : Option (Fin q), nodeRow Sq b = match c with | none => 0 | some c => B c := by
    intro b
    by_cases hz : nodeRow Sq b = 0
    · exact ⟨none, hz⟩
    · by_contra hno
      have hno' : ∀ c : Fin q, nodeRow Sq b ≠ B c := fun c hc => hno ⟨some c, hc⟩
      -- indicator of the nodes with the same row as `b`
      let χ : Fin n → ℝ := fun i => if Sq i = nodeRow Sq b then 1 else 0
      have hpot : ∀ k, pot χ k = if nodeRow Sq k = nodeRow Sq b then 1 else 0 := by
        intro k
        cases k with
        | zero =>
          have : ¬ nodeRow Sq 0 = nodeRow Sq b := fun h => hz h.symm
          rw [if_neg this]; rfl
        | succ k =>
          by_cases h : k < n
          · have e1 : pot χ (k + 1) = χ ⟨k, h⟩ := dif_pos h
            have e2 : nodeRow Sq (k + 1) = Sq ⟨k, h⟩ := dif_pos h
            rw [e1, e2]
          · have h1 : nodeRow Sq (k + 1) = 0 := by simp [nodeRow, h]
            have : ¬ nodeRow Sq (k + 1) = nodeRow Sq b := fun h => hz (by rw [← h, h1])
            rw [if_neg this]; simp [pot, h]
      have hmem : ∀ d ∈ E, pot χ d.1 = pot χ d.2 := by
        intro d hd
        rw [hpot, hpot]
        have hrow : nodeRow Sq d.1 = nodeRow Sq d.2 := by
          funext j
          have h1 := (hspan (Sq *ᵥ Pi.single j 1)).2 ⟨_, rfl⟩ d hd
          rw [pot_mulVec, pot_mulVec] at h1
          simpa using h1
        rw [hrow]
      obtain ⟨y, hy⟩ := (hspan χ).1 hmem
      have hBy : B *ᵥ y = 0 := by
        funext c
        have h1 : χ (f c) = (Sq *ᵥ y) (f c) := by rw [hy]
        have h2 : χ (f c) = 0 := if_neg (fun h => hno' c h.symm)
        rw [h2] at h1
        exact h1.symm
      have hy0 : y = 0 := by
        by_contra hne
        have := exists_mulVec_eq_zero_iff.1 ⟨y, hne, hBy⟩
        exact hB.ne_zero this
      have hb : pot χ b = 1 := by rw [hpot, if_pos rfl]
      rw [hy, hy0, mulVec_zero] at hb
      cases b with
      | zero => exact hz rfl
      | succ k =>
        simp [pot] at hb
  choose comp hcomp using key
  exact ⟨B, comp, hB, hcomp⟩

/-- branch row of an edge in the integral basis -/
theorem inc_of_comp {B : Matrix (Fin q) (Fin q) ℝ} {comp : ℕ → Option (Fin q)}
    {Sq : Matrix (Fin n) (Fin q) ℝ}
    (h : ∀ a, nodeRow Sq a = match comp a with | none => 0 | some c => B c) (a b : ℕ) :
    ∃ N : Fin q → ℝ, IncRow N ∧ nodeRow Sq a - nodeRow Sq b = N ᵥ* B := by
  classical
  have e1 : ∀ a, nodeRow Sq a = (fun c => if comp a = some c then (1 : ℝ) else 0) ᵥ* B := by
    intro a
    rw [h a]
    cases comp a with
    | none => funext j; simp [vecMul, dotProduct]
    | some c =>
      funext j
      simp [vecMul, dotProduct]
  refine ⟨fun c => (if comp a = some c then 1 else 0) - (if comp b = some c then 1 else 0),
    ⟨comp a, comp b, fun c => rfl⟩, ?_⟩
  rw [e1 a, e1 b, ← sub_vecMul]
  rfl

theorem incRow_neg {v : Fin q → ℝ} (h : IncRow v) : IncRow (-v) := by
  obtain ⟨a, b, hv⟩ := h
  exact ⟨b, a, fun c => by rw [Pi.neg_apply, hv]; ring⟩

end SQ
