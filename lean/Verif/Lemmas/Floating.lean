import Verif.Spec.Floating
import Verif.Props.Relabel

/-!
# Capacitance matrices as Kirchhoff's law, and their reduction
-/

namespace SQ
open Matrix Spec

/-- +1 at the first node of an edge, -1 at the second -/
def ends (e : Edge) (k : ℕ) : ℝ := (if k = e.1 then 1 else 0) - (if k = e.2 then 1 else 0)

theorem edgeMat_act {n : ℕ} {e : Edge} (h : ValidEdge n e) (x : Fin n → ℝ) (k : Fin n) :
    (edgeMat n e *ᵥ x) k = branchDiff x e * ends e (k + 1) := by
  have h1 : (edgeMat n e *ᵥ x) k = (incidence e (k + 1) : ℝ) * ∑ b : Fin n, (incidence e (b + 1) : ℝ) * x b := by
    simp only [mulVec, dotProduct, edgeMat, of_apply, Finset.mul_sum, mul_assoc]
  rw [h1, sum_incidence h]
  obtain ⟨a, b⟩ := e
  obtain ⟨hne, -, -⟩ := h
  simp only [incidence, ends] at hne ⊢
  by_cases ha : a = 0
  · subst ha
    have hk : ¬ (k : ℕ) + 1 = 0 := by omega
    simp only [if_true, hk, if_false]
    split <;> push_cast <;> ring
  · by_cases hb : b = 0
    · subst hb
      have hk : ¬ (k : ℕ) + 1 = 0 := by omega
      simp only [if_true, hk, if_false, ha]
      split <;> push_cast <;> ring
    · simp only [ha, hb, if_false]
      by_cases h2 : (k : ℕ) + 1 = a
      · have h3 : ¬ (k : ℕ) + 1 = b := by omega
        simp only [h2, if_true]
        rw [if_neg (by omega)]
        push_cast; ring
      · simp only [h2, if_false]
        split <;> push_cast <;> ring

theorem caps_act_list {n : ℕ} (f : Edge × ElemId → ℝ) (l : List (Edge × ElemId)) (hv : ∀ q ∈ l, ValidEdge n q.1)
    (x : Fin n → ℝ) (k : Fin n) :
    ((l.map (fun q => f q • edgeMat n q.1)).sum *ᵥ x) k = (l.map (fun q => f q * (branchDiff x q.1 * ends q.1 (k + 1)))).sum := by
  induction l with
  | nil => simp
  | cons q l ih =>
    simp only [List.map_cons, List.sum_cons, add_mulVec, Pi.add_apply]
    rw [ih fun q hq => hv q (by simp [hq]), smul_mulVec, Pi.smul_apply, edgeMat_act (hv q (by simp)), smul_eq_mul]

theorem placed_valid {n : ℕ} {els : Elements} (hv : ValidElements n els) {q : Edge × ElemId} (hq : q ∈ placements els) :
    ValidEdge n q.1 := by
  unfold placements at hq
  obtain ⟨p, hp, hq⟩ := List.mem_flatMap.1 hq
  obtain ⟨i, -, rfl⟩ := List.mem_map.1 hq
  exact hv p hp

/-- the charges on the nodes for given voltages -/
theorem caps_act {n : ℕ} {O : Objs} {els : Elements} (hv : ValidElements n els) {l : List (Edge × ElemId)}
    (hp : (placements els).Perm l) (x : Fin n → ℝ) (k : Fin n) :
    (capacitances O els n *ᵥ x) k = (l.map (fun q => placedCap O q.2 * (branchDiff x q.1 * ends q.1 (k + 1)))).sum := by
  unfold capacitances
  rw [(hp.map _).sum_eq]
  exact caps_act_list (fun q => placedCap O q.2) l (fun q hq => placed_valid hv (hp.mem_iff.2 hq)) x k

theorem pot_snoc {n : ℕ} (z : Fin n → ℝ) (y : ℝ) {j : ℕ} (h : j ≤ n) : pot (Fin.snoc z y : Fin (n + 1) → ℝ) j = pot z j := by
  cases j with
  | zero => rfl
  | succ j =>
    have h1 : j < n := h
    simp only [pot]
    rw [dif_pos h1, dif_pos (by omega)]
    have : (⟨j, by omega⟩ : Fin (n + 1)) = Fin.castSucc ⟨j, h1⟩ := rfl
    rw [this]
    exact Fin.snoc_castSucc (α := fun _ => ℝ) y z _

theorem pot_snoc_last {n : ℕ} (z : Fin n → ℝ) (y : ℝ) : pot (Fin.snoc z y : Fin (n + 1) → ℝ) (n + 1) = y := by
  simp only [pot]
  rw [dif_pos (Nat.lt_succ_self n)]
  exact Fin.snoc_last (α := fun _ => ℝ) y z

variable {O : Objs} {n : ℕ} {els els' : Elements} {i0 i1 i2 : ElemId}

/-- The voltage of the node between the capacitors can be chosen such that the node carries no charge, and the charges of the
other nodes are those of the circuit with one capacitor. -/
theorem split_act (hs : SplitCapacitor O n els els' i0 i1 i2) (hv : ValidElements n els) (hv' : ValidElements (n + 1) els')
    (h1 : 0 < placedCap O i1) (h2 : 0 < placedCap O i2) (h0 : placedCap O i0 = seriesCap (placedCap O i1) (placedCap O i2))
    (z : Fin n → ℝ) : ∃ y, capacitances O els' (n + 1) *ᵥ (Fin.snoc z y : Fin (n + 1) → ℝ) =
      (Fin.snoc (capacitances O els n *ᵥ z) 0 : Fin (n + 1) → ℝ) := by
  obtain ⟨-, -, -, a, b, rest, hp, hp'⟩ := hs
  have hab : ValidEdge n (a, b) := placed_valid hv (hp.mem_iff.2 (by simp) : ((a, b), i0) ∈ _)
  obtain ⟨hne, ha, hb⟩ := hab
  simp only at hne ha hb
  have hrest : ∀ q ∈ rest, ValidEdge n q.1 := fun q hq => placed_valid hv (hp.mem_iff.2 (by simp [hq]))
  set v1 := placedCap O i1
  set v2 := placedCap O i2
  have hvv : v1 + v2 ≠ 0 := by positivity
  refine ⟨(v1 * pot z a + v2 * pot z b) / (v1 + v2), ?_⟩
  set y := (v1 * pot z a + v2 * pot z b) / (v1 + v2) with hy
  have e1 : v1 * (pot z a - y) = seriesCap v1 v2 * (pot z a - pot z b) := by
    rw [hy]; unfold seriesCap; field_simp; ring
  have e2 : v2 * (y - pot z b) = seriesCap v1 v2 * (pot z a - pot z b) := by
    rw [hy]; unfold seriesCap; field_simp; ring
  have hr : ∀ q ∈ rest, branchDiff (Fin.snoc z y : Fin (n + 1) → ℝ) q.1 = branchDiff z q.1 := by
    intro q hq
    obtain ⟨-, h3, h4⟩ := hrest q hq
    unfold branchDiff
    rw [pot_snoc z y h3, pot_snoc z y h4]
  funext k
  rw [caps_act hv' hp']
  simp only [List.map_cons, List.sum_cons]
  rw [List.map_congr_left (g := fun q => placedCap O q.2 * (branchDiff z q.1 * ends q.1 (k + 1)))
    (fun q hq => by rw [hr q hq])]
  have hb1 : branchDiff (Fin.snoc z y : Fin (n + 1) → ℝ) (a, n + 1) = pot z a - y := by
    unfold branchDiff; simp only; rw [pot_snoc z y ha, pot_snoc_last]
  have hb2 : branchDiff (Fin.snoc z y : Fin (n + 1) → ℝ) (n + 1, b) = y - pot z b := by
    unfold branchDiff; simp only; rw [pot_snoc z y hb, pot_snoc_last]
  rw [hb1, hb2]
  refine Fin.lastCases ?_ (fun k => ?_) k
  · rw [Fin.snoc_last (α := fun _ => ℝ)]
    have hz : (rest.map fun q => placedCap O q.2 * (branchDiff z q.1 * ends q.1 ((Fin.last n : Fin (n + 1)) + 1 : ℕ))).sum = 0 := by
      apply List.sum_eq_zero
      intro t ht
      obtain ⟨q, hq, rfl⟩ := List.mem_map.1 ht
      obtain ⟨-, h3, h4⟩ := hrest q hq
      have : ends q.1 ((Fin.last n : Fin (n + 1)) + 1 : ℕ) = 0 := by
        unfold ends
        rw [Fin.val_last, if_neg (by omega), if_neg (by omega), sub_zero]
      rw [this, mul_zero, mul_zero]
    rw [hz]
    unfold ends
    simp only [Fin.val_last]
    rw [if_neg (show ¬ n + 1 = a by omega), if_neg (show ¬ n + 1 = b by omega), if_pos trivial]
    linear_combination e2 - e1
  · rw [Fin.snoc_castSucc (α := fun _ => ℝ), caps_act hv hp]
    simp only [List.map_cons, List.sum_cons, Fin.val_castSucc]
    rw [h0, ← add_assoc]
    congr 1
    have hk := k.isLt
    have hb0 : branchDiff z (a, b) = pot z a - pot z b := rfl
    rw [hb0]
    unfold ends
    simp only
    rw [if_neg (show ¬ (k : ℕ) + 1 = n + 1 by omega)]
    linear_combination (if (k : ℕ) + 1 = a then (1 : ℝ) else 0) * e1 - (if (k : ℕ) + 1 = b then (1 : ℝ) else 0) * e2

/-- inverse capacitances seen by rows supported on the first nodes -/
theorem reduced_inv {q : ℕ} {C : Matrix (Fin n) (Fin n) ℝ} {C' : Matrix (Fin (n + 1)) (Fin (n + 1)) ℝ} (hC : IsUnit C.det)
    (hC' : IsUnit C'.det) (hact : ∀ z : Fin n → ℝ, ∃ y, C' *ᵥ (Fin.snoc z y : Fin (n + 1) → ℝ) =
      (Fin.snoc (C *ᵥ z) 0 : Fin (n + 1) → ℝ))
    (J : Matrix (Fin q) (Fin n) ℝ) (J' : Matrix (Fin q) (Fin (n + 1)) ℝ)
    (hJ : ∀ i, J' i = (Fin.snoc (J i) 0 : Fin (n + 1) → ℝ)) : J' * C'⁻¹ * J'ᵀ = J * C⁻¹ * Jᵀ := by
  ext i j
  have hdot : ∀ (u v : Fin n → ℝ) (y : ℝ), (Fin.snoc u 0 : Fin (n + 1) → ℝ) ⬝ᵥ (Fin.snoc v y : Fin (n + 1) → ℝ) = u ⬝ᵥ v := by
    intro u v y
    unfold dotProduct
    rw [Fin.sum_univ_castSucc]
    simp only [Fin.snoc_castSucc (α := fun _ => ℝ), Fin.snoc_last (α := fun _ => ℝ), zero_mul, add_zero]
  obtain ⟨y, hy⟩ := hact (C⁻¹ *ᵥ J j)
  rw [mulVec_mulVec, mul_nonsing_inv _ hC, one_mulVec, ← hJ] at hy
  have hz : C'⁻¹ *ᵥ J' j = (Fin.snoc (C⁻¹ *ᵥ J j) y : Fin (n + 1) → ℝ) := by
    rw [← hy, mulVec_mulVec, nonsing_inv_mul _ hC', one_mulVec]
  have e1 : (J' * C'⁻¹ * J'ᵀ) i j = J' i ⬝ᵥ (C'⁻¹ *ᵥ J' j) := by
    rw [Matrix.mul_assoc]; rfl
  have e2 : (J * C⁻¹ * Jᵀ) i j = J i ⬝ᵥ (C⁻¹ *ᵥ J j) := by
    rw [Matrix.mul_assoc]; rfl
  rw [e1, e2, hz, hJ, hdot]

theorem incidence_beyond {e : Edge} (h : ValidEdge n e) : incidence e (n + 1) = 0 := by
  obtain ⟨a, b⟩ := e
  obtain ⟨-, ha, hb⟩ := h
  simp only at ha hb
  unfold incidence
  simp only
  split
  · rw [if_neg (by omega)]
  · split
    · rw [if_neg (by omega)]
    · rw [if_neg (by omega), if_neg (by omega)]

theorem mem_junEdges {O : Objs} {els : Elements} {e : Edge} :
    e ∈ junctionEdges O els ↔ ∃ i, (e, i) ∈ placements els ∧ (O.elem i).kind = .jj := by
  unfold junctionEdges placements
  constructor
  · intro h
    obtain ⟨p, hp, rfl⟩ := List.mem_map.1 h
    obtain ⟨hp, ha⟩ := List.mem_filter.1 hp
    obtain ⟨i, hi, hk⟩ := List.any_eq_true.1 ha
    exact ⟨i, List.mem_flatMap.2 ⟨p, hp, List.mem_map.2 ⟨i, hi, rfl⟩⟩, by simpa using hk⟩
  · rintro ⟨i, hi, hk⟩
    obtain ⟨p, hp, hi⟩ := List.mem_flatMap.1 hi
    obtain ⟨j, hj, he⟩ := List.mem_map.1 hi
    obtain ⟨h1, h2⟩ := Prod.ext_iff.1 he
    simp only at h1 h2
    subst h1 h2
    exact List.mem_map.2 ⟨p, List.mem_filter.2 ⟨hp, List.any_eq_true.2 ⟨j, hj, by simpa using hk⟩⟩, rfl⟩

/-- The junction edges correspond, with the same inverse capacitances and Josephson energies. -/
theorem split_dict (hs : SplitCapacitor O n els els' i0 i1 i2) (hv : ValidElements n els) (hv' : ValidElements (n + 1) els')
    (hi : IndependentJunctions O els n) (hi' : IndependentJunctions O els' (n + 1)) (vals : ElemId → ℝ)
    (hC : IsUnit (capacitances (O.withVals vals) els n).det) (hC' : IsUnit (capacitances (O.withVals vals) els' (n + 1)).det)
    (h1 : 0 < vals i1) (h2 : 0 < vals i2) (h0 : vals i0 = seriesCap (vals i1) (vals i2)) :
    ∃ τ : Fin (junctionEdges O els).length ≃ Fin (junctionEdges O els').length,
      (∀ i, (junctionEdges O els').get (τ i) = (junctionEdges O els).get i) ∧
      (∀ i j, junctionInvCap (O.withVals vals) els' (n + 1) (τ i) (τ j) = junctionInvCap (O.withVals vals) els n i j) ∧
      ∀ i, edgeEJ O els' vals ((junctionEdges O els').get (τ i)) = edgeEJ O els vals ((junctionEdges O els).get i) := by
  have hs0 := hs
  obtain ⟨k0, k1, k2, a, b, rest, hp, hp'⟩ := hs
  have hset : ∀ e, e ∈ junctionEdges O els ↔ e ∈ junctionEdges O els' := by
    intro e
    rw [mem_junEdges, mem_junEdges]
    constructor
    · rintro ⟨i, hi, hk⟩
      refine ⟨i, ?_, hk⟩
      rcases List.mem_cons.1 (hp.mem_iff.1 hi) with h | h
      · obtain rfl := (Prod.ext_iff.1 h).2
        rw [k0] at hk; cases hk
      · exact hp'.mem_iff.2 (by simp [h])
    · rintro ⟨i, hi, hk⟩
      refine ⟨i, ?_, hk⟩
      rcases List.mem_cons.1 (hp'.mem_iff.1 hi) with h | h
      · obtain rfl := (Prod.ext_iff.1 h).2
        rw [k1] at hk; cases hk
      · rcases List.mem_cons.1 h with h | h
        · obtain rfl := (Prod.ext_iff.1 h).2
          rw [k2] at hk; cases hk
        · exact hp.mem_iff.2 (by simp [h])
  have hnd : (junctionEdges O els).Nodup := by
    rw [List.nodup_iff_injective_get]
    intro i j hij
    apply LinearIndependent.injective hi
    funext k
    change (incidence ((junctionEdges O els).get i) (k + 1) : ℝ) = incidence ((junctionEdges O els).get j) (k + 1)
    rw [hij]
  have hnd' : (junctionEdges O els').Nodup := by
    rw [List.nodup_iff_injective_get]
    intro i j hij
    apply LinearIndependent.injective hi'
    funext k
    change (incidence ((junctionEdges O els').get i) (k + 1) : ℝ) = incidence ((junctionEdges O els').get j) (k + 1)
    rw [hij]
  let τ : Fin (junctionEdges O els).length ≃ Fin (junctionEdges O els').length :=
    ((List.Nodup.getEquiv _ hnd).trans (Equiv.subtypeEquivRight hset)).trans (List.Nodup.getEquiv _ hnd').symm
  have hτ : ∀ i, (junctionEdges O els').get (τ i) = (junctionEdges O els).get i := by
    intro i
    have e := (List.Nodup.getEquiv _ hnd').apply_symm_apply (Equiv.subtypeEquivRight hset (List.Nodup.getEquiv _ hnd i))
    exact congrArg Subtype.val e
  refine ⟨τ, hτ, ?_, ?_⟩
  · have p0 : placedCap (O.withVals vals) i0 = vals i0 := by
      unfold placedCap
      have : ((O.withVals vals).elem i0).kind = .cap := k0
      rw [this]; rfl
    have p1 : placedCap (O.withVals vals) i1 = vals i1 := by
      unfold placedCap
      have : ((O.withVals vals).elem i1).kind = .cap := k1
      rw [this]; rfl
    have p2 : placedCap (O.withVals vals) i2 = vals i2 := by
      unfold placedCap
      have : ((O.withVals vals).elem i2).kind = .cap := k2
      rw [this]; rfl
    have hact := split_act (O := O.withVals vals) (show SplitCapacitor (O.withVals vals) n els els' i0 i1 i2 from hs0) hv hv'
      (by rw [p1]; exact h1) (by rw [p2]; exact h2) (by rw [p0, p1, p2]; exact h0)
    have hr := reduced_inv hC hC' hact (junctionIncidence O els n) ((junctionIncidence O els' (n + 1)).submatrix τ id) (by
      intro i
      funext k
      change (incidence ((junctionEdges O els').get (τ i)) (k + 1) : ℝ) = _
      rw [hτ]
      refine Fin.lastCases ?_ (fun k => ?_) k
      · rw [Fin.snoc_last (α := fun _ => ℝ), Fin.val_last, incidence_beyond, Int.cast_zero]
        obtain ⟨x, hx, -⟩ := mem_junEdges.1 (List.get_mem (junctionEdges O els) i)
        exact placed_valid hv hx
      · rw [Fin.snoc_castSucc (α := fun _ => ℝ)]
        rfl)
    intro i j
    exact congrFun (congrFun hr i) j
  · intro i
    rw [hτ]
    unfold edgeEJ
    rw [((hp'.filter _).map _).sum_eq, ((hp.filter _).map _).sum_eq]
    simp [List.filter_cons, k0, k1, k2]

end SQ
