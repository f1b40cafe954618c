import Verif.Lemmas.Relabel
import Verif.Lemmas.MergeIslands
import Verif.Lemmas.LcState
import Verif.Lemmas.Perturb
import Verif.Spec.MonoCap

/-!
# More capacitance, lower levels
-/

namespace SQ
open Matrix Spec

/-- the inverse of a larger positive matrix is smaller -/
theorem inv_quad_le {n : ℕ} {C C' : Matrix (Fin n) (Fin n) ℝ} (hC : C.PosDef) (hC' : C'.PosDef)
    (h : ∀ y, y ⬝ᵥ (C *ᵥ y) ≤ y ⬝ᵥ (C' *ᵥ y)) (x : Fin n → ℝ) : x ⬝ᵥ (C'⁻¹ *ᵥ x) ≤ x ⬝ᵥ (C⁻¹ *ᵥ x) := by
  have hu : IsUnit C.det := hC.det_pos.ne'.isUnit
  have hu' : IsUnit C'.det := hC'.det_pos.ne'.isUnit
  set y := C'⁻¹ *ᵥ x with hy
  set z := C⁻¹ *ᵥ x with hz
  have e1 : C' *ᵥ y = x := by rw [hy, mulVec_mulVec, mul_nonsing_inv _ hu', one_mulVec]
  have e2 : C *ᵥ z = x := by rw [hz, mulVec_mulVec, mul_nonsing_inv _ hu, one_mulVec]
  have h1 := h y
  rw [e1] at h1
  have h2 := hC.posSemidef.dotProduct_mulVec_nonneg (y - z)
  rw [star_trivial, mulVec_sub, e2, sub_dotProduct, dotProduct_sub, dotProduct_sub] at h2
  have h3 : z ⬝ᵥ (C *ᵥ y) = x ⬝ᵥ y := by
    have hs : Cᵀ = C := by have := hC.1; rwa [IsHermitian, conjTranspose_eq_transpose_of_trivial] at this
    rw [dotProduct_mulVec, ← mulVec_transpose, hs, e2]
  rw [h3, dotProduct_comm y x, dotProduct_comm z x] at h2
  rw [dotProduct_comm y x] at h1
  linarith

/-- the number of pairs in a charge state, relative to the offset -/
noncomputable def pairNum {k : ℕ} (m : Fin k → ℕ) (ng : Fin k → ℝ) (x : Idx m) (i : Fin k) : ℝ :=
  ((x i : ℕ) : ℝ) - ((m i : ℝ) - 1) / 2 - ng i

theorem pairs_diag {k : ℕ} (m : Fin k → ℕ) (ng : Fin k → ℝ) (i : Fin k) :
    pairs m ng i = diagonal (fun x : Idx m => ((pairNum m ng x i : ℝ) : ℂ)) := by
  have h1 : onMode m i (qCharge (m i)) = diagonal (fun x : Idx m => (((x i : ℕ) : ℂ) - ((m i : ℂ) - 1) / 2)) :=
    single_diagonal (m := m) i _
  unfold pairs
  rw [h1]
  ext x y
  by_cases hxy : x = y
  · subst hxy
    simp [pairNum]
  · simp [hxy]

theorem pairEnergy_diag {k : ℕ} (m : Fin k → ℕ) (A : Matrix (Fin k) (Fin k) ℝ) (ng : Fin k → ℝ) :
    pairEnergy m A ng = diagonal (fun x : Idx m =>
      (((2 * eCharge) ^ 2 / 2 / hbar * (pairNum m ng x ⬝ᵥ (A *ᵥ pairNum m ng x)) : ℝ) : ℂ)) := by
  unfold pairEnergy
  simp only [pairs_diag, diagonal_mul_diagonal]
  ext x y
  simp only [Matrix.smul_apply, Matrix.sum_apply, diagonal_apply]
  by_cases hxy : x = y
  · subst hxy
    simp only [if_true, smul_eq_mul, dotProduct, mulVec]
    push_cast
    congr 1
    refine Finset.sum_congr rfl fun i _ => ?_
    rw [Finset.mul_sum]
    refine Finset.sum_congr rfl fun j _ => ?_
    ring
  · simp [hxy]

/-- a larger charging energy gives a larger expectation in every state -/
theorem braket_pairs_le {k : ℕ} (m : Fin k → ℕ) {A A' : Matrix (Fin k) (Fin k) ℝ} (ng : Fin k → ℝ)
    (h : ∀ p, p ⬝ᵥ (A' *ᵥ p) ≤ p ⬝ᵥ (A *ᵥ p)) (J : Op m) (v : Idx m → ℂ) :
    (braket v (pairEnergy m A' ng - J) v).re ≤ (braket v (pairEnergy m A ng - J) v).re := by
  rw [braket_sub_op, braket_sub_op, Complex.sub_re, Complex.sub_re, sub_le_sub_iff_right, pairEnergy_diag, pairEnergy_diag]
  unfold braket
  rw [Complex.re_sum, Complex.re_sum]
  have hd : ∀ (D : Idx m → ℝ) (a : Idx m), (∑ b, (starRingEnd ℂ) (v a) * (diagonal (fun x => ((D x : ℝ) : ℂ)) : Op m) a b * v b).re =
      D a * Complex.normSq (v a) := by
    intro D a
    rw [Finset.sum_eq_single a]
    · rw [diagonal_apply_eq, mul_right_comm, mul_comm ((starRingEnd ℂ) (v a)), Complex.mul_conj, ← Complex.ofReal_mul, Complex.ofReal_re]
      ring
    · intro b _ hb
      rw [diagonal_apply_ne _ (Ne.symm hb)]
      simp
    · intro hb; exact absurd (Finset.mem_univ _) hb
  refine Finset.sum_le_sum fun a _ => ?_
  rw [hd, hd]
  refine mul_le_mul_of_nonneg_right (mul_le_mul_of_nonneg_left (h _) ?_) (Complex.normSq_nonneg _)
  have := hbar_pos
  unfold eCharge
  positivity

/-- smaller expectations in every state give lower levels -/
theorem levels_le {ι : Type*} [Fintype ι] [DecidableEq ι] {H H' : Matrix ι ι ℂ} {vs vs' : List (ι → ℂ)} {ws ws' : List ℝ}
    (h : Levels H vs ws) (h' : Levels H' vs' ws') (hle : ∀ v, (braket v H' v).re ≤ (braket v H v).re) (i : ℕ) :
    ws'.getD i 0 ≤ ws.getD i 0 := by
  have hl : ws.length = Fintype.card ι := h.len.trans h.card
  have hl' : ws'.length = Fintype.card ι := h'.len.trans h'.card
  by_cases hi : i < Fintype.card ι
  · obtain ⟨s, hm⟩ := levels_sys h
    obtain ⟨s', hm'⟩ := levels_sys h'
    obtain ⟨v, hv0, h1, h2⟩ := exists_between s' s ⟨i, hi⟩
    have hpos : 0 < nsq v := lt_of_le_of_ne (Finset.sum_nonneg fun a _ => sq_nonneg _) (Ne.symm hv0)
    have e1 : ws'.getD i 0 * nsq v ≤ (braket v H' v).re := by
      rw [s'.rayleigh, Complex.ofReal_re, s'.nsq_eq, Finset.mul_sum]
      refine Finset.sum_le_sum fun j _ => ?_
      by_cases hj : j < ⟨i, hi⟩
      · rw [h1 j hj]; simp
      · exact mul_le_mul_of_nonneg_right (hm' (not_lt.1 hj)) (sq_nonneg _)
    have e2 : (braket v H v).re ≤ ws.getD i 0 * nsq v := by
      rw [s.rayleigh, Complex.ofReal_re, s.nsq_eq, Finset.mul_sum]
      refine Finset.sum_le_sum fun j _ => ?_
      by_cases hj : (⟨i, hi⟩ : Fin _) < j
      · rw [h2 j hj]; simp
      · exact mul_le_mul_of_nonneg_right (hm (not_lt.1 hj)) (sq_nonneg _)
    exact le_of_mul_le_mul_right ((e1.trans (hle v)).trans e2) hpos
  · rw [List.getD_eq_getElem?_getD, List.getD_eq_getElem?_getD, List.getElem?_eq_none (by omega),
      List.getElem?_eq_none (by omega)]

/-- the capacitance of a placed element grows with the capacitors -/
theorem placedCap_le {O : Objs} (hcaps : CapsOK O) {v v' : ElemId → ℝ} (h : LargerCaps O v v') (i : ElemId) :
    placedCap (O.withVals v) i ≤ placedCap (O.withVals v') i := by
  unfold placedCap
  change (match (O.elem i).kind with
    | .cap => v i
    | _ => v (O.elem i).cap) ≤ (match (O.elem i).kind with
    | .cap => v' i
    | _ => v' (O.elem i).cap)
  have h1 := h.1 i
  have h2 := h.1 _ (hcaps i)
  cases hk : (O.elem i).kind
  · exact h1 (by rw [hk]; decide)
  · exact h2
  · exact h2

theorem edgeMat_quad (n : ℕ) (e : Edge) (y : Fin n → ℝ) :
    y ⬝ᵥ (edgeMat n e *ᵥ y) = (∑ a, y a * (incidence e (a + 1) : ℝ)) ^ 2 := by
  rw [sq, Finset.sum_mul_sum]
  simp only [dotProduct, mulVec, edgeMat, of_apply, Finset.mul_sum]
  refine Finset.sum_congr rfl fun a _ => Finset.sum_congr rfl fun b _ => ?_
  ring

theorem caps_quad (O : Objs) (n : ℕ) (l : List (Edge × ElemId)) (y : Fin n → ℝ) :
    y ⬝ᵥ ((l.map (fun q => placedCap O q.2 • edgeMat n q.1)).sum *ᵥ y) =
      (l.map (fun q => placedCap O q.2 * (∑ a, y a * (incidence q.1 (a + 1) : ℝ)) ^ 2)).sum := by
  induction l with
  | nil => simp
  | cons q l ih =>
    simp only [List.map_cons, List.sum_cons]
    rw [add_mulVec, dotProduct_add, ih, smul_mulVec, dotProduct_smul, edgeMat_quad, smul_eq_mul]

/-- more capacitors make the capacitance matrix larger -/
theorem capacitances_le {O : Objs} (hcaps : CapsOK O) {els els' : Elements} (hm : MoreCapacitors O els els') {v v' : ElemId → ℝ}
    (h : LargerCaps O v v') (hpos : PositiveCaps (O.withVals v') els') (n : ℕ) (y : Fin n → ℝ) :
    y ⬝ᵥ (capacitances (O.withVals v) els n *ᵥ y) ≤ y ⬝ᵥ (capacitances (O.withVals v') els' n *ᵥ y) := by
  obtain ⟨caps, hp, -⟩ := hm.extra
  unfold capacitances
  rw [caps_quad, caps_quad, (hp.map _).sum_eq, List.map_append, List.sum_append]
  have h1 : ∀ l : List (Edge × ElemId), (l.map (fun q => placedCap (O.withVals v) q.2 * (∑ a, y a * (incidence q.1 (a + 1) : ℝ)) ^ 2)).sum ≤
      (l.map (fun q => placedCap (O.withVals v') q.2 * (∑ a, y a * (incidence q.1 (a + 1) : ℝ)) ^ 2)).sum := by
    intro l
    refine List.sum_le_sum fun q _ => ?_
    exact mul_le_mul_of_nonneg_right (placedCap_le hcaps h q.2) (sq_nonneg _)
  have h2 : 0 ≤ (caps.map (fun q => placedCap (O.withVals v') q.2 * (∑ a, y a * (incidence q.1 (a + 1) : ℝ)) ^ 2)).sum := by
    refine List.sum_nonneg ?_
    intro x hx
    obtain ⟨q, hq, rfl⟩ := List.mem_map.1 hx
    have : q ∈ placements els' := hp.mem_iff.2 (List.mem_append_right _ hq)
    exact mul_nonneg (hpos q this).le (sq_nonneg _)
  linarith [h1 (placements els)]

/-- the junctions of an edge are the same -/
theorem edgeEJ_more {O : Objs} {els els' : Elements} (hm : MoreCapacitors O els els') {v v' : ElemId → ℝ}
    (h : LargerCaps O v v') (e : Edge) : edgeEJ O els' v' e = edgeEJ O els v e := by
  obtain ⟨caps, hp, hk⟩ := hm.extra
  unfold edgeEJ
  rw [((hp.filter _).map _).sum_eq, List.filter_append, List.map_append, List.sum_append]
  have h1 : caps.filter (fun q => decide ((O.elem q.2).kind = .jj ∧ q.1 = e)) = [] := by
    rw [List.filter_eq_nil_iff]
    intro q hq
    simp [hk q hq]
  rw [h1, List.map_nil, List.sum_nil, add_zero]
  refine congrArg List.sum (List.map_congr_left fun q hq => ?_)
  rw [List.mem_filter] at hq
  have := hq.2
  simp only [decide_eq_true_eq] at this
  exact h.2 _ this.1

/-- the junction edges of the two dictionaries -/
def moreEdges {O : Objs} {els els' : Elements} (hm : MoreCapacitors O els els') :
    Fin (junctionEdges O els).length ≃ Fin (junctionEdges O els').length :=
  finCongr (congrArg List.length hm.junctions.symm)

theorem moreEdges_get {O : Objs} {els els' : Elements} (hm : MoreCapacitors O els els') (i) :
    (junctionEdges O els').get (moreEdges hm i) = (junctionEdges O els).get i := by
  simp only [moreEdges, List.get_eq_getElem, finCongr_apply, Fin.val_cast]
  exact List.getElem_of_eq hm.junctions _

/-- more capacitors make the charging energies smaller -/
theorem invCap_le {O : Objs} (hcaps : CapsOK O) {els els' : Elements} (hm : MoreCapacitors O els els') {v v' : ElemId → ℝ}
    (h : LargerCaps O v v') (hpos : PositiveCaps (O.withVals v') els') (n : ℕ)
    (hC : (capacitances (O.withVals v) els n).PosDef) (hC' : (capacitances (O.withVals v') els' n).PosDef)
    (p : Fin (junctionEdges O els).length → ℝ) :
    p ⬝ᵥ (Matrix.of (fun i j => junctionInvCap (O.withVals v') els' n (moreEdges hm i) (moreEdges hm j)) *ᵥ p) ≤
      p ⬝ᵥ (junctionInvCap (O.withVals v) els n *ᵥ p) := by
  have hJ : ∀ i a, junctionIncidence O els' n (moreEdges hm i) a = junctionIncidence O els n i a := by
    intro i a
    unfold junctionIncidence
    simp only [of_apply]
    rw [moreEdges_get]
  have e1 : Matrix.of (fun i j => junctionInvCap (O.withVals v') els' n (moreEdges hm i) (moreEdges hm j)) =
      junctionIncidence O els n * (capacitances (O.withVals v') els' n)⁻¹ * (junctionIncidence O els n)ᵀ := by
    ext i j
    rw [of_apply]
    change (junctionIncidence O els' n * (capacitances (O.withVals v') els' n)⁻¹ * (junctionIncidence O els' n)ᵀ) _ _ = _
    simp only [Matrix.mul_apply, transpose_apply, hJ]
  have e2 : ∀ C : Matrix (Fin n) (Fin n) ℝ, p ⬝ᵥ ((junctionIncidence O els n * C * (junctionIncidence O els n)ᵀ) *ᵥ p) =
      ((junctionIncidence O els n)ᵀ *ᵥ p) ⬝ᵥ (C *ᵥ ((junctionIncidence O els n)ᵀ *ᵥ p)) := by
    intro C
    rw [← mulVec_mulVec, ← mulVec_mulVec, dotProduct_mulVec, ← mulVec_transpose]
  rw [e1, e2]
  change _ ≤ p ⬝ᵥ ((junctionIncidence O els n * (capacitances (O.withVals v) els n)⁻¹ * (junctionIncidence O els n)ᵀ) *ᵥ p)
  rw [e2]
  exact inv_quad_le hC hC' (capacitances_le hcaps hm h hpos n) _

end SQ
