import Verif.Lemmas.MergeSystem

/-!
# Interaction coefficients and the inverse capacitance matrix of the merged circuit
-/

namespace SQ
open Matrix Spec Real

theorem blockDiagonal'_inv {k : ℕ} {n : Fin k → ℕ} (C : ∀ s, Matrix (Fin (n s)) (Fin (n s)) ℝ) (h : ∀ s, IsUnit (C s).det) :
    (blockDiagonal' C)⁻¹ = blockDiagonal' fun s => (C s)⁻¹ := by
  apply inv_eq_right_inv
  rw [← blockDiagonal'_mul]
  have : (fun s => C s * (C s)⁻¹) = 1 := by
    funext s
    rw [mul_nonsing_inv _ (h s)]
    rfl
  rw [this, blockDiagonal'_one]

section
variable {sub : CircId → SubCirc} {cs : List CircId} {cps : List Coupling} {O : Objs} {els : CircId → Elements} {vals : ElemId → ℝ}

theorem bareCap_block (hnd : cs.Nodup) (hC : ∀ c ∈ cs, ∀ p q : Fin (sub c).nodes, (sub c).C p q = capacitances (O.withVals vals) (els c) (sub c).nodes p q)
    (y y' : Σ t : Fin cs.length, Fin (sub (cs.get t)).nodes) :
    bareCap sub cs (nodeEquiv (fun c => (sub c).nodes) cs hnd y) (nodeEquiv (fun c => (sub c).nodes) cs hnd y') =
      blockDiagonal' (fun t : Fin cs.length => capacitances (O.withVals vals) (els (cs.get t)) (sub (cs.get t)).nodes) y y' := by
  unfold bareCap
  rw [nodeEquiv_val, nodeEquiv_val, nodesBefore_get _ cs hnd, nodesBefore_get _ cs hnd]
  rw [blockDiag_at (fun c => (sub c).nodes) (fun c => (sub c).C) cs y.1 y'.1 y.2 y'.2 y.2.2 y'.2.2, blockDiagonal'_apply]
  obtain ⟨t, k⟩ := y
  obtain ⟨t', k'⟩ := y'
  by_cases h : t = t'
  · subst h
    rw [if_pos rfl, dif_pos rfl]
    exact hC _ (List.get_mem _ _) _ _
  · rw [if_neg h, dif_neg h]

/-- the capacitance matrix of the system is that of the merged circuit -/
theorem capMatrix_merged (hnd : cs.Nodup) (hn : ∀ c ∈ cs, (sub c).n = (sub c).nodes)
    (hC : ∀ c ∈ cs, ∀ p q : Fin (sub c).nodes, (sub c).C p q = capacitances (O.withVals vals) (els c) (sub c).nodes p q)
    (hv : ∀ c ∈ cs, ValidElements (sub c).nodes (els c)) (hg : ∀ g ∈ cps, ValidCoupling O (fun c => (sub c).nodes) vals g)
    (hm : ∀ g ∈ cps, g.cr1 ∈ cs ∧ g.cr2 ∈ cs) :
    ∃ M, addCouples sub cs (cps.map (Coupling.couple vals)) (bareCap sub cs) = .ok M ∧
      toMat (sysNodes sub cs) M = capacitances (O.withVals vals) (mergedEls (fun c => (sub c).nodes) els cs cps) (sysNodes sub cs) := by
  obtain ⟨M, hM, hMe⟩ := addCouples_entries (vals := vals) hn cps (fun g hgm =>
    ⟨(hm g hgm).1, (hm g hgm).2, (hg g hgm).1, (hg g hgm).2.1, coupling_ends hnd (hg g hgm) (hm g hgm).1 (hm g hgm).2⟩) (bareCap sub cs)
  refine ⟨M, hM, ?_⟩
  ext p q
  obtain ⟨y, rfl⟩ := (nodeEquiv (fun c => (sub c).nodes) cs hnd).surjective p
  obtain ⟨y', rfl⟩ := (nodeEquiv (fun c => (sub c).nodes) cs hnd).surjective q
  refine (hMe _ _).trans ?_
  rw [bareCap_block hnd hC]
  exact (merged_capacitances hnd hv (O := O.withVals vals) (cps := cps) (fun g hgm => (hg g hgm).2.2.2.1) y y').symm

theorem sum_nodes (hnd : cs.Nodup) (f : Fin (sysNodes sub cs) → ℝ) :
    ∑ p, f p = ∑ y : (Σ t : Fin cs.length, Fin (sub (cs.get t)).nodes), f (nodeEquiv (fun c => (sub c).nodes) cs hnd y) :=
  ((nodeEquiv (fun c => (sub c).nodes) cs hnd).sum_comp f).symm

theorem blockR (hnd : cs.Nodup) (hn : ∀ c ∈ cs, (sub c).n = (sub c).nodes)
    (σ : ∀ s : Fin cs.length, Fin (junctionEdges O (els (cs.get s))).length → Fin (sub (cs.get s)).n)
    (hR : ∀ s i (p : ℕ), p < (sub (cs.get s)).nodes →
      (sub (cs.get s)).R p (σ s i) = incidence ((junctionEdges O (els (cs.get s))).get i) (p + 1))
    (z : Σ s : Fin cs.length, Fin (junctionEdges O (els (cs.get s))).length) (y : Σ t : Fin cs.length, Fin (sub (cs.get t)).nodes) :
    blockDiag (cs.map (fun c => ((sub c).nodes, (sub c).R))) (nodeEquiv (fun c => (sub c).nodes) cs hnd y) (modeIdx sub cs ⟨z.1, σ z.1 z.2⟩) =
      bigInc O els (fun c => (sub c).nodes) cs z y := by
  have e : modeIdx sub cs ⟨z.1, σ z.1 z.2⟩ = ((cs.take z.1).map (fun c => (sub c).nodes)).sum + (σ z.1 z.2 : ℕ) := by
    unfold modeIdx
    congr 2
    refine List.map_congr_left fun c hc => hn c (List.mem_of_mem_take hc)
  rw [e, nodeEquiv_val, nodesBefore_get _ cs hnd, blockDiag_at (fun c => (sub c).nodes) (fun c => (sub c).R) cs y.1 z.1 y.2 _ y.2.2
    (lt_of_lt_of_eq (σ z.1 z.2).2 (hn _ (List.get_mem _ _)))]
  unfold bigInc
  rw [blockDiagonal'_apply]
  obtain ⟨t, k⟩ := y
  obtain ⟨s, i⟩ := z
  by_cases h : s = t
  · subst h
    rw [if_pos rfl, dif_pos rfl]
    exact hR s i k k.2
  · rw [if_neg (fun h' => h h'.symm), dif_neg h]

theorem merged_invCap (hnd : cs.Nodup) {sz : CircId → ℕ} (hv : ∀ c ∈ cs, ValidElements (sz c) (els c))
    (hk : ∀ g ∈ cps, (O.elem g.el).kind = .cap) (z z' : Σ s : Fin cs.length, Fin (junctionEdges O (els (cs.get s))).length) :
    junctionInvCap (O.withVals vals) (mergedEls sz els cs cps) (cs.map sz).sum (junPos O els hnd hk z) (junPos O els hnd hk z') =
      (bigInc O els sz cs * ((capacitances (O.withVals vals) (mergedEls sz els cs cps) (cs.map sz).sum)⁻¹.submatrix
        (nodeEquiv sz cs hnd) (nodeEquiv sz cs hnd)) * (bigInc O els sz cs)ᵀ) z z' := by
  have hB : bigInc O els sz cs = (junctionIncidence O (mergedEls sz els cs cps) (cs.map sz).sum).submatrix
      (junPos O els hnd hk) (nodeEquiv sz cs hnd) := by
    ext a b
    exact (merged_junctionIncidence hnd hv hk a b).symm
  rw [hB, transpose_submatrix, submatrix_mul_equiv, submatrix_mul_equiv]
  rfl

/-- the coefficients of the interaction are what the merged circuit has in addition to its parts -/
theorem coef_merged (hnd : cs.Nodup) (hn : ∀ c ∈ cs, (sub c).n = (sub c).nodes)
    (hC : ∀ c ∈ cs, ∀ p q : Fin (sub c).nodes, (sub c).C p q = capacitances (O.withVals vals) (els c) (sub c).nodes p q)
    (hP : ∀ c ∈ cs, (capacitances (O.withVals vals) (els c) (sub c).nodes).PosDef)
    (hv : ∀ c ∈ cs, ValidElements (sub c).nodes (els c)) (hk : ∀ g ∈ cps, (O.elem g.el).kind = .cap)
    (σ : ∀ s : Fin cs.length, Fin (junctionEdges O (els (cs.get s))).length → Fin (sub (cs.get s)).n)
    (hR : ∀ s i (p : ℕ), p < (sub (cs.get s)).nodes →
      (sub (cs.get s)).R p (σ s i) = incidence ((junctionEdges O (els (cs.get s))).get i) (p + 1))
    (z z' : Σ s : Fin cs.length, Fin (junctionEdges O (els (cs.get s))).length) :
    transCoef (blockDiag (cs.map (fun c => ((sub c).nodes, (sub c).R))))
        ((capacitances (O.withVals vals) (mergedEls (fun c => (sub c).nodes) els cs cps) (sysNodes sub cs))⁻¹ -
          (toMat (sysNodes sub cs) (bareCap sub cs))⁻¹) (modeIdx sub cs ⟨z.1, σ z.1 z.2⟩) (modeIdx sub cs ⟨z'.1, σ z'.1 z'.2⟩) =
      junctionInvCap (O.withVals vals) (mergedEls (fun c => (sub c).nodes) els cs cps) (cs.map fun c => (sub c).nodes).sum
          (junPos O els hnd hk z) (junPos O els hnd hk z') -
        blockDiagonal' (fun s : Fin cs.length => junctionInvCap (O.withVals vals) (els (cs.get s)) (sub (cs.get s)).nodes) z z' := by
  set B := bigInc O els (fun c => (sub c).nodes) cs with hB
  set ν := nodeEquiv (fun c => (sub c).nodes) cs hnd with hν
  have h0 : (toMat (sysNodes sub cs) (bareCap sub cs)).submatrix ν ν =
      blockDiagonal' (fun t : Fin cs.length => capacitances (O.withVals vals) (els (cs.get t)) (sub (cs.get t)).nodes) := by
    ext y y'
    exact bareCap_block hnd hC y y'
  have h0i : ((toMat (sysNodes sub cs) (bareCap sub cs))⁻¹).submatrix ν ν =
      blockDiagonal' (fun t : Fin cs.length => (capacitances (O.withVals vals) (els (cs.get t)) (sub (cs.get t)).nodes)⁻¹) := by
    rw [← blockDiagonal'_inv _ (fun s => (hP _ (List.get_mem _ _)).isUnit.map Matrix.detMonoidHom), ← h0]
    exact (inv_submatrix_equiv (toMat (sysNodes sub cs) (bareCap sub cs)) ν ν).symm
  have hD : ∀ D : Matrix (Fin (sysNodes sub cs)) (Fin (sysNodes sub cs)) ℝ,
      transCoef (blockDiag (cs.map (fun c => ((sub c).nodes, (sub c).R)))) D
        (modeIdx sub cs ⟨z.1, σ z.1 z.2⟩) (modeIdx sub cs ⟨z'.1, σ z'.1 z'.2⟩) = (B * D.submatrix ν ν * Bᵀ) z z' := by
    intro D
    unfold transCoef
    rw [sum_nodes hnd, mul_apply, Finset.sum_comm' (t' := Finset.univ) (s' := fun _ => Finset.univ) (by simp)]
    rw [sum_nodes hnd]
    refine Finset.sum_congr rfl fun y' _ => ?_
    rw [transpose_apply, mul_apply, Finset.sum_mul]
    refine Finset.sum_congr rfl fun y _ => ?_
    rw [blockR hnd hn σ hR, blockR hnd hn σ hR]
    rfl
  rw [hD]
  have e1 : ((capacitances (O.withVals vals) (mergedEls (fun c => (sub c).nodes) els cs cps) (sysNodes sub cs))⁻¹ -
      (toMat (sysNodes sub cs) (bareCap sub cs))⁻¹).submatrix ν ν =
      ((capacitances (O.withVals vals) (mergedEls (fun c => (sub c).nodes) els cs cps) (sysNodes sub cs))⁻¹).submatrix ν ν -
      ((toMat (sysNodes sub cs) (bareCap sub cs))⁻¹).submatrix ν ν := rfl
  rw [e1, h0i, Matrix.mul_sub, Matrix.sub_mul, Matrix.sub_apply, merged_invCap hnd hv hk]
  congr 1
  rw [hB]
  unfold bigInc
  rw [blockDiagonal'_transpose, ← blockDiagonal'_mul, ← blockDiagonal'_mul]
  rfl

end

end SQ
