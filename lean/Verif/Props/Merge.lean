import Verif.Lemmas.Merge

/-!
# C107: systems of circuits
-/

namespace SQ
open Matrix Spec

section complete
variable (cps : List Couple) (bd : CircId → Build) (d : ∀ c, Fin (bd c).M.keep.length → ℕ)
  (mem : ∀ c, OpMem (bd c).nJ (d c)) (H : ∀ c, Op (d c)) (vs : ∀ c, List (Idx (d c) → ℂ)) (ws : CircId → List ℝ) (u : ℝ)

/-- The Hamiltonian of the circuits of a system on the product of their state spaces: the sum of their Hamiltonians and
½ Σ A_xy Q_x Q_y over all pairs of modes. -/
noncomputable def compositeHam (A : (x y : ModeIx (fun c => completeSub (bd c) (mem c) u (ws c) (vs c)) (getAllCircuits cps)) → ℝ) :
    Matrix (∀ s : Fin (getAllCircuits cps).length, Idx (d ((getAllCircuits cps).get s)))
      (∀ s : Fin (getAllCircuits cps).length, Idx (d ((getAllCircuits cps).get s))) ℂ :=
  ∑ s, onSub (ι := fun s => Idx (d ((getAllCircuits cps).get s))) s (H ((getAllCircuits cps).get s)) +
    (1 / 2 : ℂ) • ∑ x, ∑ y, ((A x y : ℝ) : ℂ) •
      (onSub (ι := fun s => Idx (d ((getAllCircuits cps).get s))) x.1 ((mem _).Q x.2) *
        onSub (ι := fun s => Idx (d ((getAllCircuits cps).get s))) y.1 ((mem _).Q y.2))

/-- C107, complete eigenbases: if no eigenstate of the circuits is dropped, the Hamiltonian of the system is, in another
basis of the product space, the sum of the Hamiltonians of the circuits and of the interaction of all modes. -/
theorem C107_complete (hu : 0 < u) (hC : ∀ c ∈ getAllCircuits cps, (bd c).Cᵀ = (bd c).C)
    (hQ : ∀ c ∈ getAllCircuits cps, ∀ i, ((mem c).Q i)ᴴ = (mem c).Q i)
    (hQc : ∀ c ∈ getAllCircuits cps, ∀ i j, Commute ((mem c).Q i) ((mem c).Q j))
    (hl : ∀ c ∈ getAllCircuits cps, Levels (H c) (vs c) (ws c))
    {X : Op (sysDims (fun c => completeSub (bd c) (mem c) u (ws c) (vs c)) (getAllCircuits cps))}
    (h : sysHamiltonian (fun c => completeSub (bd c) (mem c) u (ws c) (vs c)) cps u = .ok X) :
    ∃ (M : ℕ → ℕ → ℝ) (V : Matrix (∀ s : Fin (getAllCircuits cps).length, Idx (d ((getAllCircuits cps).get s)))
        (Idx (sysDims (fun c => completeSub (bd c) (mem c) u (ws c) (vs c)) (getAllCircuits cps))) ℂ),
      capMatrix (fun c => completeSub (bd c) (mem c) u (ws c) (vs c)) cps = .ok M ∧ Vᴴ * V = 1 ∧ V * Vᴴ = 1 ∧
      X = Vᴴ * (((1 / (2 * Real.pi * u) : ℝ) : ℂ) • compositeHam cps bd d mem H vs ws u (fun x y =>
        interactionCoef (fun c => completeSub (bd c) (mem c) u (ws c) (vs c)) cps M (modeIdx _ _ x) (modeIdx _ _ y))) * V := by
  set sub := fun c => completeSub (bd c) (mem c) u (ws c) (vs c) with hsub
  set cs := getAllCircuits cps with hcs
  let V : Matrix (∀ s : Fin cs.length, Idx (d (cs.get s))) (Idx (sysDims sub cs)) ℂ :=
    ptens (ι := fun s : Fin cs.length => Idx (d (cs.get s))) (κ := fun s => Fin (sysDims sub cs s))
      fun s => eigMat (vs (cs.get s)) _
  have hmem : ∀ s : Fin cs.length, cs.get s ∈ cs := fun s => List.get_mem _ _
  have hk : ∀ s : Fin cs.length, sysDims sub cs s = (ws (cs.get s)).length := fun s => List.length_map ..
  have hiso : ∀ s : Fin cs.length, (eigMat (vs (cs.get s)) (sysDims sub cs s))ᴴ * eigMat (vs (cs.get s)) (sysDims sub cs s) = 1 :=
    fun s => eigMat_iso (hl _ (hmem s)) (hk s)
  have hiso' : ∀ s : Fin cs.length, eigMat (vs (cs.get s)) (sysDims sub cs s) * (eigMat (vs (cs.get s)) (sysDims sub cs s))ᴴ = 1 :=
    fun s => eigMat_iso' (hl _ (hmem s)) (hk s)
  have hVV : Vᴴ * V = 1 := ptens_iso _ hiso
  have hVV' : V * Vᴴ = 1 := ptens_iso' _ hiso'
  have hok : ∀ c ∈ cs, SubOK (sub c) := fun c hc => C68_build_ok _ _ _ _ (hC c hc) (hQ c hc)
  have hcomm : ∀ c ∈ cs, ∀ i < (sub c).n, ∀ j < (sub c).n, Commute ((sub c).Q i) ((sub c).Q j) := by
    intro c hc i hi j hj
    refine C68_complete_basis (bd c) (mem c) _ _ ?_ ?_ (hQc c hc) i j hi hj
    · intro x y
      exact (congrFun (congrFun (eigMat_iso (hl c hc) (k := (sub c).efreqs.length) (List.length_map ..)) x) y).trans
        (Matrix.one_apply ..)
    · rw [List.length_map, (hl c hc).len, (hl c hc).card]
  unfold sysHamiltonian at h
  cases hX : hInt sub cps u with
  | error e => rw [hX] at h; exact absurd h (by simp [Except.map])
  | ok Y =>
    rw [hX] at h
    simp only [Except.map] at h
    cases h
    obtain ⟨M, hM, hY⟩ := C68_quadratic_partial sub cps u hok hcomm hX
    refine ⟨M, V, hM, hVV, hVV', ?_⟩
    have hcharge : ∀ x : ModeIx sub cs, modeCharge sub cs x =
        Vᴴ * onSub (ι := fun s : Fin cs.length => Idx (d (cs.get s))) x.1 ((mem (cs.get x.1)).Q x.2) * V := by
      intro x
      have e := ptens_conj (ι := fun s : Fin cs.length => Idx (d (cs.get s))) (κ := fun s => Fin (sysDims sub cs s))
        (fun s => eigMat (vs (cs.get s)) _) hiso x.1 ((mem (cs.get x.1)).Q x.2)
      refine Eq.trans ?_ e.symm
      unfold modeCharge
      rw [opInSys_onSub]
      congr 1
      exact completeSub_Q u x.2 x.2.isLt
    have hprod : ∀ A B : Matrix (∀ s : Fin cs.length, Idx (d (cs.get s))) (∀ s : Fin cs.length, Idx (d (cs.get s))) ℂ,
        (Vᴴ * A * V) * (Vᴴ * B * V) = Vᴴ * (A * B) * V := by
      intro A B
      calc (Vᴴ * A * V) * (Vᴴ * B * V) = Vᴴ * A * (V * Vᴴ) * B * V := by simp only [Matrix.mul_assoc]
        _ = Vᴴ * (A * B) * V := by rw [hVV', Matrix.mul_one]; simp only [Matrix.mul_assoc]
    have hloc : hLocal sub cs = ((1 / (2 * Real.pi * u) : ℝ) : ℂ) •
        (Vᴴ * (∑ s, onSub (ι := fun s => Idx (d (cs.get s))) s (H (cs.get s))) * V) := by
      unfold hLocal
      rw [Matrix.mul_sum, Matrix.sum_mul, Finset.smul_sum]
      refine Finset.sum_congr rfl fun s _ => ?_
      have e := ptens_conj (ι := fun s : Fin cs.length => Idx (d (cs.get s))) (κ := fun s => Fin (sysDims sub cs s))
        (fun s => eigMat (vs (cs.get s)) _) hiso s (H (cs.get s))
      rw [e, eigMat_diag (hl _ (hmem s)) (hk s), ← onSub_smul, opInSys_onSub]
      congr 1
      ext a b
      rw [Matrix.smul_apply, Matrix.diagonal_apply, Matrix.diagonal_apply]
      by_cases hab : a = b
      · rw [if_pos hab, if_pos hab]
        have ha : (a : ℕ) < (ws (cs.get s)).length := by rw [← hk s]; exact a.isLt
        have : (sub (cs.get s)).efreqs.get a = (ws (cs.get s)).getD a 0 / (2 * Real.pi * u) := by
          show ((ws (cs.get s)).map fun w => w / (2 * Real.pi * u))[(a : ℕ)] = _
          rw [List.getElem_map, List.getD_eq_getElem?_getD, List.getElem?_eq_getElem ha, Option.getD_some]
        rw [this, smul_eq_mul]
        push_cast
        ring
      · rw [if_neg hab, if_neg hab, smul_zero]
    have hsum : ∑ x : ModeIx sub cs, ∑ y : ModeIx sub cs,
        ((interactionCoef sub cps M (modeIdx sub cs x) (modeIdx sub cs y) : ℝ) : ℂ) •
          (modeCharge sub cs x * modeCharge sub cs y) =
        Vᴴ * (∑ x : ModeIx sub cs, ∑ y : ModeIx sub cs,
          ((interactionCoef sub cps M (modeIdx sub cs x) (modeIdx sub cs y) : ℝ) : ℂ) •
          (onSub (ι := fun s : Fin cs.length => Idx (d (cs.get s))) x.1 ((mem (cs.get x.1)).Q x.2) *
            onSub (ι := fun s : Fin cs.length => Idx (d (cs.get s))) y.1 ((mem (cs.get y.1)).Q y.2))) * V := by
      rw [Matrix.mul_sum, Matrix.sum_mul]
      refine Finset.sum_congr rfl fun x _ => ?_
      rw [Matrix.mul_sum, Matrix.sum_mul]
      refine Finset.sum_congr rfl fun y _ => ?_
      rw [hcharge x, hcharge y, hprod, Matrix.mul_smul, Matrix.smul_mul]
    have halg : ∀ (c : ℂ) (A B : Matrix (∀ s : Fin cs.length, Idx (d (cs.get s))) (∀ s : Fin cs.length, Idx (d (cs.get s))) ℂ),
        c • (Vᴴ * A * V) + c • (1 / 2 : ℂ) • (Vᴴ * B * V) = Vᴴ * (c • (A + (1 / 2 : ℂ) • B)) * V := by
      intro c A B
      simp only [smul_add, Matrix.mul_add, Matrix.add_mul, Matrix.mul_smul, Matrix.smul_mul]
    rw [hloc, hY]
    refine Eq.trans ?_ (halg _ _ _)
    rw [← hsum]

end complete

end SQ
