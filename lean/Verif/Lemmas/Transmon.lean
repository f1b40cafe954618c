import Verif.Spec.Transmon
import Verif.Lemmas.ExampleCircuit
import Verif.Lemmas.Fluxonium

/-! # Construction of circuits of parallel junctions and capacitors -/

namespace SQ
open Matrix Spec

/-- Gram-Schmidt on a single entry that is not tiny -/
theorem gs_entry {argsort : ArgsortFn} (ha : ArgsortSpec argsort) {m q : ℕ} (hm : m = 1)
    (hq : q = 1) (A : Matrix (Fin m) (Fin q) ℝ) {x : ℝ} (hA : ∀ i j, A i j = x) (hx : 2e-15 ≤ |x|) :
    (independentRows argsort A).2.length = q ∧ ∀ i, i ∈ (independentRows argsort A).1 := by
  subst hm hq
  have hp : argsort 1 (fun i => - vnorm (A i)) = [0] := by
    have := ha.perm 1 (fun i => - vnorm (A i))
    rw [show List.finRange 1 = [0] by decide] at this
    exact List.perm_singleton.1 this
  unfold independentRows
  rw [hp]
  simp only [List.foldl_cons, List.foldl_nil]
  have hbig : ∃ c, |gsResidual [] (normRow (A 0)) c| > accGS := by
    refine ⟨0, ?_⟩
    have : gsResidual [] (normRow (A 0)) 0 = x / (|x| + 1e-9) := by
      simp [gsResidual, normRow, vnorm, hA, Real.sqrt_sq_eq_abs]
    rw [this, abs_div, abs_of_pos (a := |x| + 1e-9) (by positivity)]
    unfold accGS
    rw [gt_iff_lt, lt_div_iff₀ (by positivity)]
    nlinarith
  unfold gsStep
  simp only
  rw [if_pos hbig]
  simp

/-- the only charge column of a one-node circuit without inductors -/
theorem chargeCols_one {omega : Fin 1 → ℝ} (h : omega 0 = 0) : (chargeCols omega).length = 1 := by
  rw [chargeCols_len (m := 0) (by omega)]
  intro j
  fin_cases j
  simp [h]

theorem kept_one {sv : SvdFn} (hsv : SvdSpec sv) (W : Matrix (Fin 1) (Fin 1) ℝ) (hW : W 0 0 = 1) :
    keptCols sv Wᵀ = [0] := by
  rw [keptCols_eq_take hsv]
  have h1 : nonzeroCols Wᵀ = [0] := by
    unfold nonzeroCols
    have : List.finRange 1 = [0] := by decide
    rw [this, List.filter_cons, if_pos, List.filter_nil]
    simp only [decide_eq_true_eq]
    exact ⟨0, by simp [hW]⟩
  have h2 : Wᵀ.rank = 1 := by
    rw [rank_transpose]
    have : LinearIndependent ℝ W.row := by
      rw [linearIndependent_unique_iff]
      intro h
      have := congrFun h 0
      simp [Matrix.row, hW] at this
    rw [this.rank_matrix]; simp
  rw [h1, h2]; rfl

theorem inv_entry {q : ℕ} (hq : q = 1) (F : Matrix (Fin q) (Fin q) ℝ) {x : ℝ} (hx : x ≠ 0) (h : ∀ i j, F i j = x) :
    npInv F = .ok (Matrix.of fun _ _ => x⁻¹) := by
  subst hq
  have hF : F * (Matrix.of fun _ _ => x⁻¹) = 1 := by
    ext i j
    fin_cases i; fin_cases j
    simp [mul_apply, h, hx]
  unfold npInv
  rw [if_neg, inv_eq_right_inv hF]
  intro h0
  have := congrArg det hF
  rw [det_mul, h0] at this
  simp at this

variable {sv : SvdFn} {argsort : ArgsortFn}

/-- the second transformation divides the mode by its coupling -/
theorem choose_one (hsv : SvdSpec sv) (ha : ArgsortSpec argsort) (draws : Draws) (numJ : ℕ) (hJ : numJ ≠ 0)
    (W : Matrix (Fin 1) (Fin 1) ℝ) (hW : W 0 0 = 1) (S1 : Matrix (Fin 1) (Fin 1) ℝ) {x : ℝ} (hS : S1 0 0 = x)
    (hx : 2e-15 ≤ |x|) (fuel : ℕ) (t : Trans 1 1) (ht : t.omega 0 = 0) :
    t2Choose sv argsort draws numJ W S1 (fuel + 2) 0 t = some (.ok (Matrix.of fun _ _ => x⁻¹, 0)) := by
  have hx0 : x ≠ 0 := by
    rintro rfl
    norm_num at hx
  have hq := chargeCols_one ht
  have hm : (keptCols sv Wᵀ).length = 1 := by rw [kept_one hsv W hW]; rfl
  have hA : ∀ i j, wCharge sv W S1 t.omega i j = x := by
    intro i j
    unfold wCharge
    rw [of_apply]
    generalize (keptCols sv Wᵀ).get i = a
    generalize (chargeCols t.omega).get j = b
    fin_cases a; fin_cases b
    simp [mul_apply, hW, hS]
  obtain ⟨h1, h2⟩ := gs_entry ha hm hq _ hA hx
  have hgs := gsInv_rows argsort (wCharge sv W S1 t.omega)
  unfold t2Choose
  simp only
  rw [if_pos ⟨by rw [hq]; exact one_ne_zero, hJ⟩]
  generalize wCharge sv W S1 t.omega = A at *
  have hk0 : ¬ ([] : List (Fin (chargeCols t.omega).length → ℝ)).length = (chargeCols t.omega).length := by
    rw [hq]; simp
  have hstep : basisStep argsort draws A ⟨[], [], [], 0⟩ =
      ⟨(independentRows argsort A).1, [], (independentRows argsort A).2, 0⟩ := by
    unfold basisStep; simp
  have hloop : basisLoop argsort draws A (fuel + 2) ⟨[], [], [], 0⟩ =
      some ⟨(independentRows argsort A).1, [], (independentRows argsort A).2, 0⟩ := by
    rw [show fuel + 2 = (fuel + 1) + 1 from rfl, basisLoop, if_neg hk0, hstep]
    rw [basisLoop, if_pos h1]
  rw [hloop]
  simp only
  have hl : ((independentRows argsort A).1.map (fun i => A i) ++ []).length =
      (chargeCols t.omega).length := by
    simp only [List.append_nil, List.length_map]
    rw [hgs.len, h1]
  have hsq : ∃ F, squareOf ((independentRows argsort A).1.map (fun i => A i) ++ []) = .ok F ∧ ∀ i j, F i j = x := by
    unfold squareOf
    rw [dif_pos hl]
    refine ⟨_, rfl, ?_⟩
    intro i j
    have hmem := List.get_mem ((independentRows argsort A).1.map (fun i => A i) ++ [])
      (i.cast hl.symm)
    obtain ⟨k, -, hk⟩ := List.mem_map.1 ((List.mem_append.1 hmem).resolve_right (by simp))
    change ((independentRows argsort A).1.map (fun i => A i) ++ []).get (i.cast hl.symm) j = x
    rw [← hk, hA]
  obtain ⟨F, hF, hFx⟩ := hsq
  rw [hF]
  simp only
  rw [inv_entry hq F hx0 hFx]
  simp only
  congr 2
  rw [Prod.mk.injEq]
  refine ⟨?_, rfl⟩
  ext i j
  unfold blockS2
  rw [of_apply, dif_pos ⟨by omega, by omega⟩]
  rfl

/-- the result of all transformations: nothing but the inverse capacitance is left -/
noncomputable def oneFinal (C : ℝ) : Trans 1 1 where
  cInv := Matrix.of fun _ _ => C⁻¹
  l := 0
  w := Matrix.of fun _ _ => 1
  S := 1
  R := 1
  omega := fun _ => 0

theorem one_result (hsv : SvdSpec sv) (ha : ArgsortSpec argsort) (argmax : ArgmaxFn 1) (draws : Draws) (numJ : ℕ)
    (hJ : numJ ≠ 0) (lib : NumLib 1) {C : ℝ} (hC : 0 < C) (hC' : C ≤ 1e29)
    (hlib : LibSpec lib (Matrix.of fun _ _ => C) 0) (W : Matrix (Fin 1) (Fin 1) ℝ) (hW : W 0 0 = 1) (fuel : ℕ) :
    transformHamil lib sv argsort argmax draws numJ (Matrix.of fun _ _ => C) 0 W (fuel + 3)
      (initTrans (Matrix.of fun _ _ => C) 0 W) = some (.ok (oneFinal C)) := by
  classical
  have hpd : (Matrix.of fun _ _ => C : Matrix (Fin 1) (Fin 1) ℝ).PosDef := fx_posdef hC
  have hL0 : (0 : Matrix (Fin 1) (Fin 1) ℝ).IsHermitian := isHermitian_zero
  set Cm : Matrix (Fin 1) (Fin 1) ℝ := Matrix.of fun _ _ => C with hCm
  -- the scale is one
  have hM0 : scaledL lib Cm 0 = 0 := by
    unfold scaledL
    have h := hlib.sqrtL
    have h00 := congrFun (congrFun h.2 0) 0
    simp only [mul_apply, Fin.sum_univ_one, Matrix.zero_apply, mul_self_eq_zero] at h00
    have : lib.sqrtm 0 = 0 := by
      ext i j; fin_cases i; fin_cases j; exact h00
    rw [this, Matrix.zero_mul]
  have hD0 : lib.svdD (scaledL lib Cm 0) 0 = 0 := by
    obtain ⟨U, hU, hV, hM⟩ := hlib.svd
    have h1 := congrArg det hM
    rw [det_mul, det_mul, det_diagonal, Fin.prod_univ_one] at h1
    have hUd : det U ≠ 0 := by
      intro h0; have := congrArg det hU; rw [det_mul, h0] at this; simp at this
    have hVd : det (lib.svdVh (scaledL lib Cm 0)) ≠ 0 := by
      intro h0; have := congrArg det hV; rw [det_mul, h0] at this; simp at this
    have h2 : det (scaledL lib Cm 0) = 0 := by rw [hM0]; simp
    rw [h2] at h1
    rcases mul_eq_zero.1 h1.symm with h | h
    · rcases mul_eq_zero.1 h with h | h
      · exact absurd h hUd
      · exact h
    · exact absurd h hVd
  have hvm : vmax (lib.svdD (scaledL lib Cm 0)) = 0 := by
    unfold vmax
    rw [ciSup_unique]
    exact hD0
  have hsc : t1Scale (lib.svdD (scaledL lib Cm 0)) (lib.eigvals 0) = (fun _ => 1, 0) := by
    unfold t1Scale
    rw [if_pos hvm]
  have hcap := matS1_cap hpd hL0 hlib
  have hsD : scaleD lib Cm 0 = fun _ => 1 := by unfold scaleD; rw [hsc]
  set x := matS1 lib Cm 0 0 0 with hx
  have hxx : x * C * x = 1 := by
    have := congrFun (congrFun hcap 0) 0
    rw [hsD] at this
    simpa [mul_apply, hCm] using this
  have hx0 : x ≠ 0 := by rintro h; rw [h] at hxx; simp at hxx
  have hx2 : x ^ 2 = C⁻¹ := by
    have : x ^ 2 * C = 1 := by linarith [hxx]
    exact eq_inv_of_mul_eq_one_left this
  have hxbig : 2e-15 ≤ |x| := by
    rw [← Real.sqrt_sq_eq_abs, hx2]
    apply Real.le_sqrt_of_sq_le
    rw [le_inv_comm₀ (by norm_num) hC]
    refine hC'.trans ?_
    norm_num
  -- after the first transformation
  have hS : (afterT1 lib Cm 0 W).S = Matrix.of fun _ _ => x := by
    rw [afterT1_S]; ext i j; fin_cases i; fin_cases j; rfl
  have hinv : (matS1 lib Cm 0)⁻¹ = Matrix.of fun _ _ => x⁻¹ := by
    apply inv_eq_right_inv
    ext i j; fin_cases i; fin_cases j
    simp [mul_apply, ← hx, hx0]
  have hR : (afterT1 lib Cm 0 W).R = Matrix.of fun _ _ => x⁻¹ := by
    rw [afterT1_R, hinv]; rfl
  have hw : (afterT1 lib Cm 0 W).w = Matrix.of fun _ _ => x := by
    rw [afterT1_w, hS]; ext i j; fin_cases i; fin_cases j; simp [mul_apply, hW]
  have hc : (afterT1 lib Cm 0 W).cInv = 1 := by
    rw [afterT1_cInv hpd hL0 hlib, hsD]; simp
  have hst : singStart lib Cm 0 = 0 := by unfold singStart; rw [hsc]
  have hl : (afterT1 lib Cm 0 W).l = 0 := by
    rw [afterT1_l hpd hL0 hlib, hst]; simp
  have ho : (afterT1 lib Cm 0 W).omega = fun _ => 0 := by
    funext i
    rw [afterT1_omega hpd hL0 hlib, hst]; simp
  have hch := choose_one (sv := sv) (argsort := argsort) hsv ha draws numJ hJ W hW (matS1 lib Cm 0) hx.symm hxbig fuel
    (afterT1 lib Cm 0 W) (by rw [ho])
  have hni : npInv (Matrix.of fun _ _ => x⁻¹ : Matrix (Fin 1) (Fin 1) ℝ)ᵀ = .ok (Matrix.of fun _ _ => x) := by
    have := inv_entry rfl (Matrix.of fun _ _ => x⁻¹ : Matrix (Fin 1) (Fin 1) ℝ)ᵀ (x := x⁻¹) (inv_ne_zero hx0) (by simp)
    rw [this, inv_inv]
  have hround : ∀ w : Matrix (Fin 1) (Fin 1) ℝ, w 0 0 = 1 → roundZeroOne numJ (fun _ => 0) w = Matrix.of fun _ _ => 1 := by
    intro w hw1
    ext i j
    fin_cases i; fin_cases j
    unfold roundZeroOne accGS
    simp [hJ, hw1]
    norm_num
  have hws : ((Matrix.of fun _ _ => x : Matrix (Fin 1) (Fin 1) ℝ) * (Matrix.of fun _ _ => x⁻¹ : Matrix (Fin 1) (Fin 1) ℝ)) 0 0 = 1 := by
    simp [mul_apply, hx0]
  have hsucc : gsSuccessful numJ (afterT1 lib Cm 0 W) (Matrix.of fun _ _ => x⁻¹) := by
    intro j _ i
    rw [ho, hw, hround _ hws]
    simp
  have ht2 : t2 sv argsort draws numJ W (matS1 lib Cm 0) (fuel + 3) 0 (afterT1 lib Cm 0 W) =
      some (.ok (oneFinal C)) := by
    rw [show fuel + 3 = (fuel + 2) + 1 from rfl, t2, hch]
    simp only
    rw [hni]
    simp only
    rw [if_pos hsucc]
    have : ({ applyT (Matrix.of fun _ _ => x⁻¹) (Matrix.of fun _ _ => x) (afterT1 lib Cm 0 W) with
        w := roundZeroOne numJ (applyT (Matrix.of fun _ _ => x⁻¹) (Matrix.of fun _ _ => x) (afterT1 lib Cm 0 W)).omega
          (applyT (Matrix.of fun _ _ => x⁻¹) (Matrix.of fun _ _ => x) (afterT1 lib Cm 0 W)).w } : Trans 1 1) =
        oneFinal C := by
      generalize afterT1 lib Cm 0 W = t at *
      obtain ⟨a, b, c, d, e, f⟩ := t
      simp only at hS hR hw hc hl ho
      subst hS hR hw hc hl ho
      simp only [applyT, oneFinal, ne_eq, one_ne_zero, not_false_iff, if_true, Trans.mk.injEq]
      refine ⟨?_, ?_, hround _ hws, ?_, ?_, trivial⟩
      · ext i j; fin_cases i; fin_cases j; simp [mul_apply, ← hx2, pow_two]
      · simp
      · ext i j; fin_cases i; fin_cases j; simp [mul_apply, hx0]
      · ext i j; fin_cases i; fin_cases j; simp [mul_apply, hx0]
    exact congrArg (fun t => some (Except.ok t)) this
  have ht3 : t3 argmax (oneFinal C) = oneFinal C := by
    have hd : t3Diag argmax (oneFinal C) = fun _ => 1 := by
      funext j
      unfold t3Diag
      simp [oneFinal]
    have he : t3Elim (oneFinal C) = oneFinal C := by
      have : (t3Elim (oneFinal C)).w = (oneFinal C).w := by
        ext i j
        change (if _ ∧ _ then _ else _) = _
        rw [if_neg]
        rintro ⟨h, -⟩
        exact h rfl
      have e2 : t3Elim (oneFinal C) = { oneFinal C with w := (t3Elim (oneFinal C)).w } := rfl
      rw [e2, this]
    rw [t3_eq, he, hd]
    simp [applyT, oneFinal]
  unfold transformHamil
  simp only
  rw [if_pos one_ne_zero]
  have : t2 sv argsort draws numJ W (t1S (lib.sqrtm Cm)
        (lib.svdVh (lib.sqrtm 0 * (lib.sqrtm Cm)⁻¹))
        (t1Scale (lib.svdD (lib.sqrtm 0 * (lib.sqrtm Cm)⁻¹)) (lib.eigvals 0)).1)
        (fuel + 3) 0 (setOmega (t1 lib Cm 0 (initTrans Cm 0 W))) = some (.ok (oneFinal C)) := ht2
  rw [this]
  simp only
  rw [ht3]

end SQ
