import Verif.Lemmas.ConstructT2
import Verif.Props.Flux3

/-!
# A concrete circuit taken through the whole coordinate transformation

Node 1: inductor (1 H, 1 F in parallel) to ground; node 2: junction (1 F in parallel) to ground.
Used to show that the hypotheses of the transformation theorems can be met, and as a counterexample
for mode indexing after removal of uncoupled modes.
-/

namespace SQ
open Matrix Spec

/-- element 0: 1 H inductor, element 2: junction, both with the 1 F capacitor 1 attached -/
def lcObjs : Objs where
  elem := fun i =>
    if i = 0 then ⟨.ind, 1, 1, [], false, true⟩
    else if i = 2 then ⟨.jj, 5, 1, [], true, true⟩
    else ⟨.cap, 1, 0, [], false, true⟩
  loopValue := fun _ => 0
  loopReqGrad := fun _ => false
  loopIsLeaf := fun _ => true

/-- `{(0, 1): [inductor], (0, 2): [junction]}` -/
def lcEls : Elements := [((0, 1), [0]), ((0, 2), [2])]

theorem lcEls_valid : ValidElements 2 lcEls := by
  intro p hp
  simp [lcEls] at hp
  rcases hp with rfl | rfl <;> simp [ValidEdge]

theorem lcEls_ind : ∀ p ∈ lcEls, ∀ i ∈ p.2, (lcObjs.elem i).kind = .ind →
    (lcObjs.elem i).value ≠ 0 := by
  intro p hp i hi hk
  simp [lcEls] at hp
  rcases hp with rfl | rfl <;> simp at hi <;> subst hi <;> simp [lcObjs] at hk ⊢

theorem lcEls_caps : PositiveCaps lcObjs lcEls := by
  intro q hq
  simp [placements, lcEls] at hq
  rcases hq with rfl | rfl <;> simp [placedCap, lcObjs]

theorem lcEls_inds : PositiveInds lcObjs lcEls := by
  intro q hq hk
  simp [placements, lcEls] at hq
  rcases hq with rfl | rfl <;> simp [lcObjs] at hk ⊢

theorem lcEls_ground : GroundConnected 2 lcEls := by
  intro k hk
  have j1 : Joined lcEls 1 0 := ⟨((0,1),[0]), by simp [lcEls], by simp, by simp⟩
  have j2 : Joined lcEls 2 0 := ⟨((0,2),[2]), by simp [lcEls], by simp, by simp⟩
  interval_cases k
  · exact .refl
  · exact .single j1
  · exact .single j2

/-- its susceptance matrix -/
noncomputable def lcL : Matrix (Fin 2) (Fin 2) ℝ := diagonal ![1, 0]

/-- the construction of the matrices succeeds -/
theorem lc_traverse (torch : Bool) (fd : FluxDist) (h : LoopId → LoopObj) :
    numNodes lcEls = .ok 2 ∧ ∃ a, traverse torch fd lcObjs 2 h lcEls = .ok a ∧ a.cMat = 1 ∧
      a.lMat = lcL ∧ a.wMat = [[0, 1]] ∧ a.numJunWithoutInd = 1 := by
  refine ⟨by decide, ?_⟩
  obtain ⟨a, ha⟩ := buildEdges_succeeds torch fd lcEls_valid lcEls_ind (initAcc 2 h)
  have ha' : traverse torch fd lcObjs 2 h lcEls = .ok a := ha
  obtain ⟨h1, h2⟩ := traverse_mats lcEls_valid ha'
  have h3 := (traverse_inv lcEls_valid ha').2
  refine ⟨a, ha', ?_, ?_, ?_, ?_⟩
  · rw [h1]
    ext i j
    fin_cases i <;> fin_cases j <;>
      simp [placements, lcEls, placedCap, lcObjs, eMat, incidence]
  · rw [h2]
    ext i j
    fin_cases i <;> fin_cases j <;>
      simp [placements, lcEls, placedInvInd, lcObjs, eMat, incidence, lcL]
  · rw [h3]
    decide
  · rw [traverse_numJ ha']
    decide

/-- routines that are right on the matrices of this circuit -/
noncomputable def lcLib : NumLib 2 where
  sqrtm := id
  svdD := fun M i => M i i
  svdVh := fun _ => 1
  eigvals := fun M i => M i i

theorem lcL_psd : lcL.PosSemidef := by
  unfold lcL
  rw [posSemidef_diagonal_iff]
  intro i; fin_cases i <;> simp

theorem lc_scaled : scaledL lcLib 1 lcL = lcL := by
  change lcL * (1 : Matrix (Fin 2) (Fin 2) ℝ)⁻¹ = lcL
  simp

theorem lcLib_spec : LibSpec lcLib 1 lcL where
  sqrtC := ⟨PosSemidef.one, Matrix.one_mul 1⟩
  sqrtL := ⟨lcL_psd, by
    change lcL * lcL = lcL
    unfold lcL
    rw [diagonal_mul_diagonal]
    congr 1; funext i; fin_cases i <;> simp⟩
  svd := by
    rw [lc_scaled]
    refine ⟨1, by simp, by simp [lcLib], ?_⟩
    simp [lcLib, lcL]
  svdSorted := by
    rw [lc_scaled]
    intro i j hij
    fin_cases i <;> fin_cases j <;> simp [lcLib, lcL] at hij ⊢
  svdNonneg := by
    rw [lc_scaled]
    intro i; fin_cases i <;> simp [lcLib, lcL]
  eig := by
    change (diagonal ![(1 : ℝ), 0]).charpoly.roots = _
    rw [charpoly_diagonal]
    have : (fun i => lcLib.eigvals lcL i) = ![1, 0] := by
      funext i; fin_cases i <;> simp [lcLib, lcL]
    rw [show lcLib.eigvals lcL = ![1, 0] from this, Polynomial.roots_prod]
    · simp [Polynomial.roots_X_sub_C]
    · rw [Finset.prod_ne_zero_iff]
      intro i _
      exact Polynomial.X_sub_C_ne_zero _

theorem lc_vmax : vmax (lcLib.eigvals lcL) = 1 := by
  have : lcLib.eigvals lcL = ![1, 0] := by
    funext i; fin_cases i <;> simp [lcLib, lcL]
  rw [this]
  unfold vmax
  apply le_antisymm
  · apply ciSup_le; intro i; fin_cases i <;> simp
  · exact le_ciSup (f := ![(1 : ℝ), 0]) (Finite.bddAbove_range _) 0

theorem lcLib_gap : SpectralGap lcLib lcL := by
  intro i hi
  have h1 : (⨆ k, lcLib.eigvals lcL k) = 1 := lc_vmax
  rw [h1]
  fin_cases i
  · simp [lcLib, lcL]; norm_num
  · simp [lcLib, lcL] at hi

theorem lc_numSings : numSings (lcLib.eigvals lcL) = 1 := by
  classical
  unfold numSings
  rw [lc_vmax]
  have : (Finset.univ.filter (fun i : Fin 2 => lcLib.eigvals lcL i / 1 < accSing)) = {1} := by
    ext i
    fin_cases i <;> simp [lcLib, lcL, accSing] <;> norm_num
  have h2 := congrArg Finset.card this
  rw [Finset.card_singleton] at h2
  convert h2

theorem lc_scale : t1Scale (lcLib.svdD (scaledL lcLib 1 lcL)) (lcLib.eigvals lcL) =
    (fun _ => 1, 1) := by
  have hD : lcLib.svdD (scaledL lcLib 1 lcL) = lcLib.eigvals lcL := by rw [lc_scaled]; rfl
  unfold t1Scale
  rw [hD, if_neg (by rw [lc_vmax]; exact one_ne_zero), lc_numSings, lc_vmax]
  simp only [Prod.mk.injEq]
  refine ⟨?_, trivial⟩
  funext i
  fin_cases i <;> simp [lcLib, lcL]

theorem lc_S1 : matS1 lcLib 1 lcL = 1 := by
  unfold matS1 scaleD
  rw [lc_scale]
  change ((1 : Matrix (Fin 2) (Fin 2) ℝ)⁻¹ * (1 : Matrix (Fin 2) (Fin 2) ℝ)ᵀ *
    diagonal (fun _ => √1)) = 1
  simp

theorem lc_start : singStart lcLib 1 lcL = 1 := by
  unfold singStart; rw [lc_scale]

/-- its junction matrix -/
def lcW : Matrix (Fin 1) (Fin 2) ℝ := !![0, 1]

/-- the frequencies: 1 and 0 -/
theorem lc_omega : (afterT1 lcLib 1 lcL lcW).omega = ![1, 0] := by
  funext i
  rw [afterT1_omega PosDef.one lcL_psd.isHermitian lcLib_spec, lc_start, lc_scaled]
  fin_cases i <;> simp [lcLib, lcL]

theorem lc_kept {sv : SvdFn} (hsv : SvdSpec sv) : keptCols sv lcWᵀ = [0] := by
  rw [keptCols_eq_take hsv]
  have h1 : nonzeroCols lcWᵀ = [0] := by
    unfold nonzeroCols
    have : List.finRange 1 = [0] := by decide
    rw [this, List.filter_cons, if_pos, List.filter_nil]
    simp only [decide_eq_true_eq]
    exact ⟨1, by simp [lcW]⟩
  have h2 : lcWᵀ.rank = 1 := by
    rw [rank_transpose]
    have : LinearIndependent ℝ lcW.row := by
      rw [linearIndependent_unique_iff]
      intro h
      have := congrFun h 1
      simp [lcW, Matrix.row] at this
    rw [this.rank_matrix]; simp
  rw [h1, h2]; rfl

/-- Gram-Schmidt on a single row with entry one -/
theorem gs_single {argsort : ArgsortFn} (ha : ArgsortSpec argsort) {m q : ℕ} (hm : m = 1)
    (hq : q = 1) (A : Matrix (Fin m) (Fin q) ℝ) (hA : ∀ i j, A i j = 1) :
    (independentRows argsort A).2.length = q ∧ ∀ i, i ∈ (independentRows argsort A).1 := by
  subst hm hq
  have hp : argsort 1 (fun i => - vnorm (A i)) = [0] := by
    have := ha.perm 1 (fun i => - vnorm (A i))
    rw [show List.finRange 1 = [0] by decide] at this
    exact List.perm_singleton.1 this
  unfold independentRows
  rw [hp]
  simp only [List.foldl_cons, List.foldl_nil]
  have hbig : ∃ c, |gsResidual [] (normRow (A 0)) c| > accGS := by
    refine ⟨0, ?_⟩
    have : gsResidual [] (normRow (A 0)) 0 = 1 / (1 + 1e-9) := by
      simp [gsResidual, normRow, vnorm, hA]
    rw [this]
    unfold accGS
    rw [abs_of_pos (by positivity)]
    norm_num
  unfold gsStep
  simp only
  rw [if_pos hbig]
  simp

theorem one_of_all_ones {q : ℕ} (hq : q = 1) (F : Matrix (Fin q) (Fin q) ℝ) (h : ∀ i j, F i j = 1) :
    F = 1 := by
  subst hq
  ext i j
  rw [h, Subsingleton.elim i j, one_apply_eq]

theorem blockS2_one {k n : ℕ} (hk : k ≤ n) :
    blockS2 hk (1 : Matrix (Fin k) (Fin k) ℝ) = 1 := by
  ext i j
  unfold blockS2
  rw [of_apply]
  by_cases h : n - k ≤ (i : ℕ) ∧ n - k ≤ (j : ℕ)
  · rw [dif_pos h, one_apply, one_apply]
    congr 1
    rw [Fin.mk.injEq, Fin.ext_iff]
    apply propext; omega
  · rw [dif_neg h, one_apply]

theorem lc_charge_len : (chargeCols (afterT1 lcLib 1 lcL lcW).omega).length = 1 := by
  rw [chargeCols_len (m := 1) (by norm_num)]
  rw [lc_omega]
  intro j; fin_cases j <;> simp

theorem lc_wCharge {i : Fin 1} (j : Fin (chargeCols (afterT1 lcLib 1 lcL lcW).omega).length) :
    (lcW * matS1 lcLib 1 lcL) i ((chargeCols (afterT1 lcLib 1 lcL lcW).omega).get j) = 1 := by
  rw [lc_S1, Matrix.mul_one]
  have h1 : (chargeCols (afterT1 lcLib 1 lcL lcW).omega).get j = 1 := by
    have := (mem_chargeCols _ _).1 (List.get_mem (chargeCols (afterT1 lcLib 1 lcL lcW).omega) j)
    generalize (chargeCols (afterT1 lcLib 1 lcL lcW).omega).get j = x at this ⊢
    rw [lc_omega] at this
    fin_cases x
    · simp at this
    · rfl
  rw [h1, Subsingleton.elim i 0]
  simp [lcW]

theorem lc_faithful {sv : SvdFn} (hsv : SvdSpec sv) {argsort : ArgsortFn} (ha : ArgsortSpec argsort)
    (draws : Draws) : SelectionFaithful sv argsort draws lcW (matS1 lcLib 1 lcL)
      (afterT1 lcLib 1 lcL lcW).omega := by
  have hm : (keptCols sv lcWᵀ).length = 1 := by rw [lc_kept hsv]; rfl
  have hA : ∀ i j, wCharge sv lcW (matS1 lcLib 1 lcL) (afterT1 lcLib 1 lcL lcW).omega i j = 1 :=
    fun i j => lc_wCharge j
  obtain ⟨h1, h2⟩ := gs_single ha hm lc_charge_len _ hA
  refine ⟨fun i => Submodule.subset_span ⟨⟨0, by omega⟩, h2 _, ?_⟩, Or.inl h1⟩
  funext j
  rw [hA]
  exact (lc_wCharge j).symm

/-- The second transformation of this circuit: the charge mode already has coupling one. -/
theorem lc_choose {sv : SvdFn} (hsv : SvdSpec sv) {argsort : ArgsortFn} (ha : ArgsortSpec argsort)
    (draws : Draws) (fuel : ℕ) :
    t2Choose sv argsort draws 1 lcW (matS1 lcLib 1 lcL) (fuel + 2) 0 (afterT1 lcLib 1 lcL lcW) =
      some (.ok (1, 0)) := by
  have hq := lc_charge_len
  have hm : (keptCols sv lcWᵀ).length = 1 := by rw [lc_kept hsv]; rfl
  have hA : ∀ i j, wCharge sv lcW (matS1 lcLib 1 lcL) (afterT1 lcLib 1 lcL lcW).omega i j = 1 :=
    fun i j => lc_wCharge j
  obtain ⟨h1, h2⟩ := gs_single ha hm hq _ hA
  have hgs := gsInv_rows argsort (wCharge sv lcW (matS1 lcLib 1 lcL) (afterT1 lcLib 1 lcL lcW).omega)
  unfold t2Choose
  simp only
  rw [if_pos ⟨by rw [hq]; exact one_ne_zero, one_ne_zero⟩]
  generalize wCharge sv lcW (matS1 lcLib 1 lcL) (afterT1 lcLib 1 lcL lcW).omega = A at *
  have hk0 : ¬ ([] : List (Fin (chargeCols (afterT1 lcLib 1 lcL lcW).omega).length → ℝ)).length =
      (chargeCols (afterT1 lcLib 1 lcL lcW).omega).length := by rw [hq]; simp
  have hstep : basisStep argsort draws A ⟨[], [], [], 0⟩ =
      ⟨(independentRows argsort A).1, [], (independentRows argsort A).2, 0⟩ := by
    unfold basisStep; simp
  have hloop : basisLoop argsort draws A (fuel + 2) ⟨[], [], [], 0⟩ =
      some ⟨(independentRows argsort A).1, [], (independentRows argsort A).2, 0⟩ := by
    rw [show fuel + 2 = (fuel + 1) + 1 from rfl, basisLoop, if_neg hk0, hstep]
    rw [basisLoop, if_pos h1]
  rw [hloop]
  simp only
  have hl : ((independentRows argsort A).1.map (fun i => A i) ++ []).length =
      (chargeCols (afterT1 lcLib 1 lcL lcW).omega).length := by
    simp only [List.append_nil, List.length_map]
    rw [hgs.len, h1]
  have hsq : squareOf ((independentRows argsort A).1.map (fun i => A i) ++ []) = .ok 1 := by
    unfold squareOf
    rw [dif_pos hl]
    congr 1
    apply one_of_all_ones hq
    intro i j
    have hmem := List.get_mem ((independentRows argsort A).1.map (fun i => A i) ++ [])
      (i.cast hl.symm)
    obtain ⟨k, -, hk⟩ := List.mem_map.1 ((List.mem_append.1 hmem).resolve_right (by simp))
    change ((independentRows argsort A).1.map (fun i => A i) ++ []).get (i.cast hl.symm) j = 1
    rw [← hk, hA]
  rw [hsq]
  simp only
  have hinv : npInv (1 : Matrix (Fin (chargeCols (afterT1 lcLib 1 lcL lcW).omega).length)
      (Fin (chargeCols (afterT1 lcLib 1 lcL lcW).omega).length) ℝ) = .ok 1 := by
    unfold npInv
    rw [if_neg (by simp), inv_one]
  rw [hinv]
  simp only [blockS2_one]

/-- the circuit after all transformations: nothing needs to change, the first mode is harmonic and
uncoupled, the second a charge mode with coupling one -/
noncomputable def lcFinal : Trans 1 2 where
  cInv := 1
  l := lcL
  w := lcW
  S := 1
  R := 1
  omega := ![1, 0]

theorem lc_afterT1 : afterT1 lcLib 1 lcL lcW = lcFinal := by
  have hS := (afterT1_S lcLib 1 lcL lcW).trans lc_S1
  have hR : (afterT1 lcLib 1 lcL lcW).R = 1 := by rw [afterT1_R, lc_S1]; simp
  have hw : (afterT1 lcLib 1 lcL lcW).w = lcW := by rw [afterT1_w, hS, Matrix.mul_one]
  have hc : (afterT1 lcLib 1 lcL lcW).cInv = 1 := by
    rw [afterT1_cInv PosDef.one lcL_psd.isHermitian lcLib_spec]
    unfold scaleD
    rw [lc_scale]; simp
  have hl : (afterT1 lcLib 1 lcL lcW).l = lcL := by
    rw [afterT1_l PosDef.one lcL_psd.isHermitian lcLib_spec, lc_start, lc_scaled]
    unfold scaleD
    rw [lc_scale]
    unfold lcL
    congr 1
    funext i
    fin_cases i <;> simp [lcLib]
  have ho := lc_omega
  generalize afterT1 lcLib 1 lcL lcW = t at *
  obtain ⟨a, b, c, d, e, f⟩ := t
  simp only at hS hR hw hc hl ho
  subst hS hR hw hc hl ho
  rfl

theorem lc_result {sv : SvdFn} (hsv : SvdSpec sv) {argsort : ArgsortFn} (ha : ArgsortSpec argsort)
    (argmax : ArgmaxFn 1) (draws : Draws) (fuel : ℕ) :
    transformHamil lcLib sv argsort argmax draws 1 1 lcL lcW (fuel + 3) (initTrans 1 lcL lcW) =
      some (.ok lcFinal) := by
  classical
  have hround : roundZeroOne 1 ![1, 0] lcW = lcW := by
    ext i j
    unfold roundZeroOne accGS
    fin_cases i; fin_cases j <;> simp [lcW] <;> norm_num
  have hsucc : gsSuccessful 1 lcFinal 1 := by
    intro j hj i
    change ¬ (|roundZeroOne 1 ![1, 0] (lcW * 1) i j| ≠ 0 ∧ |roundZeroOne 1 ![1, 0] (lcW * 1) i j| ≠ 1)
    rw [Matrix.mul_one, hround]
    fin_cases i; fin_cases j <;> simp [lcW]
  have ht2 : t2 sv argsort draws 1 lcW (matS1 lcLib 1 lcL) (fuel + 3) 0 (afterT1 lcLib 1 lcL lcW) =
      some (.ok lcFinal) := by
    have hch := lc_choose hsv ha draws fuel
    rw [lc_afterT1] at hch ⊢
    rw [show fuel + 3 = (fuel + 2) + 1 from rfl, t2, hch]
    simp only
    have hni : npInv (1 : Matrix (Fin 2) (Fin 2) ℝ)ᵀ = .ok 1 := by
      unfold npInv; rw [if_neg (by simp), transpose_one, inv_one]
    rw [hni]
    simp only
    rw [if_pos hsucc]
    have : applyT (1 : Matrix (Fin 2) (Fin 2) ℝ) 1 lcFinal = lcFinal := by
      simp [applyT, lcFinal]
    rw [this]
    change some (Except.ok { lcFinal with w := roundZeroOne 1 ![1, 0] lcW }) = _
    rw [hround]; rfl
  have ht3 : t3 argmax lcFinal = lcFinal := by
    have hd : t3Diag argmax lcFinal = fun _ => 1 := by
      funext j
      unfold t3Diag
      fin_cases j
      · have hz : lcFinal.absAlpha 0 = fun _ => 0 := by
          funext i
          fin_cases i
          simp [Trans.absAlpha, lcFinal, lcW]
        have hsc : t3Scale argmax lcFinal (t3Elim lcFinal).w 0 = 1 := by
          unfold t3Scale
          rw [dif_pos one_ne_zero, hz, if_neg (by simp [vmax, accHar]; norm_num)]
          unfold vmax
          apply le_antisymm
          · apply ciSup_le; intro i; fin_cases i <;> simp [lcFinal]
          · have := le_ciSup (f := fun i => |lcFinal.S i 0|) (Finite.bddAbove_range _) 0
            simpa [lcFinal] using this
        simp [hsc]
      · simp [lcFinal]
    have he : t3Elim lcFinal = lcFinal := by
      have : (t3Elim lcFinal).w = lcFinal.w := by
        ext i j
        change (if _ ∧ _ then _ else _) = _
        split
        · rename_i h
          fin_cases i; fin_cases j
          · simp [lcFinal, lcW]
          · exact absurd (by simp [lcFinal]) h.1
        · rfl
      have e2 : t3Elim lcFinal = { lcFinal with w := (t3Elim lcFinal).w } := rfl
      rw [e2, this]
    rw [t3_eq, he, hd]
    simp [applyT, lcFinal]
  unfold transformHamil
  simp only
  rw [if_pos one_ne_zero]
  have : t2 sv argsort draws 1 lcW (t1S (lcLib.sqrtm 1)
        (lcLib.svdVh (lcLib.sqrtm lcL * (lcLib.sqrtm 1)⁻¹))
        (t1Scale (lcLib.svdD (lcLib.sqrtm lcL * (lcLib.sqrtm 1)⁻¹)) (lcLib.eigvals lcL)).1)
        (fuel + 3) 0 (setOmega (t1 lcLib 1 lcL (initTrans 1 lcL lcW))) = some (.ok lcFinal) := ht2
  rw [this]
  simp only
  rw [ht3]

theorem lcW_rows : JunctionRows lcW := by
  intro i
  refine ⟨2, 0, fun x => ?_⟩
  fin_cases i
  simp [lcW, pot, mulVec, dotProduct, Fin.sum_univ_two]

theorem lcL_kernel : GraphKernel lcL := by
  refine ⟨{(0, 1)}, fun x => ?_⟩
  simp only [Set.mem_singleton_iff, forall_eq, pot]
  constructor
  · intro h
    have := congrFun h 0
    simp [lcL, mulVec_diagonal] at this
    simp [this]
  · intro h
    funext i
    fin_cases i
    · simp at h; simp [lcL, mulVec_diagonal, ← h]
    · simp [lcL, mulVec_diagonal]

/-- a sorting routine exists -/
theorem exists_argsort : ∃ argsort : ArgsortFn, ArgsortSpec argsort := by
  classical
  refine ⟨fun k v => (List.finRange k).mergeSort (fun i j => decide (v i ≤ v j)), ?_, ?_⟩
  · intro k v; exact List.mergeSort_perm _ _
  · intro k v
    have := List.pairwise_mergeSort (le := fun i j : Fin k => decide (v i ≤ v j))
      (by intro a b c; simp; exact fun h1 h2 => h1.trans h2)
      (by intro a b; simp; exact le_total _ _) (List.finRange k)
    simpa using this

/-- singular value routines exist -/
theorem exists_svdFn : ∃ sv : SvdFn, SvdSpec sv := by
  classical
  refine ⟨fun b m M => List.replicate M.rank 1 ++ List.replicate (min b m - M.rank) 0, ?_, ?_, ?_, ?_⟩
  · intro b m M
    have h1 : M.rank ≤ b := by simpa using M.rank_le_card_height
    have h2 : M.rank ≤ m := by simpa using M.rank_le_card_width
    simp; omega
  · intro b m M
    rw [List.pairwise_append]
    refine ⟨?_, ?_, ?_⟩
    · simp [List.pairwise_replicate]
    · simp [List.pairwise_replicate]
    · intro x hx y hy
      rw [List.eq_of_mem_replicate hx, List.eq_of_mem_replicate hy]; norm_num
  · intro b m M x hx
    rcases List.mem_append.1 hx with h | h <;> rw [List.eq_of_mem_replicate h] <;> norm_num
  · intro b m M
    rw [List.filter_append, List.filter_replicate, List.filter_replicate]
    have e1 : decide (|(1 : ℝ)| > 1e-5) = true := by rw [decide_eq_true_eq]; norm_num
    have e2 : decide (|(0 : ℝ)| > 1e-5) = false := by rw [decide_eq_false_iff_not]; norm_num
    rw [e1, e2]; simp

end SQ
