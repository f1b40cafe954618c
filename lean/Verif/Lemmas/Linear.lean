import Verif.Spec.Linear
import Verif.Props.Truncation
import Verif.Lemmas.LcState
import Verif.Props.DephasingLevels

/-! # Circuits without junctions -/

namespace SQ
open Matrix Spec

/-- the spectrum of a diagonal matrix -/
theorem levels_diagonal {ι : Type*} [Fintype ι] [DecidableEq ι] (E : ι → ℝ) :
    ∃ vs, Levels (diagonal fun x => ((E x : ℝ) : ℂ)) vs ((Finset.univ.val.map E).sort (· ≤ ·)) := by
  classical
  let l : List ι := (Finset.univ.toList : List ι).mergeSort (fun a b => decide (E a ≤ E b))
  have hp : l.Perm Finset.univ.toList := List.mergeSort_perm _ _
  have hnd : l.Nodup := hp.nodup_iff.2 (Finset.nodup_toList _)
  have hlen : l.length = Fintype.card ι := by rw [hp.length_eq, Finset.length_toList]; rfl
  have hs : (l.map E).Pairwise (· ≤ ·) := by
    rw [List.pairwise_map]
    have := List.pairwise_mergeSort (le := fun a b => decide (E a ≤ E b)) (l := (Finset.univ.toList : List ι))
      (fun a b c => by simp only [decide_eq_true_eq]; exact le_trans)
      (fun a b => by simp only [Bool.or_eq_true, decide_eq_true_eq]; exact le_total _ _)
    exact this.imp fun h => by simpa using h
  have hsort : (Finset.univ.val.map E).sort (· ≤ ·) = l.map E := by
    refine List.Perm.eq_of_pairwise (le := (· ≤ ·)) (fun a b _ _ => le_antisymm) (Multiset.pairwise_sort _ _) hs ?_
    rw [← Multiset.coe_eq_coe, Multiset.sort_eq, ← Multiset.map_coe]
    congr 1
    rw [Multiset.coe_eq_coe.2 hp, Finset.coe_toList]
  rw [hsort]
  refine ⟨l.map fun x => Pi.single x 1, ⟨⟨by simpa using hlen, by simp, ?_, ?_⟩, hs⟩⟩
  · intro i j
    simp only [List.get_eq_getElem, List.getElem_map]
    rw [Finset.sum_eq_single (l[(j : ℕ)]'(by simpa using j.2))]
    · rw [Pi.single_eq_same, mul_one]
      by_cases h : i = j
      · subst h; simp
      · rw [if_neg h, Pi.single_eq_of_ne]
        · simp
        · intro h2
          apply h
          exact Fin.ext ((List.Nodup.getElem_inj_iff hnd).1 h2).symm
    · intro b _ hb
      rw [Pi.single_eq_of_ne hb, mul_zero]
    · intro h; exact absurd (Finset.mem_univ _) h
  · intro i hi
    simp only [List.getElem_map]
    ext y
    rw [mulVec_diagonal]
    by_cases h : y = l[i]'(by simpa using hi)
    · subst h; simp
    · rw [Pi.single_eq_of_ne h]; simp [Pi.single_eq_of_ne h]

variable {c : CircSpec}

theorem linear_edges {O : Objs} {els : Elements} (h : Linear O els) : junctionEdges O els = [] := by
  unfold junctionEdges
  rw [List.map_eq_nil_iff, List.filter_eq_nil_iff]
  intro p hp hany
  rw [List.any_eq_true] at hany
  obtain ⟨i, hi, hk⟩ := hany
  exact h (p.1, i) (by unfold placements; simp only [List.mem_flatMap, List.mem_map]; exact ⟨p, hp, i, hi, rfl⟩)
    (by simpa using hk)

theorem withVals_elem_kind (O : Objs) (vals : ElemId → ℝ) (i : ElemId) :
    ((O.withVals vals).elem i).kind = (O.elem i).kind := rfl

theorem linear_wMat {vals : ElemId → ℝ} (hs : NoSelfLoops c.els) (hlin : Linear c.O c.els) {n : ℕ} {a : Acc n}
    (htr : traverse c.torch c.fd (c.O.withVals vals) n c.h c.els = .ok a) :
    ValidElements n c.els ∧ a.wMat.length = 0 := by
  have hv : ValidElements n c.els := by
    intro p hp
    have := buildEdges_nodes_le htr p hp
    exact ⟨hs p hp, this.1, this.2⟩
  refine ⟨hv, ?_⟩
  obtain ⟨-, -, h3, -⟩ := C18_branch_numbering _ _ _ _ _ _ hv a htr
  rw [h3, linear_edges (O := c.O.withVals vals) (els := c.els) hlin]
  rfl

theorem finishModes_none {nJ n : ℕ} (h0 : nJ = 0) (torch : Bool) (t : Trans nJ n) :
    finishModes torch t = restrict t (List.finRange n) := by
  unfold finishModes
  rw [if_neg (by rintro ⟨h, -⟩; exact h h0)]

theorem linear_keep {vals : ElemId → ℝ} (hs : NoSelfLoops c.els) (hlin : Linear c.O c.els) {b : Build}
    (hb : buildCirc c vals = .ok b) : numNodes c.els = .ok b.n ∧ b.k = b.n := by
  obtain ⟨n, a, B, t, hn, htr, -, ht, rfl⟩ := buildCirc_stages hb
  refine ⟨hn, ?_⟩
  show (finishModes c.torch t).keep.length = n
  rw [finishModes_none (linear_wMat hs hlin htr).2]
  exact List.length_finRange

theorem canon_pattern {n : ℕ} {C L S R cI l : Matrix (Fin n) (Fin n) ℝ} (hC : IsUnit C.det) (h1 : Sᵀ * R = 1)
    (h2 : cI = Rᵀ * C⁻¹ * R) (h3 : l = Sᵀ * L * S) : L * S = C * S * (cI * l) := by
  have e1 : R * Sᵀ = 1 := mul_eq_one_comm.1 h1
  have e2 : S * Rᵀ = 1 := by
    have := congrArg transpose e1
    rwa [transpose_mul, transpose_transpose, transpose_one] at this
  calc L * S = C * C⁻¹ * L * S := by rw [mul_nonsing_inv _ hC, one_mul]
    _ = C * (S * Rᵀ) * C⁻¹ * (R * Sᵀ) * L * S := by rw [e1, e2, mul_one, mul_one]
    _ = C * S * (cI * l) := by rw [h2, h3]; simp only [Matrix.mul_assoc]

/-- what construction yields for a circuit without junctions -/
theorem linear_modes {vals : ElemId → ℝ} (hc : GoodCircuit c vals) (hlin : Linear c.O c.els) {b : Build}
    (hb : buildCirc c vals = .ok b) :
    b.juns = [] ∧ (∀ i j, i ≠ j → b.M.cInv i j = 0) ∧ (∀ i, 0 < b.M.cInv i i) ∧
    NormalModes (nodeCap b.n (c.O.withVals vals) c.els) (nodeInvInd b.n (c.O.withVals vals) c.els) b.M.omega := by
  have hk := (linear_keep hc.noSelf hlin hb).2
  obtain ⟨n, a, B, t, hn, htr, -, ht, rfl⟩ := buildCirc_stages hb
  obtain ⟨hv, hw⟩ := linear_wMat hc.noSelf hlin htr
  obtain ⟨-, hC, hL⟩ := good_mats hc hn htr
  obtain ⟨hlib, hgap⟩ := hc.lib n a hn htr
  obtain ⟨hm1, hm2⟩ := traverse_mats hv htr
  have hnC : nodeCap n (c.O.withVals vals) c.els = a.cMat := hm1.symm
  have hnL : nodeInvInd n (c.O.withVals vals) c.els = a.lMat := hm2.symm
  obtain ⟨hcan, hcI, hl, -⟩ := C26_canonical_construction (c.lib n) c.sv c.argsort (c.argmax _) (hc.argmax _) c.draws _ _ _ hC
    hL.isHermitian _ hlib hgap c.fuel t ht
  obtain ⟨tb, rfl, hcase⟩ := transformHamil_ok ht
  have htb : tb = afterT1 (c.lib n) a.cMat a.lMat (arrayOf n a.wMat) := by
    rcases hcase with ⟨h, -⟩ | ⟨-, h⟩
    · exact absurd hw h
    · exact h
  have hS : IsUnit tb.S.det := by
    rw [htb]; exact canonInv_unit (afterT1_canon hC hL.isHermitian hlib hgap _)
  have hdiag : ∀ i j, i ≠ j → tb.cInv i j = 0 := by
    intro i j hij
    rw [htb, afterT1_cInv hC hL.isHermitian hlib]
    exact diagonal_apply_ne _ hij
  have hdl : ∀ i j, i ≠ j → tb.l i j = 0 := by
    intro i j hij
    rw [htb, afterT1_l hC hL.isHermitian hlib]
    exact diagonal_apply_ne _ hij
  have hc3 := t3_cInv (hc.argmax _) tb hS
  have hl3 := t3_l (c.argmax a.wMat.length) tb
  have hpos := t3Diag_pos (hc.argmax a.wMat.length) tb hS
  have hfin := finishModes_none hw c.torch (t3 (c.argmax a.wMat.length) tb)
  set t := t3 (c.argmax a.wMat.length) tb with htdef
  have hom : t.omega = tb.omega := rfl
  have homT : ∀ i, tb.omega i = if singStart (c.lib n) a.cMat a.lMat ≤ (i : ℕ) then 0
      else (c.lib n).svdD (scaledL (c.lib n) a.cMat a.lMat) i := by
    intro i
    rw [htb]
    exact afterT1_omega hC hL.isHermitian hlib _ i
  have hnonneg : ∀ i, 0 ≤ t.omega i := by
    intro i
    rw [hom, homT]
    split
    · exact le_refl _
    · exact hlib.svdNonneg i
  have hanti : Antitone t.omega := by
    intro i j hij
    have hij' : (i : ℕ) ≤ j := hij
    rw [hom, homT, homT]
    by_cases h1 : singStart (c.lib n) a.cMat a.lMat ≤ (j : ℕ)
    · rw [if_pos h1]
      split
      · exact le_refl _
      · exact hlib.svdNonneg i
    · rw [if_neg h1, if_neg (by omega)]
      exact hlib.svdSorted i j hij
  have hcd : ∀ i j, i ≠ j → t.cInv i j = 0 := fun i j hij => by rw [hc3, hdiag i j hij]; simp
  have hld : ∀ i j, i ≠ j → t.l i j = 0 := fun i j hij => by rw [hl3, hdl i j hij]; simp
  have hcpos : ∀ i, 0 < t.cInv i i := by
    intro i
    rw [hc3, htb, afterT1_cInv hC hL.isHermitian hlib, diagonal_apply_eq, ← htb]
    have h1 := scaleD_pos hC hL.isHermitian hlib i
    have h2 := hpos i
    positivity
  have hprod : ∀ i, t.cInv i i * t.l i i = t.omega i ^ 2 := by
    intro i
    have h2 := (hpos i).ne'
    have h1 := (scaleD_pos hC hL.isHermitian hlib i).ne'
    rw [hc3, hl3, hom, homT]
    have e1 : tb.cInv i i = (scaleD (c.lib n) a.cMat a.lMat i)⁻¹ := by
      rw [htb, afterT1_cInv hC hL.isHermitian hlib, diagonal_apply_eq]
    have e2 : tb.l i i = if singStart (c.lib n) a.cMat a.lMat ≤ (i : ℕ) then 0
        else scaleD (c.lib n) a.cMat a.lMat i * (c.lib n).svdD (scaledL (c.lib n) a.cMat a.lMat) i ^ 2 := by
      rw [htb, afterT1_l hC hL.isHermitian hlib, diagonal_apply_eq]
    rw [e1, e2]
    split
    · simp
    · field_simp
  have hLS := canon_pattern ((isUnit_iff_isUnit_det _).1 hC.isUnit) hcan hcI hl
  have hcl : t.cInv * t.l = diagonal (fun i => t.omega i ^ 2) := by
    ext i j
    rw [mul_apply, Finset.sum_eq_single i]
    · by_cases hij : i = j
      · subst hij
        rw [diagonal_apply_eq, hprod]
      · rw [diagonal_apply_ne _ hij, hld i j hij, mul_zero]
    · intro x _ hx
      rw [hcd i x (Ne.symm hx), zero_mul]
    · intro h; exact absurd (Finset.mem_univ _) h
  have hpat : ∀ j, a.lMat *ᵥ (fun i => t.S i j) = t.omega j ^ 2 • (a.cMat *ᵥ fun i => t.S i j) := by
    intro j
    ext i
    have := congrFun (congrFun hLS i) j
    rw [hcl, mul_diagonal] at this
    rw [Pi.smul_apply, smul_eq_mul, mul_comm]
    exact this
  have hunit : IsUnit t.S := by
    have := isUnit_det_of_right_inverse hcan
    rw [det_transpose] at this
    exact (isUnit_iff_isUnit_det _).2 this
  have hli : LinearIndependent ℝ (fun j i => t.S i j) := linearIndependent_cols_of_isUnit hunit
  show junKeysOf _ _ a.st.junKeys = [] ∧ (∀ i j, i ≠ j → (finishModes c.torch t).cInv i j = 0) ∧
    (∀ i, 0 < (finishModes c.torch t).cInv i i) ∧
    NormalModes (nodeCap n (c.O.withVals vals) c.els) (nodeInvInd n (c.O.withVals vals) c.els) (finishModes c.torch t).omega
  rw [hfin, hnC, hnL]
  refine ⟨?_, ?_, ?_, ?_⟩
  · unfold junKeysOf
    rw [List.filterMap_eq_nil_iff]
    intro k _
    rw [dif_neg (by rintro ⟨-, h⟩; omega)]
  · intro i j hij
    refine hcd _ _ fun h => hij ?_
    exact (List.Nodup.get_inj_iff (List.nodup_finRange n)).1 h
  · exact fun i => hcpos _
  · refine ⟨List.length_finRange, fun i => hnonneg _, ?_, fun j i => t.S i ((List.finRange n).get j), ?_, fun j => hpat _⟩
    · intro i j hij
      have e : ∀ x y : Fin (List.finRange n).length, x ≤ y → (List.finRange n).get x ≤ (List.finRange n).get y := by
        intro x y hxy
        rw [List.get_finRange, List.get_finRange]
        exact hxy
      exact hanti (e i j hij)
    · exact hli.comp _ fun i j h => (List.Nodup.get_inj_iff (List.nodup_finRange n)).1 h

/-- charging energy of a free island in units of its reduced capacitance matrix entry -/
noncomputable def islandCoef (x : ℝ) : ℝ := x / 2 * (2 * eCharge / √hbar) ^ 2

/-- without couplings between modes the LC part is diagonal -/
theorem lcHamil_diagonal {nJ k : ℕ} (D : ModeData nJ k) (hd : ∀ i j, i ≠ j → D.cInv i j = 0) (m : Fin k → ℕ) (ng : Fin k → ℝ) :
    lcHamil D (buildMem D m ng) =
      diagonal fun x : Idx m => ((ladder D.omega (fun i => islandCoef (D.cInv i i)) ng m x : ℝ) : ℂ) := by
  classical
  have hs : D.cInv.IsSymm := by
    ext i j
    by_cases h : i = j
    · rw [h]; rfl
    · rw [transpose_apply, hd i j h, hd j i (Ne.symm h)]
  rw [C39_lc_hamiltonian D hs m ng]
  have e1 : ∀ i : Fin k, ∑ j, (if i = j ∧ D.omega i ≠ 0 then (0 : Op m)
      else ((D.cInv i j : ℝ) : ℂ) • ((buildMem D m ng).Q i * (buildMem D m ng).Q j)) =
      if D.omega i ≠ 0 then 0 else ((D.cInv i i : ℝ) : ℂ) • ((buildMem D m ng).Q i * (buildMem D m ng).Q i) := by
    intro i
    rw [Finset.sum_eq_single i]
    · simp
    · intro j _ hj
      rw [hd i j (Ne.symm hj)]
      simp
    · intro h; exact absurd (Finset.mem_univ _) h
  rw [Finset.sum_congr rfl fun i _ => e1 i, Finset.smul_sum, ← Finset.sum_add_distrib]
  have e2 : ∀ i : Fin k, ((if D.omega i ≠ 0 then ((D.omega i : ℝ) : ℂ) • (buildMem D m ng).N i else 0) +
      (1 / 2 : ℂ) • (if D.omega i ≠ 0 then 0
        else ((D.cInv i i : ℝ) : ℂ) • ((buildMem D m ng).Q i * (buildMem D m ng).Q i)) : Op m) =
      diagonal fun x : Idx m => (((if D.omega i ≠ 0 then D.omega i * (x i : ℕ)
        else islandCoef (D.cInv i i) * ((x i : ℕ) - ((m i : ℝ) - 1) / 2 - ng i) ^ 2 : ℝ)) : ℂ) := by
    intro i
    by_cases h : D.omega i ≠ 0
    · rw [if_pos h, if_pos h, smul_zero, add_zero, buildMem_N]
      unfold numOpIso
      rw [if_neg h]
      unfold qNum
      rw [single_diagonal, ← diagonal_smul]
      congr 1
      funext x
      rw [Pi.smul_apply, if_pos h]
      push_cast
      rfl
    · rw [if_neg h, if_neg h, zero_add, buildMem_Q]
      unfold chargeOpIso
      rw [if_pos (not_not.1 h)]
      have e3 : (qCharge (m i) - ((ng i : ℝ) : ℂ) • 1 : Matrix (Fin (m i)) (Fin (m i)) ℂ) =
          diagonal fun y : Fin (m i) => ((y : ℕ) : ℂ) - ((m i : ℂ) - 1) / 2 - (ng i : ℂ) := by
        unfold qCharge
        rw [smul_one_eq_diagonal, diagonal_sub]
      rw [e3, ← diagonal_smul, single_diagonal, diagonal_mul_diagonal, ← diagonal_smul, ← diagonal_smul]
      congr 1
      funext x
      simp only [Pi.smul_apply, smul_eq_mul]
      rw [if_neg h]
      unfold islandCoef
      push_cast
      ring
  rw [Finset.sum_congr rfl fun i _ => e2 i]
  ext x y
  rw [Matrix.sum_apply]
  by_cases hxy : x = y
  · subst hxy
    simp only [diagonal_apply_eq]
    unfold ladder
    push_cast
    rfl
  · rw [diagonal_apply_ne _ hxy]
    exact Finset.sum_eq_zero fun i _ => diagonal_apply_ne _ hxy

/-- the Hamiltonian of a circuit without junctions and external flux is diagonal -/
theorem linear_ham {vals : ElemId → ℝ} (hc : GoodCircuit c vals) (hlin : Linear c.O c.els) {b : Build}
    (hb : buildCirc c vals = .ok b) (m : Fin b.M.keep.length → ℕ) (ng : Fin b.M.keep.length → ℝ) (val : ElemId → ℝ)
    (flux : LoopId → ℝ) (hf : ∀ l, flux l = 0) :
    fullHamiltonian b.C b.M m ng val (b.fluxes flux) b.inds b.juns =
      .ok (diagonal fun x : Idx m => ((ladder b.M.omega (fun i => islandCoef (b.M.cInv i i)) ng m x : ℝ) : ℂ)) := by
  obtain ⟨hj, hd, -, -⟩ := linear_modes hc hlin hb
  have hval := build_valid hc.noSelf hb
  unfold fullHamiltonian
  simp only
  rw [hamiltonianOf_eq b.C b.M hval.1 _ _ _ _ _ _ hval.2, hj, lcHamil_diagonal _ hd]
  have hz : ∀ i, b.fluxes flux i = 0 := by
    intro i
    unfold Build.fluxes
    rw [extFlux_sum]
    simp [hf]
  simp only [hz]
  congr 1
  simp
  exact fun _ => rfl

/-! ### uniqueness of the normal-mode frequencies -/

theorem normalModes_roots {n k : ℕ} {C L : Matrix (Fin n) (Fin n) ℝ} (hC : IsUnit C.det) {ω : Fin k → ℝ}
    (h : NormalModes C L ω) : (C⁻¹ * L).charpoly.roots = Finset.univ.val.map fun i => ω i ^ 2 := by
  obtain ⟨hk, -, -, v, hli, hv⟩ := h
  subst hk
  let V : Matrix (Fin k) (Fin k) ℝ := Matrix.of fun i j => v j i
  have hVu : IsUnit V := by
    rw [← linearIndependent_cols_iff_isUnit]
    exact hli
  have hVd : IsUnit V.det := (isUnit_iff_isUnit_det _).1 hVu
  have e1 : L * V = C * V * diagonal fun i => ω i ^ 2 := by
    ext i j
    rw [mul_diagonal]
    have := congrFun (hv j) i
    rw [Pi.smul_apply, smul_eq_mul, mul_comm] at this
    exact this
  have e2 : C⁻¹ * L = V * (diagonal fun i => ω i ^ 2) * V⁻¹ := by
    have : C⁻¹ * L * V = V * diagonal fun i => ω i ^ 2 := by
      rw [Matrix.mul_assoc, e1, ← Matrix.mul_assoc, ← Matrix.mul_assoc, nonsing_inv_mul _ hC, Matrix.one_mul]
    rw [← this, Matrix.mul_assoc (C⁻¹ * L), mul_nonsing_inv _ hVd, Matrix.mul_one]
  have e3 : (C⁻¹ * L).charpoly = (diagonal fun i => ω i ^ 2).charpoly := by
    rw [e2, Matrix.mul_assoc, charpoly_mul_comm, Matrix.mul_assoc, nonsing_inv_mul _ hVd, Matrix.mul_one]
  have e4 : (∏ i, (Polynomial.X - Polynomial.C (ω i ^ 2)) : Polynomial ℝ) =
      ((Finset.univ.val.map fun i => ω i ^ 2).map fun a => Polynomial.X - Polynomial.C a).prod := by
    rw [Multiset.map_map]
    rfl
  rw [e3, charpoly_diagonal, e4, Polynomial.roots_multiset_prod_X_sub_C]

/-- two lists of normal-mode frequencies of the same network are equal -/
theorem normalModes_unique {n k k' : ℕ} {C L : Matrix (Fin n) (Fin n) ℝ} (hC : IsUnit C.det) {ω : Fin k → ℝ}
    {ω' : Fin k' → ℝ} (h : NormalModes C L ω) (h' : NormalModes C L ω') : List.ofFn ω = List.ofFn ω' := by
  have e := (normalModes_roots hC h).symm.trans (normalModes_roots hC h')
  have e2 : (Finset.univ.val.map ω : Multiset ℝ) = Finset.univ.val.map ω' := by
    have := congrArg (Multiset.map Real.sqrt) e
    rw [Multiset.map_map, Multiset.map_map] at this
    have r1 : (Real.sqrt ∘ fun i => ω i ^ 2) = ω := by funext i; exact Real.sqrt_sq (h.nonneg i)
    have r2 : (Real.sqrt ∘ fun i => ω' i ^ 2) = ω' := by funext i; exact Real.sqrt_sq (h'.nonneg i)
    rwa [r1, r2] at this
  rw [Fin.univ_val_map, Fin.univ_val_map, Multiset.coe_eq_coe] at e2
  have hs : ∀ {q : ℕ} (f : Fin q → ℝ), Antitone f → (List.ofFn f).Pairwise (· ≥ ·) := by
    intro q f hf
    rw [List.pairwise_ofFn]
    exact fun i j hij => hf hij.le
  exact List.Perm.eq_of_pairwise (le := (· ≥ ·)) (fun a b _ _ h1 h2 => le_antisymm h2 h1) (hs _ h.descending)
    (hs _ h'.descending) e2

/-- a circuit without junctions whose elements are in no loop is accepted -/
theorem linear_exists {vals : ElemId → ℝ} (hc : GoodCircuit c vals) (hlin : Linear c.O c.els) {n : ℕ}
    (hn : numNodes c.els = .ok n) (hv : ValidElements n c.els)
    (hl : ∀ q ∈ placements c.els, (c.O.elem q.2).loops = []) : ∃ b, buildCirc c vals = .ok b := by
  have h0 : ∀ p ∈ c.els, ∀ i ∈ p.2, ((c.O.withVals vals).elem i).kind = .ind → ((c.O.withVals vals).elem i).value ≠ 0 := by
    intro p hp i hi hk
    exact (hc.inds (p.1, i) (by
      unfold placements; simp only [List.mem_flatMap, List.mem_map]; exact ⟨p, hp, i, hi, rfl⟩) hk).ne'
  obtain ⟨a, htr, -⟩ := C14_energy_forms c.torch c.fd (c.O.withVals vals) n c.h c.els hv h0
  have hw := (linear_wMat hc.noSelf hlin htr).2
  obtain ⟨-, hC, hL⟩ := good_mats hc hn htr
  have hlu : loopUses (c.O.withVals vals) c.els = [] := by
    unfold loopUses
    rw [List.flatMap_eq_nil_iff]
    intro q hq
    have hq2 : q.1 ∈ inductivePlacements (c.O.withVals vals) c.els := by
      have := List.mem_map_of_mem (f := Prod.fst) hq
      simpa [numbered] using this
    have : ((c.O.withVals vals).elem q.1.2).loops = [] := hl q.1 (List.mem_of_mem_filter hq2)
    rw [this]
    rfl
  have hl0 : a.st.loops = [] := by
    obtain ⟨l1, -⟩ := C19_loop_membership c.torch c.fd (c.O.withVals vals) n c.h _ hv a htr
    rw [l1, hlu]
    rfl
  have hf : fluxMatrix c.sv n a.st.kMat a.st.cEdge (a.st.loops.map a.st.loopHeap) = .ok none := by
    rw [hl0]
    unfold fluxMatrix
    simp [loopRows]
  have ht : ∃ t, transformHamil (c.lib n) c.sv c.argsort (c.argmax _) c.draws a.numJunWithoutInd a.cMat a.lMat
      (arrayOf n a.wMat) c.fuel (initTrans a.cMat a.lMat (arrayOf n a.wMat)) = some (.ok t) := by
    unfold transformHamil
    simp only
    rw [if_neg (by rw [not_not]; exact hw)]
    exact ⟨_, rfl⟩
  obtain ⟨t, ht⟩ := ht
  unfold buildCirc
  rw [hn]
  simp only
  unfold buildWith getLCWB
  rw [htr]
  simp only
  rw [hf]
  simp only
  rw [if_neg hC.det_pos.ne', ht]
  exact ⟨_, rfl⟩

/-- the levels of a single oscillator -/
theorem lowest_single {k : ℕ} (hk : k = 1) (ω κ ng : Fin k → ℝ) (d : Fin k → ℕ) (i : Fin k) (hω : 0 < ω i) (num : ℕ)
    (hnum : num ≤ d i) : lowest (ladder ω κ ng d) num = (List.range num).map fun j : ℕ => ω i * j := by
  classical
  subst hk
  have hi : i = 0 := Subsingleton.elim _ _
  subst hi
  have e1 : ∀ x : (∀ i, Fin (d i)), ladder ω κ ng d x = ω 0 * (x 0 : ℕ) := by
    intro x
    unfold ladder
    rw [Fin.sum_univ_one, if_pos hω.ne']
  have e2 : ladder ω κ ng d = (fun y : Fin (d 0) => ω 0 * (y : ℕ)) ∘ (Equiv.piUnique (fun i : Fin 1 => Fin (d i))) := by
    funext x
    rw [e1]
    rfl
  have e3 : (Finset.univ.val.map (ladder ω κ ng d)).sort (· ≤ ·) = (List.range (d 0)).map fun j : ℕ => ω 0 * j := by
    refine List.Perm.eq_of_pairwise (le := (· ≤ ·)) (fun a b _ _ => le_antisymm) (Multiset.pairwise_sort _ _) ?_ ?_
    · rw [List.pairwise_map]
      exact List.pairwise_lt_range.imp fun {a b} h => mul_le_mul_of_nonneg_left (by exact_mod_cast h.le) hω.le
    · rw [← Multiset.coe_eq_coe, Multiset.sort_eq, e2, ← Multiset.map_map]
      have e4 : (Finset.univ : Finset (∀ i : Fin 1, Fin (d i))).val.map (Equiv.piUnique (fun i : Fin 1 => Fin (d i))) =
          (Finset.univ : Finset (Fin (d 0))).val := by
        have := Finset.map_univ_equiv (Equiv.piUnique (fun i : Fin 1 => Fin (d i)))
        have h2 := congrArg Finset.val this
        exact h2
      rw [e4, Fin.univ_val_map, Multiset.coe_eq_coe]
      refine List.Perm.of_eq (List.ext_getElem (by simp) fun a h1 h2 => ?_)
      simp
  unfold lowest
  rw [e3, ← List.map_take, List.take_range, min_eq_left hnum]

theorem renameNode_inj {n : ℕ} (σ : Equiv.Perm (Fin n)) {a b : ℕ} (ha : a ≤ n) (hb : b ≤ n)
    (h : renameNode σ a = renameNode σ b) : a = b := by
  cases a with
  | zero =>
    cases b with
    | zero => rfl
    | succ b => simp [renameNode, show b < n by omega] at h
  | succ a =>
    cases b with
    | zero => simp [renameNode, show a < n by omega] at h
    | succ b =>
      simp only [renameNode, show a < n by omega, show b < n by omega, dif_pos, Nat.add_right_cancel_iff] at h
      have := σ.injective (Fin.ext h)
      simp only [Fin.mk.injEq] at this
      omega

theorem renameNode_succ {n : ℕ} (σ : Equiv.Perm (Fin n)) (i : Fin n) : renameNode σ (i + 1) = (σ i : ℕ) + 1 := by
  simp [renameNode]

theorem incidence_rename {n : ℕ} (σ : Equiv.Perm (Fin n)) {e : Edge} (h1 : e.1 ≤ n) (h2 : e.2 ≤ n) (i : Fin n) :
    incidence (renameNode σ e.1, renameNode σ e.2) ((σ i : ℕ) + 1) = incidence e (i + 1) := by
  have hk : (i : ℕ) + 1 ≤ n := i.2
  have key : ∀ a b, a ≤ n → b ≤ n → (renameNode σ a = renameNode σ b ↔ a = b) := fun a b ha hb =>
    ⟨renameNode_inj σ ha hb, fun h => by rw [h]⟩
  have h0 : ∀ a, a ≤ n → (renameNode σ a = 0 ↔ a = 0) := fun a ha => key a 0 ha (Nat.zero_le _)
  unfold incidence
  rw [← renameNode_succ σ i]
  simp only [h0 _ h1, h0 _ h2, key _ _ hk h1, key _ _ hk h2]

theorem incidence_flip (a b : ℕ) (hab : a ≠ b) : (∀ k, incidence (b, a) k = incidence (a, b) k) ∨ ∀ k, incidence (b, a) k = - incidence (a, b) k := by
  unfold incidence
  by_cases ha : a = 0
  · left; intro k; subst ha; simp [Ne.symm hab]
  · by_cases hb : b = 0
    · left; intro k; subst hb; simp [ha]
    · right
      intro k
      simp only [ha, hb, if_false]
      split_ifs <;> simp_all

theorem edgeMat_rename {n : ℕ} (σ : Equiv.Perm (Fin n)) {e e' : Edge} (hv : ValidEdge n e)
    (h : e' = (renameNode σ e.1, renameNode σ e.2) ∨ e' = (renameNode σ e.2, renameNode σ e.1)) (i j : Fin n) :
    edgeMat n e' (σ i) (σ j) = edgeMat n e i j := by
  have hr := incidence_rename σ hv.2.1 hv.2.2
  unfold edgeMat
  simp only [of_apply]
  rcases h with rfl | rfl
  · rw [hr, hr]
  · have hne : renameNode σ e.1 ≠ renameNode σ e.2 := fun h => hv.1 (renameNode_inj σ hv.2.1 hv.2.2 h)
    rcases incidence_flip _ _ hne with h | h
    · rw [h, h, hr, hr]
    · rw [h, h, hr, hr]; push_cast; ring

theorem rename_sum {n : ℕ} (σ : Equiv.Perm (Fin n)) (f : ElemId → ℝ) (i j : Fin n) {l l' : List (Edge × ElemId)}
    (hv : ∀ q ∈ l, ValidEdge n q.1) (h : List.Forall₂ (fun q q' => q'.2 = q.2 ∧
      (q'.1 = (renameNode σ q.1.1, renameNode σ q.1.2) ∨ q'.1 = (renameNode σ q.1.2, renameNode σ q.1.1))) l l') :
    (l'.map fun q => f q.2 • edgeMat n q.1).sum (σ i) (σ j) = (l.map fun q => f q.2 • edgeMat n q.1).sum i j := by
  induction h with
  | nil => rfl
  | cons hq _ ih =>
    simp only [List.map_cons, List.sum_cons, Matrix.add_apply, Matrix.smul_apply]
    rw [ih fun q h => hv q (List.mem_cons_of_mem _ h), hq.1, edgeMat_rename σ (hv _ (List.mem_cons_self ..)) hq.2]

theorem placements_valid {n : ℕ} {els : Elements} (hv : ValidElements n els) : ∀ q ∈ placements els, ValidEdge n q.1 := by
  intro q hq
  unfold placements at hq
  simp only [List.mem_flatMap, List.mem_map] at hq
  obtain ⟨p, hp, i, -, rfl⟩ := hq
  exact hv p hp

theorem node_rename {n : ℕ} {σ : Equiv.Perm (Fin n)} {els els' : Elements} (hv : ValidElements n els)
    (h : Renumbered σ els els') (O : Objs) (i j : Fin n) :
    nodeCap n O els' (σ i) (σ j) = nodeCap n O els i j ∧ nodeInvInd n O els' (σ i) (σ j) = nodeInvInd n O els i j := by
  obtain ⟨l, hp, hl⟩ := h
  unfold nodeCap nodeInvInd
  rw [(hp.map fun q => placedCap O q.2 • edgeMat n q.1).sum_eq, (hp.map fun q => placedInvInd O q.2 • edgeMat n q.1).sum_eq]
  exact ⟨rename_sum σ _ i j (placements_valid hv) hl, rename_sum σ _ i j (placements_valid hv) hl⟩

theorem normalModes_rename {n k : ℕ} {σ : Equiv.Perm (Fin n)} {C L C' L' : Matrix (Fin n) (Fin n) ℝ}
    (hC : ∀ i j, C' (σ i) (σ j) = C i j) (hL : ∀ i j, L' (σ i) (σ j) = L i j) {ω : Fin k → ℝ}
    (h : NormalModes C L ω) : NormalModes C' L' ω := by
  obtain ⟨h1, h2, h3, v, hli, hv⟩ := h
  refine ⟨h1, h2, h3, fun j => v j ∘ σ.symm, ?_, ?_⟩
  · exact hli.map' (LinearEquiv.funCongrLeft ℝ ℝ σ.symm).toLinearMap (LinearEquiv.ker _)
  · intro j
    have key : ∀ (A A' : Matrix (Fin n) (Fin n) ℝ), (∀ i j, A' (σ i) (σ j) = A i j) → ∀ (x : Fin n → ℝ) a,
        (A' *ᵥ (x ∘ σ.symm)) (σ a) = (A *ᵥ x) a := by
      intro A A' hA x a
      unfold mulVec dotProduct
      rw [← Equiv.sum_comp σ]
      refine Finset.sum_congr rfl fun b _ => ?_
      simp [hA]
    funext a
    obtain ⟨a, rfl⟩ := σ.surjective a
    rw [key L L' hL, Pi.smul_apply, key C C' hC, hv j]
    rfl

theorem invInd_isUnit {n : ℕ} {O : Objs} {els : Elements} (hv : ValidElements n els) (hl : PositiveInds O els)
    (hg : InductivelyGrounded n O els) : IsUnit (nodeInvInd n O els).det := by
  rw [isUnit_iff_ne_zero]
  intro hdet
  obtain ⟨x, hx, hLx⟩ := exists_mulVec_eq_zero_iff.2 hdet
  obtain ⟨a, htr⟩ := buildEdges_succeeds (O := O) false .junctions hv (by
    intro p hp i hi hk
    exact (hl (p.1, i) (by
      unfold placements; simp only [List.mem_flatMap, List.mem_map]; exact ⟨p, hp, i, hi, rfl⟩) hk).ne')
    (initAcc n fun _ => LoopObj.init 0 0)
  have htr' : traverse false .junctions O n (fun _ => LoopObj.init 0 0) els = .ok a := htr
  have hm : nodeInvInd n O els = a.lMat := (traverse_mats hv htr').2.symm
  have h17 := (C17_null_space false .junctions O n _ els hv hl a htr').1 x
  rw [hm] at hLx
  have h0 := h17.1 (by rw [hLx]; simp)
  apply hx
  have hpot : ∀ k, k ≤ n → pot x k = 0 := by
    intro k hk
    refine Relation.ReflTransGen.head_induction_on (motive := fun k _ => pot x k = 0) (hg k hk) rfl ?_
    rintro a b ⟨⟨e, i⟩, hq, hkind, he⟩ - ih
    unfold placements at hq
    simp only [List.mem_flatMap, List.mem_map] at hq
    obtain ⟨p, hp, i', hi, hpe⟩ := hq
    obtain ⟨rfl, rfl⟩ := Prod.mk.inj hpe
    have := h0 p hp i' hi hkind
    rcases he with he | he
    · simp only at he; rw [he] at this; exact this.trans ih
    · simp only at he; rw [he] at this; exact this.symm.trans ih
  funext i
  have := hpot (i + 1) i.2
  simpa [pot] using this

theorem nodeCap_posDef {n : ℕ} {O : Objs} {els : Elements} (hv : ValidElements n els) (hc : PositiveCaps O els)
    (hl : PositiveInds O els) (hg : GroundConnected n els) : (nodeCap n O els).PosDef := by
  obtain ⟨a, htr⟩ := buildEdges_succeeds (O := O) false .junctions hv (by
    intro p hp i hi hk
    exact (hl (p.1, i) (by
      unfold placements; simp only [List.mem_flatMap, List.mem_map]; exact ⟨p, hp, i, hi, rfl⟩) hk).ne')
    (initAcc n fun _ => LoopObj.init 0 0)
  have htr' : traverse false .junctions O n (fun _ => LoopObj.init 0 0) els = .ok a := htr
  have hm : nodeCap n O els = a.cMat := (traverse_mats hv htr').1.symm
  rw [hm]
  exact (C16_cap_posdef _ _ _ _ _ _ hv hc hg a htr').1

theorem lowest_ladder {k : ℕ} (ω κ κ' ng ng' : Fin k → ℝ) (hω : ∀ i, ω i ≠ 0) (num : ℕ) {m m' : List ℤ} (h : m' = m) :
    lowest (ladder ω κ' ng' fun i => (m'.getD i 0).toNat) num = lowest (ladder ω κ ng fun i => (m.getD i 0).toNat) num := by
  subst h
  congr 1
  funext x
  unfold ladder
  refine Finset.sum_congr rfl fun i _ => ?_
  rw [if_pos (hω i), if_pos (hω i)]

end SQ
