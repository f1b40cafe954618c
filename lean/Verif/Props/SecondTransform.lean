import Verif.Lemmas.ConstructT2
import Verif.Lemmas.LibExists
import Verif.Lemmas.ExampleCircuit

/-!
# C30: does the second transformation return?
-/

namespace SQ
open Matrix Spec

variable {nJ n : ℕ}

/-- frequencies after the first transformation -/
noncomputable def modeFreq (lib : NumLib n) (C L : Matrix (Fin n) (Fin n) ℝ) : Fin n → ℝ :=
  (afterT1 lib C L (0 : Matrix (Fin 0) (Fin n) ℝ)).omega

theorem modeFreq_eq {lib : NumLib n} {C L : Matrix (Fin n) (Fin n) ℝ}
    (W : Matrix (Fin nJ) (Fin n) ℝ) : (afterT1 lib C L W).omega = modeFreq lib C L := rfl

theorem t2_trivial {sv : SvdFn} {argsort : ArgsortFn} {draws : Draws} {numJ : ℕ}
    {W : Matrix (Fin nJ) (Fin n) ℝ} {S1 : Matrix (Fin n) (Fin n) ℝ} (t : Trans nJ n)
    (h : numJ = 0 ∨ ∀ j, t.omega j ≠ 0) (fuel : ℕ) :
    ∃ t', t2 sv argsort draws numJ W S1 (fuel + 1) 0 t = some (.ok t') := by
  have hc : ¬ ((chargeCols t.omega).length ≠ 0 ∧ numJ ≠ 0) := by
    rintro ⟨h1, h2⟩
    rcases h with h | h
    · exact h2 h
    · apply h1
      rw [List.length_eq_zero_iff]
      apply List.eq_nil_iff_forall_not_mem.2
      intro j hj
      exact h j ((mem_chargeCols t.omega j).1 hj)
  refine t2_step_ok (s := 1) (k := 0) (by unfold t2Choose; simp only; rw [if_neg hc]) (by simp) ?_
  intro j hj i
  rcases h with h | h
  · have : roundZeroOne numJ t.omega (t.w * (1 : Matrix (Fin n) (Fin n) ℝ)) i j = 0 := by
      unfold roundZeroOne accGS
      simp only [Matrix.of_apply, hj, if_true, h]
      norm_num
    rw [this]; simp
  · exact absurd hj (h j)

/-- The construction returns (without exception) for every circuit in which all junctions have a
parallel inductor, or that has no charge mode, or whose selected junction rows are faithful; in the
last case for all later random draws and without any retry.  Missing from the full claim: circuits
whose selection is not faithful, see `C30_nontermination`. -/
theorem C30_returns_partial (lib : NumLib n) (sv : SvdFn) (argsort : ArgsortFn)
    (argmax : ArgmaxFn nJ) (draws : Draws) (numJ : ℕ)
    (C L : Matrix (Fin n) (Fin n) ℝ) (hC : C.PosDef) (hL : L.PosSemidef) (hker : GraphKernel L)
    (W : Matrix (Fin nJ) (Fin n) ℝ) (hW : JunctionRows W)
    (hlib : LibSpec lib C L) (hgap : SpectralGap lib L)
    (hsel : numJ = 0 ∨ (∀ j, modeFreq lib C L j ≠ 0) ∨
      SelectionFaithful sv argsort draws W (matS1 lib C L) (modeFreq lib C L)) (fuel : ℕ) :
    ∃ t, transformHamil lib sv argsort argmax draws numJ C L W (fuel + 3) (initTrans C L W) =
      some (.ok t) := by
  have hLh := hL.isHermitian
  have key : ∃ tb, t2 sv argsort draws numJ W (matS1 lib C L) (fuel + 3) 0 (afterT1 lib C L W) =
      some (.ok tb) := by
    by_cases h1 : numJ = 0 ∨ ∀ j, (afterT1 lib C L W).omega j ≠ 0
    · exact t2_trivial _ h1 (fuel + 2)
    · push Not at h1
      obtain ⟨hJ, j0, hj0⟩ := h1
      have hs : SelectionFaithful sv argsort draws W (matS1 lib C L) (afterT1 lib C L W).omega := by
        rcases hsel with h | h | h
        · exact absurd h hJ
        · exact absurd hj0 (h j0)
        · exact h
      obtain ⟨d, hd, ho⟩ := afterT1_diag hC hLh hlib hgap W
      have hSu := matS1_isUnit hC hLh hlib
      obtain ⟨B, hB, hN⟩ := chargeRow_inc hW hker hSu hd ho
      have hq : (chargeCols (afterT1 lib C L W).omega).length ≠ 0 := by
        have := (mem_chargeCols (afterT1 lib C L W).omega j0).2 hj0
        exact List.length_pos_of_mem this |>.ne'
      by_cases hss : singStart lib C L ≤ n
      · exact t2_success hJ _ ((afterT1_w lib C L W).trans (by rw [afterT1_S])) hss
          (afterT1_omega_zero_iff hC hLh hlib W) hq B hB hN hs fuel
      · exfalso
        have := (afterT1_omega_zero_iff hC hLh hlib W j0).1 hj0
        have := j0.isLt
        omega
  obtain ⟨tb, htb⟩ := key
  unfold transformHamil
  simp only
  split
  · have : t2 sv argsort draws numJ W (t1S (lib.sqrtm C)
        (lib.svdVh (lib.sqrtm L * (lib.sqrtm C)⁻¹))
        (t1Scale (lib.svdD (lib.sqrtm L * (lib.sqrtm C)⁻¹)) (lib.eigvals L)).1) (fuel + 3) 0
        (setOmega (t1 lib C L (initTrans C L W))) = some (.ok tb) := htb
    rw [this]
    exact ⟨_, rfl⟩
  · exact ⟨_, rfl⟩

/-- The same for circuits given as dictionaries. -/
theorem C30_circuit_returns_partial (torch : Bool) (fd : FluxDist) (O : Objs) (n : ℕ)
    (h : LoopId → LoopObj) (els : Elements) (hv : ValidElements n els)
    (hc : PositiveCaps O els) (hl : PositiveInds O els) (hg : GroundConnected n els) (a : Acc n)
    (ha : traverse torch fd O n h els = .ok a)
    (lib : NumLib n) (hlib : LibSpec lib a.cMat a.lMat) (hgap : SpectralGap lib a.lMat)
    (sv : SvdFn) (argsort : ArgsortFn) (argmax) (draws : Draws)
    (hsel : a.numJunWithoutInd = 0 ∨ (∀ j, modeFreq lib a.cMat a.lMat j ≠ 0) ∨
      SelectionFaithful sv argsort draws (arrayOf n a.wMat) (matS1 lib a.cMat a.lMat)
        (modeFreq lib a.cMat a.lMat)) (fuel : ℕ) :
    ∃ t, transformHamil lib sv argsort argmax draws a.numJunWithoutInd a.cMat a.lMat
      (arrayOf n a.wMat) (fuel + 3) (initTrans a.cMat a.lMat (arrayOf n a.wMat)) = some (.ok t) := by
  obtain ⟨hpsd, hker⟩ := traverse_graphKernel hv hc hl ha
  exact C30_returns_partial lib sv argsort argmax draws _ _ _
    (C16_cap_posdef torch fd O n h els hv hc hg a ha).1 hpsd hker _ (traverse_junctionRows hv ha)
    hlib hgap hsel fuel

/-- a circuit with a faithful selection: it returns -/
example (sv : SvdFn) (hsv : SvdSpec sv) (argsort : ArgsortFn) (ha : ArgsortSpec argsort)
    (argmax : ArgmaxFn 1) (draws : Draws) (fuel : ℕ) :
    ∃ t, transformHamil lcLib sv argsort argmax draws 1 1 lcL lcW (fuel + 3)
      (initTrans 1 lcL lcW) = some (.ok t) :=
  C30_returns_partial lcLib sv argsort argmax draws 1 1 lcL PosDef.one lcL_psd lcL_kernel lcW
    lcW_rows lcLib_spec lcLib_gap (Or.inr (Or.inr (lc_faithful hsv ha draws))) fuel

/-! ### non-termination -/

theorem independentRows_zero (argsort : ArgsortFn) {m k : ℕ} (A : Matrix (Fin m) (Fin k) ℝ)
    (hA : A = 0) : independentRows argsort A = ([], []) := by
  subst hA
  unfold independentRows
  generalize argsort m _ = l
  induction l with
  | nil => rfl
  | cons i l ih =>
    rw [List.foldl_cons]
    have : gsStep (0 : Matrix (Fin m) (Fin k) ℝ) ([], []) i = ([], []) := by
      unfold gsStep
      simp only
      rw [if_neg]
      rintro ⟨c, hc⟩
      have : gsResidual ([] : List (Fin k → ℝ)) (normRow ((0 : Matrix (Fin m) (Fin k) ℝ) i)) c = 0 := by
        simp [gsResidual, normRow]
      rw [this] at hc
      unfold accGS at hc
      norm_num at hc
    rw [this, ih]

theorem basisLoop_zero (argsort : ArgsortFn) (draws : Draws) {m k : ℕ} (hk : k ≠ 0)
    (A : Matrix (Fin m) (Fin k) ℝ) (hA : A = 0) (fuel t : ℕ) :
    basisLoop argsort draws A fuel ⟨[], [], [], t⟩ = none := by
  have h0 : ¬ ([] : List (Fin k → ℝ)).length = k := by simpa using Ne.symm hk
  induction fuel with
  | zero => rw [basisLoop, if_neg h0]
  | succ f ih =>
    rw [basisLoop, if_neg h0]
    have : basisStep argsort draws A ⟨[], [], [], t⟩ = ⟨[], [], [], t⟩ := by
      unfold basisStep
      simp [independentRows_zero argsort A hA]
    rw [this, ih]

/-- If some potentials are not seen by any inductor or junction, but there is a junction without
parallel inductor, construction never returns, whatever is drawn. -/
theorem C30_nontermination (lib : NumLib n) (sv : SvdFn) (argsort : ArgsortFn)
    (argmax : ArgmaxFn nJ) (draws : Draws) (numJ : ℕ) (hJ : numJ ≠ 0)
    (C L : Matrix (Fin n) (Fin n) ℝ) (hC : C.PosDef) (hL : L.PosSemidef)
    (W : Matrix (Fin nJ) (Fin n) ℝ) (hn : nJ ≠ 0)
    (hlib : LibSpec lib C L) (hgap : SpectralGap lib L)
    (hker : ∃ x, x ≠ 0 ∧ L *ᵥ x = 0) (hW : ∀ x, L *ᵥ x = 0 → W *ᵥ x = 0) (fuel : ℕ) :
    transformHamil lib sv argsort argmax draws numJ C L W fuel (initTrans C L W) = none := by
  have hLh := hL.isHermitian
  obtain ⟨d, hd, ho⟩ := afterT1_diag hC hLh hlib hgap W
  have hSu := matS1_isUnit hC hLh hlib
  obtain ⟨hinj, hk⟩ := chargeS_kernel hSu hd ho
  have hq : (chargeCols (afterT1 lib C L W).omega).length ≠ 0 := by
    intro h0
    obtain ⟨x, hx, hLx⟩ := hker
    obtain ⟨y, hy⟩ := (hk x).1 hLx
    apply hx
    rw [hy]
    have hy0 : y = 0 := by
      funext p
      have := p.isLt
      omega
    rw [hy0, mulVec_zero]
  have hwc : wCharge sv W (matS1 lib C L) (afterT1 lib C L W).omega = 0 := by
    ext i p
    have h1 := hW _ ((hk _).2 ⟨Pi.single p 1, rfl⟩)
    have h2 := congrFun h1 ((keptCols sv Wᵀ).get i)
    rw [mulVec_mulVec, mulVec_single_one] at h2
    exact h2
  have hch : ∀ f d, t2Choose sv argsort draws numJ W (matS1 lib C L) f d (afterT1 lib C L W) =
      none := by
    intro f d
    unfold t2Choose
    simp only
    rw [if_pos ⟨hq, hJ⟩, basisLoop_zero argsort draws hq _ hwc]
  have ht2 : ∀ f, t2 sv argsort draws numJ W (matS1 lib C L) f 0 (afterT1 lib C L W) = none := by
    intro f
    cases f with
    | zero => rfl
    | succ f => rw [t2, hch]
  unfold transformHamil
  simp only
  rw [if_pos hn]
  have : t2 sv argsort draws numJ W (t1S (lib.sqrtm C)
        (lib.svdVh (lib.sqrtm L * (lib.sqrtm C)⁻¹))
        (t1Scale (lib.svdD (lib.sqrtm L * (lib.sqrtm C)⁻¹)) (lib.eigvals L)).1) fuel 0
        (setOmega (t1 lib C L (initTrans C L W))) = none := ht2 fuel
  rw [this]

/-- eigenvalues of a diagonal matrix with values 0 and `c` have a gap -/
theorem gap_diagonal {lib : NumLib n} {C : Matrix (Fin n) (Fin n) ℝ} {d : Fin n → ℝ} {c : ℝ}
    (hc : 0 < c) (hd : ∀ i, d i = 0 ∨ d i = c) (hlib : LibSpec lib C (diagonal d)) :
    SpectralGap lib (diagonal d) := by
  have hval : ∀ i, lib.eigvals (diagonal d) i = 0 ∨ lib.eigvals (diagonal d) i = c := by
    intro i
    have hmem : lib.eigvals (diagonal d) i ∈ (diagonal d).charpoly.roots := by
      rw [hlib.eig]
      exact Multiset.mem_map.2 ⟨i, by simp, rfl⟩
    have hroot := (Polynomial.mem_roots'.1 hmem).2
    rw [charpoly_diagonal, Polynomial.IsRoot.def, Polynomial.eval_prod,
      Finset.prod_eq_zero_iff] at hroot
    obtain ⟨j, -, hj⟩ := hroot
    rw [Polynomial.eval_sub, Polynomial.eval_X, Polynomial.eval_C, sub_eq_zero] at hj
    rw [hj]; exact hd j
  intro i hi
  have hic : lib.eigvals (diagonal d) i = c := (hval i).resolve_left hi
  have hne : Nonempty (Fin n) := ⟨i⟩
  have hle : (⨆ k, lib.eigvals (diagonal d) k) ≤ c := by
    apply ciSup_le
    intro k
    rcases hval k with h | h <;> rw [h]
    exact hc.le
  have hge : c ≤ ⨆ k, lib.eigvals (diagonal d) k := by
    have := le_ciSup (f := lib.eigvals (diagonal d)) (Finite.bddAbove_range _) i
    rwa [hic] at this
  rw [le_antisymm hle hge, hic, div_self hc.ne']
  norm_num

/-- `{(0,1): [inductor], (0,2): [inductor], (1,2): [junction], (2,3): [capacitor]}`: node 3 is only
attached through a capacitor -/
def hangEls : Elements := [((0, 1), [0]), ((0, 2), [0]), ((1, 2), [2]), ((2, 3), [3])]

theorem hangEls_valid : ValidElements 3 hangEls := by
  intro p hp
  simp [hangEls] at hp
  rcases hp with rfl | rfl | rfl | rfl <;> simp [ValidEdge]

/-- There is a valid circuit with positive values, connected to ground, for which construction never
returns: for all numerical routines meeting their specification and all random draws. -/
theorem C30_hanging_circuit (torch : Bool) (fd : FluxDist) (h : LoopId → LoopObj) :
    numNodes hangEls = .ok 3 ∧ ValidElements 3 hangEls ∧ PositiveCaps exObjs hangEls ∧
    PositiveInds exObjs hangEls ∧ GroundConnected 3 hangEls ∧
    ∃ a, traverse torch fd exObjs 3 h hangEls = .ok a ∧
      (∃ lib, LibSpec lib a.cMat a.lMat) ∧
      ∀ lib, LibSpec lib a.cMat a.lMat → ∀ sv argsort argmax draws fuel,
        transformHamil lib sv argsort argmax draws a.numJunWithoutInd a.cMat a.lMat
          (arrayOf 3 a.wMat) fuel (initTrans a.cMat a.lMat (arrayOf 3 a.wMat)) = none := by
  have hcaps : PositiveCaps exObjs hangEls := by
    intro q hq
    simp [placements, hangEls] at hq
    rcases hq with rfl | rfl | rfl | rfl <;> simp [placedCap, exObjs]
  have hinds : PositiveInds exObjs hangEls := by
    intro q hq hk
    simp [placements, hangEls] at hq
    rcases hq with rfl | rfl | rfl | rfl <;> simp [exObjs] at hk ⊢
  have hground : GroundConnected 3 hangEls := by
    intro k hk
    have j1 : Joined hangEls 1 0 := ⟨((0,1),[0]), by simp [hangEls], by simp, by simp⟩
    have j2 : Joined hangEls 2 0 := ⟨((0,2),[0]), by simp [hangEls], by simp, by simp⟩
    have j3 : Joined hangEls 3 2 := ⟨((2,3),[3]), by simp [hangEls], by simp, by simp⟩
    interval_cases k
    · exact .refl
    · exact .single j1
    · exact .single j2
    · exact .tail (.single j3) j2
  have hind : ∀ p ∈ hangEls, ∀ i ∈ p.2, (exObjs.elem i).kind = .ind →
      (exObjs.elem i).value ≠ 0 := by
    intro p hp i hi hk
    simp [hangEls] at hp
    rcases hp with rfl | rfl | rfl | rfl <;> simp at hi <;> subst hi <;> simp [exObjs] at hk ⊢
  obtain ⟨a, ha⟩ := buildEdges_succeeds torch fd hangEls_valid hind (initAcc 3 h)
  have ha' : traverse torch fd exObjs 3 h hangEls = .ok a := ha
  have hC := (C16_cap_posdef torch fd exObjs 3 h hangEls hangEls_valid hcaps hground a ha').1
  have hL := (traverse_graphKernel hangEls_valid hcaps hinds ha').1
  have hLd : a.lMat = diagonal ![1/2, 1/2, 0] := by
    rw [(traverse_mats hangEls_valid ha').2]
    ext i j
    fin_cases i <;> fin_cases j <;>
      simp [placements, hangEls, placedInvInd, exObjs, eMat, incidence]
  have hwm : a.wMat = [[1, -1, 0]] := by
    rw [(traverse_inv hangEls_valid ha').2]; decide
  have hnum : a.numJunWithoutInd = 1 := by rw [traverse_numJ ha']; decide
  refine ⟨by decide, hangEls_valid, hcaps, hinds, hground, a, ha', ?_, ?_⟩
  · obtain ⟨lib, hlib⟩ := exists_lib 3
    exact ⟨lib, hlib _ _ hC hL⟩
  · intro lib hlib sv argsort argmax draws fuel
    have hgap : SpectralGap lib a.lMat := by
      rw [hLd] at hlib ⊢
      exact gap_diagonal (c := 1/2) (by norm_num) (by intro i; fin_cases i <;> simp) hlib
    refine C30_nontermination lib sv argsort argmax draws _ (by rw [hnum]; exact one_ne_zero)
      _ _ hC hL _ (by rw [hwm]; simp) hlib hgap ⟨![0, 0, 1], ?_, ?_⟩ ?_ fuel
    · intro h0; have := congrFun h0 2; simp at this
    · rw [hLd]; funext i; fin_cases i <;> simp [mulVec_diagonal]
    · intro x hx
      rw [hLd] at hx
      have h0 := congrFun hx 0
      have h1 := congrFun hx 1
      simp [mulVec_diagonal] at h0 h1
      rw [hwm]
      funext i
      have hi : i = ⟨0, by simp⟩ := by
        have hlt : (i : ℕ) < 1 := i.isLt
        exact Fin.ext (by change (i : ℕ) = 0; omega)
      subst hi
      simp [arrayOf, rowVec, mulVec, dotProduct, Fin.sum_univ_three, h0, h1]

end SQ
