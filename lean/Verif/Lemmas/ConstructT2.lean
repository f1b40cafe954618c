import Verif.Lemmas.T2
import Verif.Lemmas.ChargeSpace
import Verif.Lemmas.Traverse
import Verif.Props.Graph
import Mathlib.Analysis.Matrix.Order

/-!
# From circuits to the hypotheses of the second transformation
-/

namespace SQ
open Matrix Spec

variable {nJ n : ℕ}

/-- the charge columns of the first transformation -/
noncomputable def chargeS (S : Matrix (Fin n) (Fin n) ℝ) (cols : List (Fin n)) :
    Matrix (Fin n) (Fin cols.length) ℝ := Matrix.of fun i p => S i (cols.get p)

theorem chargeS_mulVec (S : Matrix (Fin n) (Fin n) ℝ) (omega : Fin n → ℝ)
    (z : Fin n → ℝ) (hz : ∀ j, omega j ≠ 0 → z j = 0) :
    S *ᵥ z = chargeS S (chargeCols omega) *ᵥ (fun p => z ((chargeCols omega).get p)) := by
  funext i
  exact sum_charge (fun j => S i j * z j) (fun j hj => by simp [hz j hj])

/-- extension by zero of a vector on the charge columns -/
noncomputable def chargeExt (omega : Fin n → ℝ) (y : Fin (chargeCols omega).length → ℝ) :
    Fin n → ℝ := open Classical in fun j =>
  if h : ∃ p, (chargeCols omega).get p = j then y h.choose else 0

theorem chargeCols_inj (omega : Fin n → ℝ) : Function.Injective (chargeCols omega).get :=
  List.nodup_iff_injective_get.1 ((chargeCols_pairwise omega).imp (fun h => ne_of_lt h))

theorem chargeExt_get (omega : Fin n → ℝ) (y : Fin (chargeCols omega).length → ℝ)
    (p : Fin (chargeCols omega).length) :
    chargeExt omega y ((chargeCols omega).get p) = y p := by
  unfold chargeExt
  have h : ∃ q, (chargeCols omega).get q = (chargeCols omega).get p := ⟨p, rfl⟩
  rw [dif_pos h, chargeCols_inj omega h.choose_spec]

theorem chargeExt_zero (omega : Fin n → ℝ) (y : Fin (chargeCols omega).length → ℝ) (j : Fin n)
    (hj : omega j ≠ 0) : chargeExt omega y j = 0 := by
  unfold chargeExt
  rw [dif_neg]
  rintro ⟨p, rfl⟩
  exact hj ((mem_chargeCols omega _).1 (List.get_mem _ _))

theorem chargeS_ext (S : Matrix (Fin n) (Fin n) ℝ) (omega : Fin n → ℝ)
    (y : Fin (chargeCols omega).length → ℝ) :
    chargeS S (chargeCols omega) *ᵥ y = S *ᵥ chargeExt omega y := by
  rw [chargeS_mulVec S omega _ (chargeExt_zero omega y)]
  congr 1
  funext p
  exact (chargeExt_get omega y p).symm

/-- The charge columns are a basis of the null space of `L` whenever `S` diagonalises `L` with zeros
exactly at the charge modes. -/
theorem chargeS_kernel {L S : Matrix (Fin n) (Fin n) ℝ} (hS : IsUnit S.det) {d : Fin n → ℝ}
    (hd : Sᵀ * L * S = diagonal d) {omega : Fin n → ℝ} (ho : ∀ j, omega j = 0 ↔ d j = 0) :
    (∀ y, chargeS S (chargeCols omega) *ᵥ y = 0 → y = 0) ∧
    (∀ x, L *ᵥ x = 0 ↔ ∃ y, x = chargeS S (chargeCols omega) *ᵥ y) := by
  constructor
  · intro y hy
    rw [chargeS_ext] at hy
    have : chargeExt omega y = 0 := by
      have h := congrArg (fun v => S⁻¹ *ᵥ v) hy
      simpa [mulVec_mulVec, nonsing_inv_mul _ hS] using h
    funext p
    rw [← chargeExt_get omega y p, this]; rfl
  · intro x
    have hSt : IsUnit Sᵀ.det := by rwa [det_transpose]
    have key : ∀ z, L *ᵥ (S *ᵥ z) = 0 ↔ ∀ j, d j * z j = 0 := by
      intro z
      have e : Sᵀ *ᵥ (L *ᵥ (S *ᵥ z)) = fun j => d j * z j := by
        rw [mulVec_mulVec, mulVec_mulVec, hd]
        funext j; rw [mulVec_diagonal]
      constructor
      · intro h j
        rw [h, mulVec_zero] at e
        exact (congrFun e j).symm
      · intro h
        have e' : Sᵀ *ᵥ (L *ᵥ (S *ᵥ z)) = 0 := by rw [e]; funext j; exact h j
        have h := congrArg (fun v => (Sᵀ)⁻¹ *ᵥ v) e'
        simpa only [mulVec_mulVec, nonsing_inv_mul_cancel_left _ _ hSt, ← Matrix.mul_assoc,
          nonsing_inv_mul _ hSt, Matrix.one_mul, mulVec_zero] using h
    constructor
    · intro hx
      have hxz : x = S *ᵥ (S⁻¹ *ᵥ x) := by rw [mulVec_mulVec, mul_nonsing_inv _ hS, one_mulVec]
      rw [hxz] at hx
      have hz := (key _).1 hx
      refine ⟨_, hxz.trans (chargeS_mulVec S omega _ ?_)⟩
      intro j hj
      exact (mul_eq_zero.1 (hz j)).resolve_left (fun h => hj ((ho j).2 h))
    · rintro ⟨y, rfl⟩
      rw [chargeS_ext, key]
      intro j
      by_cases h : omega j = 0
      · rw [(ho j).1 h, zero_mul]
      · rw [chargeExt_zero _ _ _ h, mul_zero]

/-- junction rows in charge coordinates are integral combinations, with at most one +1 and one -1,
of the rows of an invertible matrix -/
theorem chargeRow_inc {L S : Matrix (Fin n) (Fin n) ℝ} {W : Matrix (Fin nJ) (Fin n) ℝ}
    (hW : JunctionRows W) (hL : GraphKernel L) (hS : IsUnit S.det) {d : Fin n → ℝ}
    (hd : Sᵀ * L * S = diagonal d) {omega : Fin n → ℝ} (ho : ∀ j, omega j = 0 ↔ d j = 0) :
    ∃ B : Matrix (Fin (chargeCols omega).length) (Fin (chargeCols omega).length) ℝ,
      IsUnit B.det ∧ ∀ i, ∃ N, IncRow N ∧ chargeRow W S (chargeCols omega) i = N ᵥ* B := by
  obtain ⟨E, hE⟩ := hL
  obtain ⟨hinj, hker⟩ := chargeS_kernel hS hd ho
  obtain ⟨B, comp, hB, hcomp⟩ := charge_basis E (chargeS S (chargeCols omega)) hinj
    (fun x => (hE x).symm.trans (hker x))
  refine ⟨B, hB, fun i => ?_⟩
  obtain ⟨a, b, hab⟩ := hW i
  obtain ⟨N, hN, hrow⟩ := inc_of_comp hcomp a b
  refine ⟨N, hN, ?_⟩
  rw [← hrow]
  have key : ∀ y, chargeRow W S (chargeCols omega) i ⬝ᵥ y =
      (nodeRow (chargeS S (chargeCols omega)) a - nodeRow (chargeS S (chargeCols omega)) b) ⬝ᵥ y := by
    intro y
    rw [sub_dotProduct, ← pot_mulVec, ← pot_mulVec, ← hab, mulVec_mulVec]
    rfl
  funext p
  have := key (Pi.single p 1)
  rwa [dotProduct_single_one, dotProduct_single_one] at this

theorem afterT1_diag {lib : NumLib n} {C L : Matrix (Fin n) (Fin n) ℝ} (hC : C.PosDef)
    (hL : L.IsHermitian) (h : LibSpec lib C L) (hg : SpectralGap lib L)
    (W : Matrix (Fin nJ) (Fin n) ℝ) :
    ∃ d, (matS1 lib C L)ᵀ * L * matS1 lib C L = diagonal d ∧
      ∀ j, (afterT1 lib C L W).omega j = 0 ↔ d j = 0 := by
  have h1 := (afterT1_canon hC hL h hg W).ind
  rw [afterT1_S, afterT1_l hC hL h] at h1
  refine ⟨_, h1.symm, ?_⟩
  intro j
  rw [afterT1_omega_zero_iff hC hL h]
  constructor
  · intro hs; simp [hs]
  · intro h0
    by_contra hs
    simp only [if_neg hs] at h0
    rcases mul_eq_zero.1 h0 with h0 | h0
    · exact (scaleD_pos hC hL h j).ne' h0
    · have := (svdD_pos_iff hC h j).2 (by have := singStart_le (C := C) hL h; omega)
      exact this.ne' (pow_eq_zero_iff (two_ne_zero) |>.1 h0)

/-! ### the matrices of a circuit -/

/-- edges carrying a junction but no inductor -/
def bareJunctionEdges (O : Objs) (els : Elements) : List (Edge × List ElemId) :=
  els.filter (fun p => p.2.any (fun i => decide ((O.elem i).kind = .jj)) &&
    !p.2.any (fun i => decide ((O.elem i).kind = .ind)))

theorem buildEdges_numJ {torch fd} {O : Objs} {els : Elements} {a a' : Acc n}
    (ha : buildEdges torch fd O els a = .ok a') :
    a'.numJunWithoutInd = a.numJunWithoutInd + (bareJunctionEdges O els).length := by
  induction els generalizing a with
  | nil => simp [buildEdges] at ha; subst ha; simp [bareJunctionEdges]
  | cons p ps ih =>
    obtain ⟨b, hb, hrest⟩ := buildEdges_cons_ok ha
    rw [ih hrest]
    have hstep : b.numJunWithoutInd = a.numJunWithoutInd +
        (if p.2.any (fun i => decide ((O.elem i).kind = .jj)) &&
          !p.2.any (fun i => decide ((O.elem i).kind = .ind)) then 1 else 0) := by
      unfold edgeStep at hb
      cases hw : wAtEdge n p.1 with
      | error e => simp [hw] at hb
      | ok w =>
        cases hm : matrixRep n p.1 with
        | error e => simp [hw, hm] at hb
        | ok m =>
          cases hx : effInd O p.2 with
          | error e => simp [hw, hm, hx] at hb
          | ok x =>
            simp only [hw, hm, hx] at hb
            have e1 : ((edgeJuncs O p.2).length ≠ 0 ∧ (edgeInds O p.2).length = 0) ↔
                (p.2.any (fun i => decide ((O.elem i).kind = .jj)) &&
                  !p.2.any (fun i => decide ((O.elem i).kind = .ind))) = true := by
              simp [edgeJuncs, edgeInds, List.filter_eq_nil_iff]
            by_cases hc : (p.2.any (fun i => decide ((O.elem i).kind = .jj)) &&
                !p.2.any (fun i => decide ((O.elem i).kind = .ind))) = true
            · have hc' := e1.2 hc
              rw [if_pos hc]
              rw [if_pos hc', if_pos hc'.1] at hb
              cases hb; rfl
            · have hc' := fun h => hc (e1.1 h)
              rw [if_neg hc]
              rw [if_neg hc'] at hb
              split at hb <;> (cases hb; rfl)
    rw [hstep]
    unfold bareJunctionEdges
    rw [List.filter_cons]
    split <;> rename_i h <;> simp [h] <;> omega

theorem traverse_numJ {torch fd} {O : Objs} {h : LoopId → LoopObj} {els : Elements}
    {a : Acc n} (ha : traverse torch fd O n h els = .ok a) :
    a.numJunWithoutInd = (bareJunctionEdges O els).length := by
  have := buildEdges_numJ ha
  simpa [initAcc] using this

theorem traverse_junctionRows {torch fd} {O : Objs} {h : LoopId → LoopObj} {els : Elements}
    (hv : ValidElements n els) {a : Acc n} (ha : traverse torch fd O n h els = .ok a) :
    JunctionRows (arrayOf n a.wMat) := by
  have hw := (traverse_inv hv ha).2
  intro i
  have hmem : a.wMat.get i ∈ (junctionEdges O els).map (incVec n) := hw ▸ List.get_mem _ _
  obtain ⟨e, he, hrow⟩ := List.mem_map.1 hmem
  obtain ⟨p, hp, rfl⟩ := List.mem_map.1 he
  have hve : ValidEdge n p.1 := hv p (List.mem_filter.1 hp).1
  have hval : ∀ x : Fin n → ℝ, (arrayOf n a.wMat *ᵥ x) i =
      ∑ k : Fin n, (incidence p.1 (k + 1) : ℝ) * x k := by
    intro x
    change ∑ k : Fin n, rowVec n (a.wMat.get i) k * x k = _
    apply Finset.sum_congr rfl
    intro k _
    rw [← hrow]
    simp [rowVec, incVec]
  by_cases h0 : p.1.1 = 0
  · refine ⟨p.1.2, p.1.1, fun x => ?_⟩
    rw [hval, sum_incidence hve, if_pos h0, branchDiff]; ring
  · refine ⟨p.1.1, p.1.2, fun x => ?_⟩
    rw [hval, sum_incidence hve, if_neg h0, branchDiff]

theorem traverse_lMat_symm {torch fd} {O : Objs} {h : LoopId → LoopObj} {els : Elements}
    (hv : ValidElements n els) {a : Acc n} (ha : traverse torch fd O n h els = .ok a) :
    a.lMat.IsSymm := by
  rw [(traverse_mats hv ha).2]
  have hsym : ∀ (f : Edge × ElemId → ℝ) (l : List (Edge × ElemId)),
      (l.map (fun q => f q • eMat n q.1)).sum.IsSymm := by
    intro f l
    induction l with
    | nil => simp [Matrix.IsSymm]
    | cons q l ih =>
      simp only [Matrix.IsSymm] at ih ⊢
      rw [List.map_cons, List.sum_cons, Matrix.transpose_add, Matrix.transpose_smul, eMat_symm, ih]
  exact hsym (fun q => placedInvInd O q.2) _

theorem traverse_graphKernel {torch fd} {O : Objs} {h : LoopId → LoopObj} {els : Elements}
    (hv : ValidElements n els) (hc : PositiveCaps O els) (hl : PositiveInds O els) {a : Acc n}
    (ha : traverse torch fd O n h els = .ok a) : a.lMat.PosSemidef ∧ GraphKernel a.lMat := by
  have hpsd : a.lMat.PosSemidef := by
    refine Matrix.PosSemidef.of_dotProduct_mulVec_nonneg ?_ ?_
    · rw [Matrix.IsHermitian, Matrix.conjTranspose_eq_transpose_of_trivial]
      exact traverse_lMat_symm hv ha
    · intro x
      rw [star_trivial]
      exact (C14_psd torch fd O n h els hv hc hl a ha x).2
  refine ⟨hpsd, {e | ∃ p ∈ els, p.1 = e ∧ ∃ i ∈ p.2, (O.elem i).kind = .ind}, fun x => ?_⟩
  have h1 := (C17_null_space torch fd O n h els hv hl a ha).1 x
  have h2 := hpsd.dotProduct_mulVec_zero_iff x
  rw [star_trivial] at h2
  rw [← h2, h1]
  constructor
  · rintro hx e ⟨p, hp, rfl, i, hi, hk⟩
    exact hx p hp i hi hk
  · intro hx p hp i hi hk
    exact hx p.1 ⟨p, hp, rfl, i, hi, hk⟩

end SQ
