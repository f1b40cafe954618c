import Verif.Lemmas.Coupling
import Verif.Lemmas.ExampleCircuit
import Verif.Props.Transform
import Verif.Props.Graph

/-!
# C33–C35: coupling operators
-/

namespace SQ
open SQ.Spec Matrix

variable {nJ n : ℕ}

/-! ## C33 coefficients belong to the modes they multiply

Full statement: for every circuit, type, valid pair of nodes and mode operators,
`coupling_op = ∑ over retained modes i of (coefficient of the original mode keep i) * operator i`.
This fails when a removed mode precedes a retained one (`C33_refuted`); it holds exactly when the
retained modes come first (`C33_alignment_iff`), in particular always under PyTorch and whenever no
mode is uncoupled. -/

/-- what `coupling_op` should return -/
noncomputable def couplingSpec {V : Type*} [AddCommGroup V] [Module ℂ V] (ctype : String)
    (C : Matrix (Fin n) (Fin n) ℝ) (M : Modes nJ n) (ops : Fin M.keep.length → V) (e : Edge) : V :=
  ∑ i : Fin M.keep.length,
    ((coupleAt ctype (modeColumn ctype C M (M.keep.get i)) e : ℝ) : ℂ) • ops i

/-- holds when the retained modes come first; missing: the circuits where they do not, for which
the statement is false (`C33_refuted`) -/
theorem C33_coefficients_partial {V : Type*} [AddCommGroup V] [Module ℂ V]
    (C : Matrix (Fin n) (Fin n) ℝ) (M : Modes nJ n) (hal : Aligned M)
    (Qop phiOp : Fin M.keep.length → V) (e : Edge) (hv : ValidEdge n e) :
    couplingOp "capacitive" C M Qop phiOp e = .ok (couplingSpec "capacitive" C M Qop e) ∧
    couplingOp "inductive" C M Qop phiOp e = .ok (couplingSpec "inductive" C M phiOp e) := by
  have hk : M.keep.length ≤ n := by
    by_contra hlt
    have := hal ⟨n, by omega⟩
    have h2 := (M.keep.get ⟨n, by omega⟩).isLt
    simp only at this
    omega
  have hcol : ∀ i : Fin M.keep.length,
      (⟨i, lt_of_lt_of_le i.isLt hk⟩ : Fin n) = M.keep.get i :=
    fun i => Fin.ext (hal i).symm
  constructor
  · rw [couplingOp_ok (Or.inl rfl) C M hk Qop phiOp hv]
    unfold couplingSpec
    simp only [hcol, if_true]
  · rw [couplingOp_ok (Or.inr rfl) C M hk Qop phiOp hv]
    unfold couplingSpec
    simp only [hcol, show ¬ ("inductive" = "capacitive") by decide, if_false]

/-- the modes of a circuit built under PyTorch, or without junctions, or in which every mode is
coupled to a junction, are aligned -/
theorem C33_aligned_cases (t : Trans nJ n) :
    Aligned (finishModes true t) ∧ (nJ = 0 → Aligned (finishModes false t)) ∧
    ((∀ j, ∃ i, t.w i j ≠ 0) → Aligned (finishModes false t)) := by
  have hfull : ∀ M : Modes nJ n, M.keep = List.finRange n → Aligned M := by
    intro M hM i
    obtain ⟨keep, a, b, c, d, S, R⟩ := M
    simp only at hM
    subst hM
    simp
  obtain ⟨h1, ⟨h2, h3⟩, h4⟩ := C32_uncoupled_removal t
  refine ⟨hfull _ h3, fun h0 => hfull _ (h2 h0), fun hall => ?_⟩
  by_cases hJ : nJ = 0
  · exact hfull _ (h2 hJ)
  · apply hfull
    apply List.Pairwise.eq_of_mem_iff (r := (· < ·)) (h4 false).1 (List.pairwise_lt_finRange n)
    intro j
    rw [h1 hJ j]
    simp [hall j]

/-- The coefficients are right for every ground-referred pair exactly when the retained modes come
first: for any invertible transformation (`S` invertible), removing a mode that precedes a retained
one makes some inductive coupling operator wrong. -/
theorem C33_alignment_iff (C : Matrix (Fin n) (Fin n) ℝ) (t : Trans nJ n) (torch : Bool)
    (hS : IsUnit t.S.det) :
    (∀ (Qop phiOp : Fin (finishModes torch t).keep.length →
        (Fin (finishModes torch t).keep.length → ℂ)) (e : Edge), ValidEdge n e →
      couplingOp "inductive" C (finishModes torch t) Qop phiOp e =
        .ok (couplingSpec "inductive" C (finishModes torch t) phiOp e)) ↔
    Aligned (finishModes torch t) := by
  constructor
  · intro h
    obtain ⟨keep, hM, hp⟩ := finishModes_eq torch t
    rw [hM] at h ⊢
    have hk := keep_len_le hp
    intro i
    -- compare columns `i` and `keep i` of `S`
    by_contra hne
    have hcol : ∀ a : Fin n, t.S a ⟨i, lt_of_lt_of_le i.isLt hk⟩ = t.S a (keep.get i) := by
      intro a
      have h1 := h (fun _ => 0) (fun j => Pi.single j 1) (0, (a : ℕ) + 1)
        ⟨by simp, by simp, by have := a.isLt; simp only; omega⟩
      rw [couplingOp_ok (Or.inr rfl) C (restrict t keep) hk _ _
        ⟨by simp, by simp, by have := a.isLt; simp only; omega⟩] at h1
      have h2 := congrFun (Except.ok.inj h1) i
      simp only [couplingSpec, Finset.sum_apply, Pi.smul_apply, Pi.single_apply, smul_eq_mul,
        show ¬ ("inductive" = "capacitive") by decide, if_false, mul_ite, mul_one, mul_zero,
        Finset.sum_ite_eq, Finset.mem_univ, if_true, Complex.ofReal_inj] at h2
      simpa [coupleAt, pot, modeColumn, restrict] using h2
    have hdet : t.S.det = 0 := by
      apply det_zero_of_column_eq (i := ⟨i, lt_of_lt_of_le i.isLt hk⟩) (j := keep.get i)
      · intro heq
        exact hne (congrArg Fin.val heq).symm
      · exact hcol
    exact hS.ne_zero hdet
  · intro hal Qop phiOp e hv
    exact (C33_coefficients_partial C _ hal Qop phiOp e hv).2

theorem lc_keep : (finishModes false lcFinal).keep = [1] := by
  obtain ⟨h1, -, h3⟩ := C32_uncoupled_removal lcFinal
  have hmem := h1 one_ne_zero
  apply List.Pairwise.eq_of_mem_iff (r := (· < ·)) (h3 false).1 (by simp)
  intro j
  rw [hmem]
  fin_cases j
  · simp [lcFinal, lcW]
  · simp only [List.mem_singleton, Fin.mk_one, iff_true]
    exact ⟨0, by simp [lcFinal, lcW]⟩

/-- The circuit with an inductor on (0,1) and a junction on (0,2), under NumPy (`lc_result`: its
constructor produces `lcFinal`): `coupling_op('capacitive', (0, 2))` is the zero operator, although
the junction's charge operator enters node 2 with coefficient one. -/
theorem C33_refuted : ∀ {V : Type} [AddCommGroup V] [Module ℂ V]
    (Qop phiOp : Fin (finishModes false lcFinal).keep.length → V),
    couplingOp "capacitive" 1 (finishModes false lcFinal) Qop phiOp (0, 2) = .ok 0 ∧
    couplingSpec "capacitive" 1 (finishModes false lcFinal) Qop (0, 2) = ∑ i, Qop i := by
  intro V _ _ Qop phiOp
  have hk : (finishModes false lcFinal).keep.length ≤ 2 := by rw [lc_keep]; simp
  have hR : (finishModes false lcFinal).R = 1 := by
    obtain ⟨keep, hM, -⟩ := finishModes_eq false lcFinal
    rw [hM]; rfl
  have hlen : ∀ i : Fin (finishModes false lcFinal).keep.length, (i : ℕ) = 0 := by
    intro i
    have h1 := i.isLt
    have h2 : (finishModes false lcFinal).keep.length = 1 := by rw [lc_keep]; rfl
    omega
  have hget : ∀ i, (finishModes false lcFinal).keep.get i = 1 := by
    intro i
    have := List.get_mem (finishModes false lcFinal).keep i
    generalize (finishModes false lcFinal).keep.get i = x at this
    rw [lc_keep] at this
    simpa using this
  constructor
  · rw [couplingOp_ok (Or.inl rfl) _ _ hk Qop phiOp ⟨by simp, by simp, by simp⟩]
    congr 1
    apply Finset.sum_eq_zero
    intro i _
    have e : (⟨i, lt_of_lt_of_le i.isLt hk⟩ : Fin 2) = 0 := Fin.ext (hlen i)
    rw [e]
    simp [coupleAt, pot, modeColumn, hR]
  · unfold couplingSpec
    apply Finset.sum_congr rfl
    intro i _
    rw [hget i]
    simp [coupleAt, pot, modeColumn, hR]

/-- the same circuit under PyTorch keeps both modes and is aligned -/
example : Aligned (finishModes true lcFinal) ∧ ¬ Aligned (finishModes false lcFinal) := by
  refine ⟨(C33_aligned_cases lcFinal).1, fun h => ?_⟩
  have h2 : (finishModes false lcFinal).keep.length = 1 := by rw [lc_keep]; rfl
  have h0 := h ⟨0, by omega⟩
  have := List.get_mem (finishModes false lcFinal).keep ⟨0, by omega⟩
  generalize (finishModes false lcFinal).keep.get ⟨0, by omega⟩ = x at this h0
  rw [lc_keep] at this
  have hx : x = 1 := by simpa using this
  subst hx
  simp at h0

/-! ## C34 inductors never couple to charge modes -/

/-- For every edge carrying an inductor the flux pattern of every charge mode takes the same value at
both ends, so the coefficient of the mode in the inductor's coupling operator (before removal of
modes) is zero. -/
theorem C34_charge_mode_patterns (torch : Bool) (fd : FluxDist) (O : Objs)
    (hp : LoopId → LoopObj) (els : Elements) (hv : ValidElements n els) (hl : PositiveInds O els)
    (a : Acc n) (ha : traverse torch fd O n hp els = .ok a) (hC : a.cMat.PosDef)
    (lib : NumLib n) (sv : SvdFn) (argsort : ArgsortFn)
    (argmax : ArgmaxFn a.wMat.length) (hmax : ArgmaxSpec argmax)
    (draws : Draws) (hlib : LibSpec lib a.cMat a.lMat) (hgap : SpectralGap lib a.lMat)
    (fuel : ℕ) (t : Trans a.wMat.length n)
    (ht : transformHamil lib sv argsort argmax draws a.numJunWithoutInd a.cMat a.lMat
      (arrayOf n a.wMat) fuel (initTrans a.cMat a.lMat (arrayOf n a.wMat)) = some (.ok t))
    (p : Edge × List ElemId) (hpe : p ∈ els) (i : ElemId) (hi : i ∈ p.2)
    (hk : (O.elem i).kind = .ind) (j : Fin n) (hj : t.omega j = 0) :
    pot (fun r => t.S r j) p.1.1 = pot (fun r => t.S r j) p.1.2 ∧
    coupleAt "inductive" (fun r => t.S r j) p.1 = 0 ∧
    couplingCoef "inductive" t.S p.1 j = .ok 0 := by
  have hLh : a.lMat.IsHermitian := by
    rw [Matrix.IsHermitian, Matrix.conjTranspose_eq_transpose_of_trivial]
    exact traverse_lMat_symm hv ha
  have hl0 := final_l_charge hC hLh hlib ht j hj j
  have hcan := (C26_canonical_construction lib sv argsort argmax hmax draws _ _ _ hC hLh _ hlib hgap
    fuel t ht).2.2.1
  have hquad : (fun r => t.S r j) ⬝ᵥ (a.lMat *ᵥ (fun r => t.S r j)) = 0 := by
    have : (t.Sᵀ * a.lMat * t.S) j j = 0 := by rw [← hcan]; exact hl0
    rw [← this, Matrix.mul_assoc, mul_apply]
    simp only [dotProduct, mulVec, mul_apply, transpose_apply]
  have heq := ((C17_null_space torch fd O n hp els hv hl a ha).1 _).1 hquad p hpe i hi hk
  have hval := hv p hpe
  have hz : coupleAt "inductive" (fun r => t.S r j) p.1 = 0 := by
    unfold coupleAt
    obtain ⟨⟨x, y⟩, l⟩ := p
    simp only at heq hval ⊢
    by_cases h0 : x = 0 ∨ y = 0
    · rw [if_pos h0]
      rcases h0 with rfl | rfl
      · rw [Nat.zero_max, ← heq]; rfl
      · rw [Nat.max_zero, heq]; rfl
    · rw [if_neg h0, if_neg (by decide), heq, sub_self]
  refine ⟨heq, hz, ?_⟩
  rw [couplingCoef_ok "inductive" t.S hval j.isLt]
  exact congrArg _ hz

/-- Consequently, when the retained modes come first, the operator that enters the Hamiltonian for an
inductor does not depend on the placeholder flux operators of the charge modes.  Missing: misaligned
circuits, where the claim is false (`C34_refuted`). -/
theorem C34_placeholder_partial {V : Type*} [AddCommGroup V] [Module ℂ V]
    (torch : Bool) (fd : FluxDist) (O : Objs)
    (hp : LoopId → LoopObj) (els : Elements) (hv : ValidElements n els) (hl : PositiveInds O els)
    (a : Acc n) (ha : traverse torch fd O n hp els = .ok a) (hC : a.cMat.PosDef)
    (lib : NumLib n) (sv : SvdFn) (argsort : ArgsortFn)
    (argmax : ArgmaxFn a.wMat.length) (hmax : ArgmaxSpec argmax)
    (draws : Draws) (hlib : LibSpec lib a.cMat a.lMat) (hgap : SpectralGap lib a.lMat)
    (fuel : ℕ) (t : Trans a.wMat.length n)
    (ht : transformHamil lib sv argsort argmax draws a.numJunWithoutInd a.cMat a.lMat
      (arrayOf n a.wMat) fuel (initTrans a.cMat a.lMat (arrayOf n a.wMat)) = some (.ok t))
    (eng : Bool) (hal : Aligned (finishModes eng t))
    (p : Edge × List ElemId) (hpe : p ∈ els) (i : ElemId) (hi : i ∈ p.2)
    (hk : (O.elem i).kind = .ind)
    (Qop phi phi' : Fin (finishModes eng t).keep.length → V)
    (hphi : ∀ k, (finishModes eng t).omega k ≠ 0 → phi k = phi' k) :
    couplingOp "inductive" a.cMat (finishModes eng t) Qop phi p.1 =
      couplingOp "inductive" a.cMat (finishModes eng t) Qop phi' p.1 := by
  have hval := hv p hpe
  rw [(C33_coefficients_partial _ _ hal Qop phi p.1 hval).2,
    (C33_coefficients_partial _ _ hal Qop phi' p.1 hval).2]
  congr 1
  unfold couplingSpec
  apply Finset.sum_congr rfl
  intro k _
  by_cases h0 : (finishModes eng t).omega k = 0
  · have hS : ∀ j, modeColumn "inductive" a.cMat (finishModes eng t) j = fun r => t.S r j := by
      obtain ⟨keep, hM, -⟩ := finishModes_eq eng t
      rw [hM]
      intro j
      funext r
      simp [modeColumn, restrict]
    have hom : t.omega ((finishModes eng t).keep.get k) = 0 := by
      rw [← ((C32_uncoupled_removal t).2.2 eng).2.1 k, h0]
    rw [hS, (C34_charge_mode_patterns torch fd O hp els hv hl a ha hC lib sv argsort argmax hmax draws
      hlib hgap fuel t ht p hpe i hi hk _ hom).2.1]
    simp
  · rw [hphi k h0]

/-- In the circuit of `C33_refuted` (NumPy) the only retained mode is a charge mode, and the operator
used for the inductor on (0,1) is its placeholder flux operator with coefficient one. -/
theorem C34_refuted : ∀ {V : Type} [AddCommGroup V] [Module ℂ V]
    (Qop phiOp : Fin (finishModes false lcFinal).keep.length → V),
    (∀ k, (finishModes false lcFinal).omega k = 0) ∧
    couplingOp "inductive" 1 (finishModes false lcFinal) Qop phiOp (0, 1) = .ok (∑ k, phiOp k) := by
  intro V _ _ Qop phiOp
  have hk : (finishModes false lcFinal).keep.length ≤ 2 := by rw [lc_keep]; simp
  have hS : (finishModes false lcFinal).S = 1 := by
    obtain ⟨keep, hM, -⟩ := finishModes_eq false lcFinal
    rw [hM]; rfl
  have hlen : ∀ i : Fin (finishModes false lcFinal).keep.length, (i : ℕ) = 0 := by
    intro i
    have h1 := i.isLt
    have h2 : (finishModes false lcFinal).keep.length = 1 := by rw [lc_keep]; rfl
    omega
  have hget : ∀ i, (finishModes false lcFinal).keep.get i = 1 := by
    intro i
    have := List.get_mem (finishModes false lcFinal).keep i
    generalize (finishModes false lcFinal).keep.get i = x at this
    rw [lc_keep] at this
    simpa using this
  constructor
  · intro k
    rw [((C32_uncoupled_removal lcFinal).2.2 false).2.1 k, hget k]
    simp [lcFinal]
  · rw [couplingOp_ok (Or.inr rfl) _ _ hk Qop phiOp ⟨by simp, by simp, by simp⟩]
    congr 1
    apply Finset.sum_congr rfl
    intro i _
    have e : (⟨i, lt_of_lt_of_le i.isLt hk⟩ : Fin 2) = 0 := Fin.ext (hlen i)
    rw [e]
    simp [coupleAt, pot, modeColumn, hS]

/-- the LC/junction circuit meets the hypotheses of C34: its second mode is a charge mode, and takes
the same flux (zero) at both ends of the inductor on (0,1) -/
example {sv : SvdFn} (hsv : SvdSpec sv) {argsort : ArgsortFn} (hs : ArgsortSpec argsort)
    (argmax : ArgmaxFn 1) (hmax : ArgmaxSpec argmax) (draws : Draws)
    (h : LoopId → LoopObj) : ∃ a : Acc 2, traverse true .all lcObjs 2 h lcEls = .ok a ∧
      ∃ t : Trans a.wMat.length 2, t.omega 1 = 0 ∧ pot (fun r => t.S r 1) 0 = pot (fun r => t.S r 1) 1 := by
  obtain ⟨-, a, ha, h1, h2, h3, h4⟩ := lc_traverse true .all h
  refine ⟨a, ha, ?_⟩
  obtain ⟨st, cM, lM, wM, wI, nJ⟩ := a
  simp only at h1 h2 h3 h4
  subst h1 h2 h3 h4
  refine ⟨lcFinal, by simp [lcFinal], ?_⟩
  have hW : arrayOf 2 [[0, 1]] = lcW := by
    ext i j
    fin_cases i
    fin_cases j <;> simp [arrayOf, rowVec, lcW]
  have hr : transformHamil lcLib sv argsort argmax draws 1 1 lcL (arrayOf 2 [[0, 1]]) 3
      (initTrans 1 lcL (arrayOf 2 [[0, 1]])) = some (.ok lcFinal) := by
    rw [hW]
    exact lc_result hsv hs argmax draws 0
  have hpos : PositiveInds lcObjs lcEls := by
    intro q hq hk
    simp [placements, lcEls] at hq
    rcases hq with rfl | rfl <;> simp [lcObjs] at hk ⊢
  exact (C34_charge_mode_patterns true .all lcObjs h lcEls lcEls_valid hpos _ ha PosDef.one lcLib sv
    argsort argmax hmax draws lcLib_spec lcLib_gap 3 lcFinal hr ((0, 1), [0]) (by simp [lcEls]) 0
    (by simp) (by simp [lcObjs]) 1 (by simp [lcFinal])).1

/-! ## C35 orientation of coupling_op -/

theorem C35_orientation {V : Type*} [AddCommGroup V] [Module ℂ V] (C : Matrix (Fin n) (Fin n) ℝ)
    (M : Modes nJ n) (hk : M.keep.length ≤ n) (Qop phiOp : Fin M.keep.length → V) (ctype : String)
    (hc : ctype = "capacitive" ∨ ctype = "inductive") :
    -- swapping two non-ground nodes negates
    (∀ a b, a ≠ 0 → b ≠ 0 → ValidEdge n (a, b) →
      ∃ x, couplingOp ctype C M Qop phiOp (a, b) = .ok x ∧
        couplingOp ctype C M Qop phiOp (b, a) = .ok (-x)) ∧
    -- with ground, the order is irrelevant
    (∀ b, ValidEdge n (0, b) →
      ∃ x, couplingOp ctype C M Qop phiOp (0, b) = .ok x ∧
        couplingOp ctype C M Qop phiOp (b, 0) = .ok x) ∧
    -- three different non-ground nodes
    (∀ a b c, a ≠ 0 → b ≠ 0 → c ≠ 0 → ValidEdge n (a, b) → ValidEdge n (b, c) → ValidEdge n (a, c) →
      ∃ x y, couplingOp ctype C M Qop phiOp (a, b) = .ok x ∧
        couplingOp ctype C M Qop phiOp (b, c) = .ok y ∧
        couplingOp ctype C M Qop phiOp (a, c) = .ok (x + y)) ∧
    -- relation of a pair of non-ground nodes to the ground-referred operators
    (∀ a b, a ≠ 0 → b ≠ 0 → ValidEdge n (a, b) →
      ∃ x y, couplingOp ctype C M Qop phiOp (a, 0) = .ok x ∧
        couplingOp ctype C M Qop phiOp (b, 0) = .ok y ∧
        couplingOp ctype C M Qop phiOp (a, b) =
          .ok (if ctype = "capacitive" then y - x else x - y)) := by
  have hop : ∀ e, ValidEdge n e → _ := fun e he => couplingOp_ok hc C M hk Qop phiOp (e := e) he
  have hsw : ∀ {a b : ℕ}, ValidEdge n (a, b) → ValidEdge n (b, a) :=
    fun h => ⟨fun e => h.1 e.symm, h.2.2, h.2.1⟩
  refine ⟨?_, ?_, ?_, ?_⟩
  · intro a b ha hb hv
    refine ⟨_, hop _ hv, ?_⟩
    rw [hop _ (hsw hv)]
    congr 1
    rw [← Finset.sum_neg_distrib]
    apply Finset.sum_congr rfl
    intro i _
    rw [← neg_smul, ← Complex.ofReal_neg]
    congr 2
    simp only [coupleAt, ha, hb, or_self, if_false]
    split <;> ring
  · intro b hv
    refine ⟨_, hop _ hv, ?_⟩
    rw [hop _ (hsw hv)]
    simp [coupleAt]
  · intro a b c ha hb hc' h1 h2 h3
    refine ⟨_, _, hop _ h1, hop _ h2, ?_⟩
    rw [hop _ h3]
    congr 1
    rw [← Finset.sum_add_distrib]
    apply Finset.sum_congr rfl
    intro i _
    rw [← add_smul, ← Complex.ofReal_add]
    congr 2
    simp only [coupleAt, ha, hb, hc', or_self, if_false]
    split <;> ring
  · intro a b ha hb hv
    have hva : ValidEdge n (a, 0) := ⟨ha, hv.2.1, Nat.zero_le _⟩
    have hvb : ValidEdge n (b, 0) := ⟨hb, hv.2.2, Nat.zero_le _⟩
    refine ⟨_, _, hop _ hva, hop _ hvb, ?_⟩
    rw [hop _ hv]
    congr 1
    by_cases hcc : ctype = "capacitive"
    · simp only [hcc, if_true]
      rw [← Finset.sum_sub_distrib]
      apply Finset.sum_congr rfl
      intro i _
      rw [← sub_smul, ← Complex.ofReal_sub]
      simp [coupleAt, ha, hb]
    · simp only [hcc, if_false]
      rw [← Finset.sum_sub_distrib]
      apply Finset.sum_congr rfl
      intro i _
      rw [← sub_smul, ← Complex.ofReal_sub]
      simp [coupleAt, ha, hb, hcc]

/-- an unknown type is rejected -/
theorem C35_unknown_type {V : Type*} [AddCommGroup V] [Module ℂ V] (C : Matrix (Fin n) (Fin n) ℝ)
    (M : Modes nJ n) (Qop phiOp : Fin M.keep.length → V) (ctype : String) (e : Edge) :
    couplingOp ctype C M Qop phiOp e = .error .valueError ↔
      (ctype ≠ "capacitive" ∧ ctype ≠ "inductive") := by
  constructor
  · intro h
    unfold couplingOp at h
    split at h
    · assumption
    · exfalso
      have gen : ∀ (K : Matrix (Fin n) (Fin n) ℝ) (ops : Fin M.keep.length → V)
          (l : List (Fin M.keep.length)) (acc : V),
          addTerms (fun i => couplingCoef ctype K e i) ops l acc ≠ .error .valueError := by
        intro K ops l
        have hnum : ∀ r i, numAt K r i ≠ .error .valueError := by
          intro r i hh
          unfold numAt pyIdx at hh
          split at hh
          · rename_i er he
            split_ifs at he
            cases he; cases hh
          · split at hh
            · rename_i er he
              split_ifs at he
              cases he; cases hh
            · cases hh
        have hcoef : ∀ i : ℕ, couplingCoef ctype K e i ≠ .error .valueError := by
          intro i hh
          unfold couplingCoef at hh
          split at hh
          · exact hnum _ _ hh
          · split at hh
            · split at hh
              · rename_i er he; cases hh; exact hnum _ _ he
              · split at hh
                · rename_i er he; cases hh; exact hnum _ _ he
                · cases hh
            · split at hh
              · rename_i er he; cases hh; exact hnum _ _ he
              · split at hh
                · rename_i er he; cases hh; exact hnum _ _ he
                · cases hh
        induction l with
        | nil => intro acc hh; cases hh
        | cons i is ih =>
          intro acc hh
          simp only [addTerms] at hh
          split at hh
          · rename_i er he; cases hh; exact hcoef _ he
          · exact ih _ hh
      exact gen _ _ _ _ h
  · intro h
    unfold couplingOp
    rw [if_pos h]

/-- a three-node circuit with all modes retained meets the hypotheses; the sign rule is visible in
the transformation matrix -/
example : couplingOp "inductive" (1 : Matrix (Fin 3) (Fin 3) ℝ)
    (restrict (⟨1, 0, 0, 1, 1, fun _ => 0⟩ : Trans 0 3) (List.finRange 3)) (V := ℂ)
    (fun _ => 0) (fun i => i) (2, 3) = .ok (-1) := by
  rw [couplingOp_ok (Or.inr rfl) _ _ (by simp [restrict]) _ _ ⟨by decide, by decide, by decide⟩]
  have : (restrict (⟨1, 0, 0, 1, 1, fun _ => 0⟩ : Trans 0 3) (List.finRange 3)).keep.length = 3 := by
    simp [restrict]
  congr 1
  change ∑ i : Fin 3, _ = _
  simp [Fin.sum_univ_succ, coupleAt, pot, modeColumn, restrict, Matrix.one_apply]

end SQ
