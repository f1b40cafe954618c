import Verif.Props.Linear
import Verif.Props.GoldenRule
import Verif.Props.SweepLoss
import Verif.Props.LevelsSession
import Verif.Spec.Resonator

/-!
# C114: losses of an LC resonator
-/

namespace SQ
open Matrix Spec

variable {c : CircSpec} {eigs : EigsFn} {as : List ℂ → List ℕ}

/-! ### the modes of a circuit without junctions -/

theorem linear_mats {vals : ElemId → ℝ} (hc : GoodCircuit c vals) (hlin : Linear c.O c.els) {b : Build}
    (hb : buildCirc c vals = .ok b) :
    b.C = nodeCap b.n (c.O.withVals vals) c.els ∧ b.M.Sᵀ * b.M.R = 1 ∧
    ∀ i : Fin b.M.keep.length, ∃ a : Fin b.n, (a : ℕ) = i ∧ b.M.cInv i i = (b.M.Rᵀ * b.C⁻¹ * b.M.R) a a ∧
      b.M.l i i = (b.M.Sᵀ * nodeInvInd b.n (c.O.withVals vals) c.els * b.M.S) a a := by
  obtain ⟨n, a, B, t, hn, htr, -, ht, rfl⟩ := buildCirc_stages hb
  obtain ⟨hv, hw⟩ := linear_wMat hc.noSelf hlin htr
  obtain ⟨-, hC, hL⟩ := good_mats hc hn htr
  obtain ⟨hlib, hgap⟩ := hc.lib n a hn htr
  obtain ⟨hm1, hm2⟩ := traverse_mats hv htr
  have hnC : nodeCap n (c.O.withVals vals) c.els = a.cMat := hm1.symm
  have hnL : nodeInvInd n (c.O.withVals vals) c.els = a.lMat := hm2.symm
  obtain ⟨hcan, hcI, hl, -⟩ := C26_canonical_construction (c.lib n) c.sv c.argsort (c.argmax _) (hc.argmax _) c.draws _ _ _ hC
    hL.isHermitian _ hlib hgap c.fuel t ht
  refine ⟨hnC.symm, ?_, ?_⟩
  · show (finishModes c.torch t).Sᵀ * (finishModes c.torch t).R = 1
    rw [finishModes_none hw]
    exact hcan
  · show ∀ i : Fin (finishModes c.torch t).keep.length, ∃ x : Fin n, (x : ℕ) = i ∧
      (finishModes c.torch t).cInv i i = ((finishModes c.torch t).Rᵀ * a.cMat⁻¹ * (finishModes c.torch t).R) x x ∧
      (finishModes c.torch t).l i i = ((finishModes c.torch t).Sᵀ * nodeInvInd n (c.O.withVals vals) c.els *
        (finishModes c.torch t).S) x x
    rw [finishModes_none hw, hnL]
    intro i
    refine ⟨(List.finRange n).get i, ?_, ?_, ?_⟩
    · exact congrArg Fin.val (List.getElem_finRange i.isLt)
    · show t.cInv _ _ = (t.Rᵀ * a.cMat⁻¹ * t.R) _ _
      rw [hcI]
    · show t.l _ _ = (t.Sᵀ * a.lMat * t.S) _ _
      rw [hl]

theorem edge_nodes {els : Elements} (hedge : ∀ p ∈ els, p.1 = (0, 1)) {n : ℕ} (hn : numNodes els = .ok n) : n = 1 := by
  unfold numNodes at hn
  have hall : ∀ e ∈ els.map Prod.fst, e = (0, 1) := by
    intro e he
    obtain ⟨p, hp, rfl⟩ := List.mem_map.1 he
    exact hedge p hp
  cases hm : els.map Prod.fst with
  | nil => simp [hm] at hn
  | cons e es =>
    simp only [hm, Except.ok.injEq] at hn
    have hlex : ∀ (es : List Edge) e, e = (0, 1) → (∀ x ∈ es, x = (0, 1)) → lexMax e es = (0, 1) := by
      intro es
      induction es with
      | nil => intro e he _; exact he
      | cons x xs ih =>
        intro e he hx
        unfold lexMax
        split
        · exact ih x (hx x (by simp)) fun y hy => hx y (by simp [hy])
        · exact ih e he fun y hy => hx y (by simp [hy])
    rw [hlex es e (hall e (by rw [hm]; simp)) (fun x hx => hall x (by rw [hm]; simp [hx]))] at hn
    exact hn.symm

theorem edge_placements {els : Elements} (hedge : ∀ p ∈ els, p.1 = (0, 1)) : ∀ q ∈ placements els, q.1 = (0, 1) := by
  intro q hq
  unfold placements at hq
  simp only [List.mem_flatMap, List.mem_map] at hq
  obtain ⟨p, hp, i, -, rfl⟩ := hq
  exact hedge p hp

theorem edge_sum {els : Elements} (hedge : ∀ p ∈ els, p.1 = (0, 1)) {n : ℕ} (hn : n = 1) (f : ElemId → ℝ) (a b : Fin n) :
    ((placements els).map fun q => f q.2 • edgeMat n q.1).sum a b = ((placements els).map fun q => f q.2).sum := by
  subst hn
  have hpl := edge_placements hedge
  generalize placements els = l at hpl
  induction l with
  | nil => rfl
  | cons q l ih =>
    simp only [List.map_cons, List.sum_cons, Matrix.add_apply, Matrix.smul_apply]
    rw [ih fun x hx => hpl x (List.mem_cons_of_mem _ hx), hpl q (List.mem_cons_self ..)]
    simp [edgeMat, incidence]

theorem placedCap_withVals (O : Objs) (v : ElemId → ℝ) (i : ElemId) :
    placedCap (O.withVals v) i = v (capacitorOf O i) := by
  unfold placedCap capacitorOf Objs.withVals
  simp only
  cases (O.elem i).kind <;> rfl

theorem invInd_sum (O : Objs) (v : ElemId → ℝ) (els : Elements) :
    ((placements els).map fun q => placedInvInd (O.withVals v) q.2).sum = ((inductorsOf O els).map fun i => 1 / v i).sum := by
  unfold inductorsOf
  generalize placements els = l
  induction l with
  | nil => rfl
  | cons q l ih =>
    rw [List.map_cons, List.sum_cons, ih]
    by_cases hk : (O.elem q.2).kind = .ind
    · rw [List.filter_cons_of_pos (by simp [hk])]
      simp only [List.map_cons, List.sum_cons]
      congr 1
      unfold placedInvInd Objs.withVals
      simp only [hk]
    · rw [List.filter_cons_of_neg (by simp [hk])]
      have : placedInvInd (O.withVals v) q.2 = 0 := by
        unfold placedInvInd Objs.withVals
        simp only
      rw [this, zero_add]

theorem one_mul3 {n : ℕ} (hn : n = 1) (A B D : Matrix (Fin n) (Fin n) ℝ) (a : Fin n) :
    (A * B * D) a a = A a a * B a a * D a a := by
  subst hn
  rw [Matrix.mul_apply, Fin.sum_univ_one, Matrix.mul_apply, Fin.sum_univ_one, Subsingleton.elim a 0]

theorem one_mul2 {n : ℕ} (hn : n = 1) (A B : Matrix (Fin n) (Fin n) ℝ) (a : Fin n) :
    (A * B) a a = A a a * B a a := by
  subst hn
  rw [Matrix.mul_apply, Fin.sum_univ_one, Subsingleton.elim a 0]

theorem one_inv {n : ℕ} (hn : n = 1) (A : Matrix (Fin n) (Fin n) ℝ) (a : Fin n) (h : A a a ≠ 0) : A⁻¹ a a = (A a a)⁻¹ := by
  subst hn
  have ha := Subsingleton.elim a 0
  subst ha
  have : A⁻¹ = Matrix.of fun _ _ => (A 0 0)⁻¹ := by
    refine Matrix.inv_eq_right_inv ?_
    ext i j
    fin_cases i; fin_cases j
    simp [Matrix.mul_apply, h]
  rw [this]
  rfl

/-- total capacitance and inductance of a resonator are positive -/
theorem resonator_pos {v : ElemId → ℝ} (hc : GoodCircuit c v)
    (hind : ∃ q ∈ placements c.els, (c.O.elem q.2).kind = .ind) :
    0 < allCap c.O c.els v ∧ 0 < allInd c.O c.els v := by
  obtain ⟨q, hq, hkd⟩ := hind
  constructor
  · unfold allCap
    apply List.sum_pos
    · intro x hx
      obtain ⟨q, hq, rfl⟩ := List.mem_map.1 hx
      have := hc.caps q hq
      rwa [placedCap_withVals] at this
    · intro h0
      rw [List.map_eq_nil_iff] at h0
      rw [h0] at hq
      simp at hq
  · unfold allInd
    apply one_div_pos.2
    apply List.sum_pos
    · intro x hx
      obtain ⟨i, hi, rfl⟩ := List.mem_map.1 hx
      unfold inductorsOf at hi
      obtain ⟨y, hy, rfl⟩ := List.mem_map.1 hi
      obtain ⟨hy1, hy2⟩ := List.mem_filter.1 hy
      exact one_div_pos.2 (hc.inds y hy1 (of_decide_eq_true hy2))
    · intro h0
      rw [List.map_eq_nil_iff] at h0
      unfold inductorsOf at h0
      rw [List.map_eq_nil_iff, List.filter_eq_nil_iff] at h0
      exact h0 q hq (by simp [hkd])

/-- frequency and zero-point amplitudes of a resonator -/
theorem resonator_base {v : ElemId → ℝ} (hc : GoodCircuit c v) (hlin : Linear c.O c.els) {bd : Build}
    (hb : buildCirc c v = .ok bd) (hedge : ∀ p ∈ c.els, p.1 = (0, 1))
    (hind : ∃ q ∈ placements c.els, (c.O.elem q.2).kind = .ind) :
    bd.n = 1 ∧ bd.M.keep.length = bd.n ∧ ∀ i : Fin bd.M.keep.length, ∃ a : Fin bd.n, (a : ℕ) = i ∧
      bd.M.S a a * bd.M.R a a = 1 ∧ bd.C⁻¹ a a = (allCap c.O c.els v)⁻¹ ∧
      bd.M.omega i = 1 / √(allInd c.O c.els v * allCap c.O c.els v) ∧ bd.M.omega i ≠ 0 ∧
      bd.M.data.impedance i = bd.M.R a a ^ 2 * √(allInd c.O c.els v / allCap c.O c.els v) := by
  obtain ⟨hn, hk⟩ := linear_keep hc.noSelf hlin hb
  have hn1 := edge_nodes hedge hn
  refine ⟨hn1, hk, ?_⟩
  intro i
  obtain ⟨hCp, hLp⟩ := resonator_pos hc hind
  obtain ⟨hC, hSR, hmat⟩ := linear_mats hc hlin hb
  obtain ⟨a, hai, hcI, hl⟩ := hmat i
  obtain ⟨-, -, -, hmodes⟩ := linear_modes hc hlin hb
  have eC : bd.C a a = allCap c.O c.els v := by
    rw [hC]
    unfold nodeCap
    rw [edge_sum hedge hn1]
    simp only [placedCap_withVals]
    rfl
  have eL : nodeInvInd bd.n (c.O.withVals v) c.els a a = 1 / allInd c.O c.els v := by
    unfold nodeInvInd
    rw [edge_sum hedge hn1, invInd_sum]
    unfold allInd
    rw [one_div_one_div]
  have hsr : bd.M.S a a * bd.M.R a a = 1 := by
    have := congrFun (congrFun hSR a) a
    rw [one_mul2 hn1, transpose_apply, one_apply_eq] at this
    exact this
  set r := bd.M.R a a with hr
  set s := bd.M.S a a with hsdef
  set C := allCap c.O c.els v with hCdef
  set L := allInd c.O c.els v with hLdef
  have hinv : bd.C⁻¹ a a = C⁻¹ := by rw [one_inv hn1 _ _ (by rw [eC]; exact hCp.ne'), eC]
  have hcI' : bd.M.cInv i i = r ^ 2 / C := by
    rw [hcI, one_mul3 hn1, transpose_apply, hinv, ← hr]
    field_simp
  have hl' : bd.M.l i i = s ^ 2 / L := by
    rw [hl, one_mul3 hn1, transpose_apply, eL, ← hsdef]
    field_simp
  have hs0 : s ≠ 0 := left_ne_zero_of_mul_eq_one hsr
  have hr0 : r ≠ 0 := right_ne_zero_of_mul_eq_one hsr
  have hω : bd.M.omega i = 1 / √(L * C) := by
    obtain ⟨hk', hnn, -, y, hli, hv⟩ := hmodes
    have hv0 := congrFun (hv i) a
    have hone : ∀ (A : Matrix (Fin bd.n) (Fin bd.n) ℝ) (x : Fin bd.n → ℝ), (A *ᵥ x) a = A a a * x a := by
      have : ∀ (n : ℕ), n = 1 → ∀ (a : Fin n) (A : Matrix (Fin n) (Fin n) ℝ) (x : Fin n → ℝ), (A *ᵥ x) a = A a a * x a := by
        rintro n rfl a A x
        rw [mulVec, dotProduct, Fin.sum_univ_one, Subsingleton.elim a 0]
      exact this _ hn1 a
    have hyne : y i a ≠ 0 := by
      intro h0
      apply hli.ne_zero i
      funext j
      have : j = a := by
        have : ∀ (n : ℕ), n = 1 → ∀ x y : Fin n, x = y := by rintro n rfl x y; exact Subsingleton.elim _ _
        exact this _ hn1 _ _
      rw [this, h0]
      rfl
    rw [hone, eL, Pi.smul_apply, hone, ← hC, eC, smul_eq_mul] at hv0
    have h2 : bd.M.omega i ^ 2 = 1 / (L * C) := by
      have : 1 / L = bd.M.omega i ^ 2 * C := by
        apply mul_right_cancel₀ hyne
        rw [hv0]; ring
      field_simp at this ⊢
      linarith
    rw [← Real.sqrt_sq (hnn i), h2, Real.sqrt_div zero_le_one, Real.sqrt_one]
  have hω0 : bd.M.omega i ≠ 0 := by rw [hω]; positivity
  have hZ : bd.M.data.impedance i = r ^ 2 * √(L / C) := by
    show √(bd.M.cInv i i / bd.M.l i i) = _
    rw [hcI', hl']
    have : r ^ 2 / C / (s ^ 2 / L) = (r ^ 2) ^ 2 * (L / C) := by
      have : s = 1 / r := by field_simp; exact hsr
      rw [this]
      field_simp
    rw [this, Real.sqrt_mul (by positivity), Real.sqrt_sq (by positivity)]
  exact ⟨a, hai, hsr, hinv, hω, hω0, hZ⟩

theorem resonator_core {v : ElemId → ℝ} (hc : GoodCircuit c v) (hlin : Linear c.O c.els) {bd : Build}
    (hb : buildCirc c v = .ok bd) (hedge : ∀ p ∈ c.els, p.1 = (0, 1))
    (hind : ∃ q ∈ placements c.els, (c.O.elem q.2).kind = .ind) :
    bd.M.keep.length = 1 ∧ ∀ i : Fin bd.M.keep.length,
      bd.M.omega i = 1 / √(allInd c.O c.els v * allCap c.O c.els v) ∧
      ∀ (m : Fin bd.M.keep.length → ℕ) (ng : Fin bd.M.keep.length → ℝ), m i ≠ 1 → ∃ α β : ℂ,
        couplingOp "capacitive" bd.C bd.M (buildMem bd.M.data m ng).Q (buildMem bd.M.data m ng).phi (0, 1) =
          .ok (α • single m i (qDestroy (m i) - qCreate (m i))) ∧
        ‖α‖ ^ 2 = bd.M.omega i / (2 * allCap c.O c.els v) ∧
        couplingOp "inductive" bd.C bd.M (buildMem bd.M.data m ng).Q (buildMem bd.M.data m ng).phi (0, 1) =
          .ok (β • single m i (qDestroy (m i) + qCreate (m i))) ∧
        ‖β‖ ^ 2 = bd.M.omega i * allInd c.O c.els v / 2 := by
  obtain ⟨hn1, hk, hbase⟩ := resonator_base hc hlin hb hedge hind
  have hk1 : bd.M.keep.length = 1 := hk.trans hn1
  refine ⟨hk1, ?_⟩
  intro i
  obtain ⟨a, hai, hsr, hinv, hω, hω0, hZ⟩ := hbase i
  obtain ⟨hCp, hLp⟩ := resonator_pos hc hind
  set r := bd.M.R a a with hr
  set s := bd.M.S a a with hsdef
  set C := allCap c.O c.els v with hCdef
  set L := allInd c.O c.els v with hLdef
  have hs0 : s ≠ 0 := left_ne_zero_of_mul_eq_one hsr
  have hr0 : r ≠ 0 := right_ne_zero_of_mul_eq_one hsr
  refine ⟨hω, ?_⟩
  intro m ng hm1
  have hve : ValidEdge bd.n (0, 1) := by rw [hn1]; simp [ValidEdge]
  have hval := build_valid hc.noSelf hb
  have hsum : ∀ f : Fin bd.M.keep.length → Op m, ∑ x, f x = f i := by
    intro f
    have : ∀ (k : ℕ) (i : Fin k) (V : Type) [AddCommMonoid V] (f : Fin k → V), k = 1 → ∑ x, f x = f i := by
      rintro k i V _ f rfl
      rw [Fin.sum_univ_one, Subsingleton.elim i 0]
    exact this _ i _ f hk1
  have hpot : ∀ x : Fin bd.n → ℝ, pot x 1 = x a := by
    have : ∀ (n : ℕ) (a : Fin n) (x : Fin n → ℝ), n = 1 → pot x 1 = x a := by
      rintro n a x rfl
      rw [Subsingleton.elim a 0]
      rfl
    exact fun x => this _ a x hn1
  have hidx : (⟨i, lt_of_lt_of_le i.isLt hk.le⟩ : Fin bd.n) = a := Fin.ext hai.symm
  have hcop := couplingOp_ok (ctype := "capacitive") (Or.inl rfl) bd.C bd.M hk.le (buildMem bd.M.data m ng).Q
    (buildMem bd.M.data m ng).phi hve
  have hiop := couplingOp_ok (ctype := "inductive") (Or.inr rfl) bd.C bd.M hk.le (buildMem bd.M.data m ng).Q
    (buildMem bd.M.data m ng).phi hve
  rw [hsum] at hcop hiop
  simp only [coupleAt, modeColumn, true_or, if_true, show ¬ ("inductive" = "capacitive") by decide, if_false, hidx] at hcop hiop
  rw [show max 0 1 = 1 from rfl, hpot] at hcop hiop
  rw [show modeColumn "capacitive" bd.C bd.M a a = (bd.C⁻¹ * bd.M.R) a a from rfl, one_mul2 hn1, hinv, ← hr,
    buildMem_Q] at hcop
  rw [show modeColumn "inductive" bd.C bd.M a a = bd.M.S a a from rfl, ← hsdef, buildMem_phi] at hiop
  have hQ : chargeOpIso bd.M.data m ng i = (-Complex.I * ((√(0.5 / bd.M.data.impedance i) : ℝ) : ℂ)) •
      (qDestroy (m i) - qCreate (m i)) := by
    unfold chargeOpIso
    rw [if_neg (show ¬ bd.M.data.omega i = 0 from hω0), if_neg hm1]
  have hF : fluxOpIso bd.M.data m i = ((√(0.5 * bd.M.data.impedance i) : ℝ) : ℂ) • (qDestroy (m i) + qCreate (m i)) := by
    unfold fluxOpIso
    rw [if_neg (show ¬ bd.M.data.omega i = 0 from hω0), if_neg hm1]
  refine ⟨((C⁻¹ * r : ℝ) : ℂ) * (-Complex.I * ((√(0.5 / bd.M.data.impedance i) : ℝ) : ℂ)),
    ((s : ℝ) : ℂ) * ((√(0.5 * bd.M.data.impedance i) : ℝ) : ℂ), ?_, ?_, ?_, ?_⟩
  · rw [hcop, hQ, single_smul, smul_smul]
  · have hsq : 0 < √(L / C) := by positivity
    rw [norm_mul, norm_mul, norm_neg, Complex.norm_I, one_mul, Complex.norm_real, Complex.norm_real, Real.norm_eq_abs,
      Real.norm_eq_abs, mul_pow, sq_abs, sq_abs, Real.sq_sqrt (by rw [hZ]; positivity), hZ, hω]
    have h1 : √(L * C) = C * √(L / C) := by
      rw [← Real.sqrt_sq hCp.le, ← Real.sqrt_mul (by positivity), Real.sqrt_sq hCp.le]
      congr 1
      field_simp
    rw [h1]
    field_simp
    norm_num
  · rw [hiop, hF, single_smul, smul_smul]
  · have hsq : 0 < √(L / C) := by positivity
    rw [norm_mul, Complex.norm_real, Complex.norm_real, Real.norm_eq_abs,
      Real.norm_eq_abs, mul_pow, sq_abs, sq_abs, Real.sq_sqrt (by rw [hZ]; positivity), hZ, hω]
    have h1 : √(L * C) = L / √(L / C) := by
      rw [eq_div_iff hsq.ne', ← Real.sqrt_mul (by positivity)]
      rw [show L * C * (L / C) = L ^ 2 by field_simp, Real.sqrt_sq hLp.le]
    rw [h1]
    have : s ^ 2 * r ^ 2 = 1 := by rw [← mul_pow, hsr, one_pow]
    field_simp
    linear_combination this

/-! ### the states of a resonator -/

theorem ladder_state {k : ℕ} (hk : k = 1) (ω κ ng : Fin k → ℝ) (d : Fin k → ℕ) (i : Fin k) (hω : 0 < ω i) (p : ℕ)
    (psi : Idx d → ℂ) (hn : overlap psi psi = 1)
    (hH : (diagonal fun x : Idx d => ((ladder ω κ ng d x : ℝ) : ℂ)) *ᵥ psi = ((ω i * p : ℝ) : ℂ) • psi) :
    ∃ (hp : p < d i) (z : ℂ), ‖z‖ = 1 ∧ ∀ x, psi x = if x i = ⟨p, hp⟩ then z else 0 := by
  classical
  subst hk
  obtain rfl : i = 0 := Subsingleton.elim _ _
  have e1 : ∀ x : Idx d, ladder ω κ ng d x = ω 0 * (x 0 : ℕ) := by
    intro x
    unfold ladder
    rw [Fin.sum_univ_one, if_pos hω.ne']
  have hz : ∀ x, ((x 0 : ℕ) : ℝ) ≠ p → psi x = 0 := by
    intro x hx
    have := congrFun hH x
    rw [mulVec_diagonal, e1, Pi.smul_apply, smul_eq_mul] at this
    have h2 : ((ω 0 * ((x 0 : ℕ) - p) : ℝ) : ℂ) * psi x = 0 := by
      push_cast at this ⊢
      linear_combination this
    rcases mul_eq_zero.1 h2 with h | h
    · exfalso
      rw [Complex.ofReal_eq_zero] at h
      rcases mul_eq_zero.1 h with h | h
      · exact hω.ne' h
      · exact hx (sub_eq_zero.1 h)
    · exact h
  have hp : p < d 0 := by
    by_contra hge
    have : psi = 0 := by
      funext x
      apply hz
      have := (x 0).isLt
      intro h0
      have : (x 0 : ℕ) = p := by exact_mod_cast h0
      omega
    rw [this] at hn
    simp [overlap] at hn
  refine ⟨hp, psi (fun j => ⟨p, by rw [Subsingleton.elim j 0]; exact hp⟩), ?_, ?_⟩
  · unfold overlap at hn
    rw [Finset.sum_eq_single (fun j => ⟨p, by rw [Subsingleton.elim j 0]; exact hp⟩)] at hn
    · rw [← Complex.normSq_eq_conj_mul_self] at hn
      have h1 : Complex.normSq (psi (fun j => ⟨p, by rw [Subsingleton.elim j 0]; exact hp⟩)) = 1 := by exact_mod_cast hn
      rw [Complex.normSq_eq_norm_sq] at h1
      exact (pow_eq_one_iff_of_nonneg (norm_nonneg _) two_ne_zero).1 h1
    · intro x _ hx
      rw [hz x, mul_zero]
      intro h0
      apply hx
      funext j
      obtain rfl : j = 0 := Subsingleton.elim _ _
      apply Fin.ext
      show (x 0 : ℕ) = p
      exact_mod_cast h0
    · intro h; exact absurd (Finset.mem_univ _) h
  · intro x
    split_ifs with h
    · congr 1
      funext j
      obtain rfl : j = 0 := Subsingleton.elim _ _
      exact h
    · apply hz
      intro h0
      apply h
      apply Fin.ext
      show (x 0 : ℕ) = p
      exact_mod_cast h0

theorem single_braket {k : ℕ} (hk : k = 1) (d : Fin k → ℕ) (i : Fin k) (A : Matrix (Fin (d i)) (Fin (d i)) ℂ)
    (psi psi' : Idx d → ℂ) (p q : Fin (d i)) (z z' : ℂ) (h : ∀ x, psi x = if x i = p then z else 0)
    (h' : ∀ x, psi' x = if x i = q then z' else 0) :
    braket psi (single d i A) psi' = (starRingEnd ℂ) z * A p q * z' := by
  classical
  subst hk
  obtain rfl : i = 0 := Subsingleton.elim _ _
  have hex : ∀ r : Fin (d 0), ∃ X : Idx d, X 0 = r ∧ ∀ y : Idx d, y 0 = r → y = X := by
    intro r
    refine ⟨fun j => cast (by rw [Subsingleton.elim j 0]) r, rfl, ?_⟩
    intro y hy
    funext j
    obtain rfl : j = 0 := Subsingleton.elim _ _
    exact hy
  obtain ⟨X, hX, hX'⟩ := hex p
  obtain ⟨Y, hY, hY'⟩ := hex q
  unfold braket
  rw [Finset.sum_eq_single X, Finset.sum_eq_single Y]
  · rw [h, h', if_pos hX, if_pos hY]
    congr 2
    show tens (Function.update (fun j => (1 : Matrix (Fin (d j)) (Fin (d j)) ℂ)) 0 A) X Y = _
    unfold tens
    rw [Matrix.of_apply, Fin.prod_univ_one, Function.update_self, hX, hY]
  · intro y _ hy
    rw [h', if_neg (fun h => hy (hY' y h)), mul_zero]
  · intro h; exact absurd (Finset.mem_univ _) h
  · intro y _ hy
    apply Finset.sum_eq_zero
    intro b _
    rw [h, if_neg (fun h => hy (hX' y h)), map_zero, zero_mul, zero_mul]
  · intro h; exact absurd (Finset.mem_univ _) h

/-- squared matrix element of a ladder operator: the larger of two neighbouring numbers, zero otherwise -/
noncomputable def hop (p q : ℕ) : ℝ := if p = q + 1 ∨ q = p + 1 then ((max p q : ℕ) : ℝ) else 0

theorem destroy_hop {N : ℕ} (p q : Fin N) (ε : ℂ) (hε : ‖ε‖ = 1) :
    ‖(qDestroy N + ε • qCreate N) p q‖ ^ 2 = hop p q := by
  unfold hop
  simp only [Matrix.add_apply, Matrix.smul_apply, qDestroy, qCreate, conjTranspose_apply, Matrix.of_apply, smul_eq_mul]
  by_cases h1 : (p : ℕ) = q + 1
  · rw [if_neg (by omega), if_pos h1.symm, if_pos (Or.inl h1), max_eq_left (by omega)]
    simp [hε]
  · by_cases h2 : (q : ℕ) = p + 1
    · rw [if_pos h2.symm, if_neg (by omega), if_pos (Or.inr h2), max_eq_right (by omega)]
      simp
    · rw [if_neg (by omega), if_neg (by omega), if_neg (by tauto)]
      simp

theorem quanta_factor (a : ℝ) (p q : ℕ) (total : Bool) : lossFactor a p q total = 2 * quanta a p q total := by
  unfold lossFactor quanta
  split_ifs <;> ring

theorem hop_adjacent {p q : ℕ} (h : p = q + 1 ∨ q = p + 1) : hop p q = ((max p q : ℕ) : ℝ) := if_pos h

theorem braket_smul {ι : Type*} [Fintype ι] (u v : ι → ℂ) (z : ℂ) (A : Matrix ι ι ℂ) :
    braket u (z • A) v = z * braket u A v := by
  unfold braket
  simp only [Finset.mul_sum, Matrix.smul_apply, smul_eq_mul]
  exact Finset.sum_congr rfl fun a _ => Finset.sum_congr rfl fun b _ => by ring

section Rate

variable {v : ElemId → ℝ} {bd : Build} (hc : GoodCircuit c v) (hlin : Linear c.O c.els)
  (hb : buildCirc c v = .ok bd) (hedge : ∀ p ∈ c.els, p.1 = (0, 1))
  (hind : ∃ q ∈ placements c.els, (c.O.elem q.2).kind = .ind)
  (i : Fin bd.M.keep.length) (m : Fin bd.M.keep.length → ℕ) (ng : Fin bd.M.keep.length → ℝ) (hm1 : m i ≠ 1)
  (fluxes : Fin bd.loops.length → ℝ) (P : ElemId → Matrix (Fin bd.n) (Fin bd.n) ℝ) (noise : ObjNoise)
  (islands : ℕ → Option ChargeObj) (env : NoiseEnv) (ef : List ℝ) (ev : List (Idx m → ℂ))
  (p q : ℕ) (psi psi' : Idx m → ℂ) (hp : ev[p]? = some psi) (hq : ev[q]? = some psi')
  (hpf : ef[p]? = some (bd.M.omega i * p)) (hqf : ef[q]? = some (bd.M.omega i * q))
  (hpi : p < m i) (hqi : q < m i) (z z' : ℂ) (hz : ‖z‖ = 1) (hz' : ‖z'‖ = 1)
  (hpsi : ∀ x, psi x = if x i = ⟨p, hpi⟩ then z else 0) (hpsi' : ∀ x, psi' x = if x i = ⟨q, hqi⟩ then z' else 0)
  (hT : 0 < env.T) (hpq : p ≠ q) (Ω : ℝ) (hΩ : |bd.M.omega i * q - bd.M.omega i * p| = Ω)
  (h709 : hbar * Ω / (kB * env.T) ≤ 709) (total : Bool)

include hc hlin hb hedge hind hm1 hp hq hpf hqf hz hz' hpsi hpsi' hT hpq hΩ h709

theorem resonator_capacitive :
    (bd.noise c m ng v fluxes P (noise.spec bd.loops islands) env ef ev).decRate "capacitive" (p, q) total =
      .ok (.val (quanta (hbar * Ω / (kB * env.T)) p q total *
        (bd.M.omega i * hop p q * capDissipation c.O c.els noise v Ω))) := by
  obtain ⟨hk1, hres⟩ := resonator_core hc hlin hb hedge hind
  obtain ⟨hω, hops⟩ := hres i
  obtain ⟨α, β, hα, hα2, -, -⟩ := hops m ng hm1
  obtain ⟨hCp, hLp⟩ := resonator_pos hc hind
  have hω0 : 0 < bd.M.omega i := by rw [hω]; positivity
  subst hΩ
  obtain ⟨V, hV, hr⟩ := C91_capacitive c v bd m ng v fluxes P (noise.spec bd.loops islands) env ef ev p q psi psi' _ _
    hc.noSelf hb hp hq hpf hqf (by
      intro h
      have := mul_left_cancel₀ hω0.ne' h
      exact hpq (by exact_mod_cast this)) hT h709 total
  rw [hr, quanta_factor]
  congr 2
  have hterm : ∀ x ∈ placements c.els, capLoss c.O (noise.spec bd.loops islands) v |bd.M.omega i * q - bd.M.omega i * p| psi psi'
      V x = bd.M.omega i * hop p q / 2 * (match noise.capQ (capacitorOf c.O x.2) with
        | none => 0
        | some Q => v (capacitorOf c.O x.2) / allCap c.O c.els v / Q |bd.M.omega i * q - bd.M.omega i * p|) := by
    intro x hx
    have hVx : V x.1 = α • single m i (qDestroy (m i) - qCreate (m i)) := by
      have h1 := hV x hx
      rw [edge_placements hedge x hx] at h1 ⊢
      exact Except.ok.inj (h1.symm.trans hα)
    unfold capLoss
    show (match noise.capQ (capacitorOf c.O x.2) with | none => _ | some Q => _) = _
    cases noise.capQ (capacitorOf c.O x.2) with
    | none => simp
    | some Q =>
      simp only
      rw [hVx, braket_smul, single_braket hk1 m i _ psi psi' ⟨p, hpi⟩ ⟨q, hqi⟩ z z' hpsi hpsi', norm_mul, norm_mul, norm_mul,
        hz', mul_one, show ‖(starRingEnd ℂ) z‖ = 1 by rw [RCLike.norm_conj]; exact hz, one_mul, mul_pow, hα2,
        show qDestroy (m i) - qCreate (m i) = qDestroy (m i) + (-1 : ℂ) • qCreate (m i) by rw [neg_one_smul, sub_eq_add_neg],
        destroy_hop _ _ _ (by simp)]
      field_simp
  rw [List.map_congr_left hterm, List.sum_map_mul_left]
  change 2 * quanta _ p q total * (bd.M.omega i * hop p q / 2 * capDissipation c.O c.els noise v _) = _
  ring

theorem resonator_inductive :
    (bd.noise c m ng v fluxes P (noise.spec bd.loops islands) env ef ev).decRate "inductive" (p, q) total =
      .ok (.val (quanta (hbar * Ω / (kB * env.T)) p q total *
        (bd.M.omega i * hop p q * indDissipation c.O c.els noise v Ω env.T))) := by
  obtain ⟨hk1, hres⟩ := resonator_core hc hlin hb hedge hind
  obtain ⟨hω, hops⟩ := hres i
  obtain ⟨α, β, -, -, hβ, hβ2⟩ := hops m ng hm1
  obtain ⟨hCp, hLp⟩ := resonator_pos hc hind
  have hω0 : 0 < bd.M.omega i := by rw [hω]; positivity
  subst hΩ
  obtain ⟨V, hV, hr⟩ := C91_inductive c v bd m ng v fluxes P (noise.spec bd.loops islands) env ef ev p q psi psi' _ _
    hc.noSelf hb hp hq hpf hqf (by
      intro h
      have := mul_left_cancel₀ hω0.ne' h
      exact hpq (by exact_mod_cast this)) hT h709 total
  rw [hr, quanta_factor]
  congr 2
  have hterm : ∀ x ∈ (placements c.els).filter (fun x => decide ((c.O.elem x.2).kind = .ind)),
      indLoss (noise.spec bd.loops islands) v |bd.M.omega i * q - bd.M.omega i * p| env.T psi psi' V x =
        bd.M.omega i * hop p q / 2 * (match noise.indQ x.2 |bd.M.omega i * q - bd.M.omega i * p| env.T with
        | none => 0
        | some Q => allInd c.O c.els v / v x.2 / Q) := by
    intro x hx
    have hx' := (List.mem_filter.1 hx).1
    have hVx : V x.1 = β • single m i (qDestroy (m i) + qCreate (m i)) := by
      have h1 := hV x hx'
      rw [edge_placements hedge x hx'] at h1 ⊢
      exact Except.ok.inj (h1.symm.trans hβ)
    unfold indLoss
    show (match noise.indQ x.2 |bd.M.omega i * q - bd.M.omega i * p| env.T with | none => _ | some Q => _) = _
    cases noise.indQ x.2 |bd.M.omega i * q - bd.M.omega i * p| env.T with
    | none => simp
    | some Q =>
      simp only
      rw [hVx, braket_smul, single_braket hk1 m i _ psi psi' ⟨p, hpi⟩ ⟨q, hqi⟩ z z' hpsi hpsi', norm_mul, norm_mul, norm_mul,
        hz', mul_one, show ‖(starRingEnd ℂ) z‖ = 1 by rw [RCLike.norm_conj]; exact hz, one_mul, mul_pow, hβ2,
        show qDestroy (m i) + qCreate (m i) = qDestroy (m i) + (1 : ℂ) • qCreate (m i) by rw [one_smul],
        destroy_hop _ _ _ (by simp)]
      have := hc.inds x hx' (of_decide_eq_true (List.mem_filter.1 hx).2)
      field_simp
  rw [List.map_congr_left hterm, List.sum_map_mul_left]
  have hD : ∀ Ω : ℝ, indDissipation c.O c.els noise v Ω env.T = (((placements c.els).filter
      (fun x => decide ((c.O.elem x.2).kind = .ind))).map fun x => match noise.indQ x.2 Ω env.T with
        | none => 0
        | some Q => allInd c.O c.els v / v x.2 / Q).sum := by
    intro Ω
    unfold indDissipation inductorsOf
    rw [List.map_map]
    rfl
  rw [hD]
  ring

end Rate

/-! ### sessions -/

theorem linear_bd_now (hcaps : CapsOK c.O) (hlin : Linear c.O c.els)
    (vals : ElemId → ℝ) (flux : LoopId → ℝ) (u : ℝ)
    (w0 : World (circPhys c eigs as)) (hw : construct (circPhys c eigs as) vals flux u = .ok w0)
    (h : List Act) (hh : Orderly w0 h) (hlast : ∀ i, (run w0 h).vals i = lastBuilt vals w0 h i)
    (hs : NoSelfLoops c.els) : buildCirc c (run w0 h).vals = .ok (run w0 h).circ.bd := by
  have hrem : NoRemoval c w0 h := by
    intro h1 h2 _
    right
    have hb0 : buildCirc c vals = .ok w0.circ.bd := (construct_build hw).1
    have h0 := linear_keep hs hlin hb0
    exact ⟨by rw [h0.2]; exact h0.1, fun b hb => (linear_keep hs hlin hb).2⟩
  have hre : ∀ h1 h2, h = h1 ++ .update :: h2 →
      (circPhys c eigs as).rebuild ((circPhys c eigs as).nModes (run w0 h1).circ.bd) (run w0 h1).vals =
        (circPhys c eigs as).build (run w0 h1).vals := by
    intro h1 h2 he
    subst he
    exact rebuild_at hw h1 h2 hrem
  obtain ⟨hb, -⟩ := coherent_run (P := circPhys c eigs as) (fun v bd => buildCirc c v = .ok bd) h w0 vals
    (coherent_construct hw fun _ hb => hb) hh (fun h1 h2 he bd hbd => (hre h1 h2 he).symm.trans hbd)
  rw [funext hlast]
  exact hb

/-- states and frequencies `dec_rate` reads after `diag(num)` on a resonator -/
theorem resonator_states (he : EigsLowest eigs) (ha : CArgsortSpec as) (hlin : Linear c.O c.els)
    (hedge : ∀ p ∈ c.els, p.1 = (0, 1)) (hind : ∃ q ∈ placements c.els, (c.O.elem q.2).kind = .ind)
    (vals : ElemId → ℝ) (flux : LoopId → ℝ) (u : ℝ)
    (w0 : World (circPhys c eigs as)) (hw : construct (circPhys c eigs as) vals flux u = .ok w0)
    (h : List Act) (hh : Orderly w0 h) (hm : (run w0 h).circ.m ≠ [])
    (hb : buildCirc c (run w0 h).vals = .ok (run w0 h).circ.bd) (hc : GoodCircuit c (run w0 h).vals)
    (hflux : ∀ l, (run w0 h).flux l = 0) (num p q : ℕ) (hp : p < num) (hq : q < num)
    (i : Fin (run w0 h).circ.bd.M.keep.length)
    (hdim : num + 1 < (run w0 h).circ.bd.dims (run w0 h).circ.m i) (noise : ObjNoise) (env : NoiseEnv) (total : Bool) :
    ∃ (ef : List ℝ) (ev : List (Idx ((run w0 h).circ.bd.dims (run w0 h).circ.m) → ℂ)) (psi psi' : _),
      ev[p]? = some psi ∧ ev[q]? = some psi' ∧ ef[p]? = some ((run w0 h).circ.bd.M.omega i * p) ∧
      ef[q]? = some ((run w0 h).circ.bd.M.omega i * q) ∧
      (∃ (hp : p < (run w0 h).circ.bd.dims (run w0 h).circ.m i) (z : ℂ), ‖z‖ = 1 ∧
        ∀ x, psi x = if x i = ⟨p, hp⟩ then z else 0) ∧
      (∃ (hq : q < (run w0 h).circ.bd.dims (run w0 h).circ.m i) (z : ℂ), ‖z‖ = 1 ∧
        ∀ x, psi' x = if x i = ⟨q, hq⟩ then z else 0) ∧
      ∀ ty, sessionRate noise env ty (p, q) total (diag (some num) (run w0 h)).2 = some
        ((Build.noise c (run w0 h).circ.bd ((run w0 h).circ.bd.dims (run w0 h).circ.m)
        (fun i => ((run w0 h).circ.ng i).getD 0) (run w0 h).vals
        (fun l => (run w0 h).flux ((run w0 h).circ.bd.loops.get l)) (fun _ => 0)
        (noise.spec (run w0 h).circ.bd.loops (run w0 h).circ.islands) env ef ev).decRate ty (p, q) total) := by
  obtain ⟨hk1, hres⟩ := resonator_core hc hlin hb hedge hind
  obtain ⟨hω, -⟩ := hres i
  obtain ⟨hCp, hLp⟩ := resonator_pos hc hind
  have hω0 : 0 < Modes.omega (Build.M (run w0 h).circ.bd) i := by rw [hω]; positivity
  obtain ⟨-, -, -, hham⟩ := ham_now hc.noSelf hw hh hm
  have hham' := hham (run w0 h) rfl
  rw [linear_ham hc hlin hb _ _ _ _ hflux] at hham'
  have hherm : (diagonal fun x : Idx ((run w0 h).circ.bd.dims (run w0 h).circ.m) =>
      ((ladder (Modes.omega (Build.M (run w0 h).circ.bd)) (fun i => islandCoef ((Build.M (run w0 h).circ.bd).cInv i i))
        (fun i => ((run w0 h).circ.ng i).getD 0) (Build.dims (run w0 h).circ.bd (run w0 h).circ.m) x : ℝ) : ℂ)).IsHermitian := by
    rw [IsHermitian, diagonal_conjTranspose]
    congr 1
    funext x
    exact Complex.conj_ofReal _
  have hcard : ∀ (k : ℕ) (d : Fin k → ℕ) (i : Fin k), k = 1 → Fintype.card (Idx d) = d i := by
    rintro k d i rfl
    rw [Subsingleton.elim i 0]
    show Fintype.card (∀ i : Fin 1, Fin (d i)) = _
    simp
  obtain ⟨vs, ws, ev, w', hlev, hd, hef, hevs, hlen, hev⟩ := diag_lowest he ha hm hham' hherm num (by omega)
    (by rw [hcard _ _ i hk1]; exact hdim)
  obtain ⟨vs', hlev'⟩ := levels_diagonal (ladder (Modes.omega (Build.M (run w0 h).circ.bd))
    (fun i => islandCoef ((Build.M (run w0 h).circ.bd).cInv i i))
    (fun i => ((run w0 h).circ.ng i).getD 0) (Build.dims (run w0 h).circ.bd (run w0 h).circ.m))
  have hws : ws.take num = (List.range num).map fun j : ℕ => Modes.omega (Build.M (run w0 h).circ.bd) i * j := by
    rw [levels_unique hlev hlev', ← lowest_single hk1 _ _ _ (Build.dims (run w0 h).circ.bd (run w0 h).circ.m) i hω0 num (by omega)]
    rfl
  have hget : ∀ r, r < num → (ws.take num)[r]? = some (Modes.omega (Build.M (run w0 h).circ.bd) i * r) := by
    intro r hr
    rw [hws, List.getElem?_map, List.getElem?_range hr]
    rfl
  have hgetD : ∀ r, r < num → ws.getD r 0 = Modes.omega (Build.M (run w0 h).circ.bd) i * r := by
    intro r hr
    have := hget r hr
    rw [List.getElem?_take_of_lt hr] at this
    rw [List.getD_eq_getElem?_getD, this]
    rfl
  have hd2 : (diag (some (num : ℤ)) (run w0 h)).2 = w' := congrArg Prod.snd hd
  have hses := fun ty => C112_session hc.noSelf vals flux u w0 hw h hh noise env ty (p, q) total num ⟨_, congrArg Prod.fst hd⟩
    (by
      rw [hd2, hef]
      intro h0
      have := hget p hp
      rw [h0] at this
      cases this) ev (by rw [hd2, hevs])
  rw [hd2] at hses ⊢
  have hpe : ev[p]? = some (ev[p]'(by omega)) := List.getElem?_eq_getElem (by omega)
  have hqe : ev[q]? = some (ev[q]'(by omega)) := List.getElem?_eq_getElem (by omega)
  have st : ∀ r (hr : r < num) psi, ev[r]? = some psi → _ := fun r hr psi hpsi =>
    ladder_state hk1 _ _ _ _ i hω0 r psi (hev r psi hpsi).1 ((hev r psi hpsi).2.trans (by rw [hgetD r hr]))
  exact ⟨w'.circ.efreqs, ev, _, _, hpe, hqe, by rw [hef]; exact hget p hp, by rw [hef]; exact hget q hq,
    st p hp _ hpe, st q hq _ hqe, hses⟩

/-- C114: losses of an LC resonator.  For a circuit whose elements all join node 1 to ground, with at least one inductor,
no junction and no flux, after any orderly history followed by `diag(num)`: with `ω = 1/√(LC)`, the rate between the
neighbouring states `p` and `q` due to the capacitors is `ω·max(p,q)/Q_C` times the thermal factor, and due to the
inductors `ω·max(p,q)/Q_L` times the same factor, whatever operators and states the solver returned. -/
theorem C114_resonator (he : EigsLowest eigs) (ha : CArgsortSpec as) (hcaps : CapsOK c.O) (hlin : Linear c.O c.els)
    (hedge : ∀ p ∈ c.els, p.1 = (0, 1)) (hind : ∃ q ∈ placements c.els, (c.O.elem q.2).kind = .ind)
    (vals : ElemId → ℝ) (flux : LoopId → ℝ) (u : ℝ)
    (w0 : World (circPhys c eigs as)) (hw : construct (circPhys c eigs as) vals flux u = .ok w0)
    (h : List Act) (hh : Orderly w0 h) (noise : ObjNoise) (env : NoiseEnv) (hT : 0 < env.T) :
    let w := run w0 h
    (∀ i, w.vals i = lastBuilt vals w0 h i) → GoodCircuit c w.vals → (∀ l, w.flux l = 0) → w.circ.m ≠ [] →
    let ω := 1 / √(allInd c.O c.els w.vals * allCap c.O c.els w.vals)
    ∀ num : ℕ, num + 1 < (w.circ.m.getD 0 0).toNat → hbar * ω / (kB * env.T) ≤ 709 →
    ∀ p q : ℕ, p < num → q < num → (p = q + 1 ∨ q = p + 1) → ∀ total : Bool,
      sessionRate noise env "capacitive" (p, q) total (diag (some num) w).2 = some (.ok (.val
        (quanta (hbar * ω / (kB * env.T)) p q total *
          (ω * (max p q : ℕ) * capDissipation c.O c.els noise w.vals ω)))) ∧
      sessionRate noise env "inductive" (p, q) total (diag (some num) w).2 = some (.ok (.val
        (quanta (hbar * ω / (kB * env.T)) p q total *
          (ω * (max p q : ℕ) * indDissipation c.O c.els noise w.vals ω env.T)))) := by
  intro w hlast hgood hflux hm0 ω num hnum h709 p q hp hq hadj total
  have hb := linear_bd_now hcaps hlin vals flux u w0 hw h hh hlast hgood.noSelf
  obtain ⟨hk1, hres⟩ := resonator_core hgood hlin hb hedge hind
  have hdim : num + 1 < (run w0 h).circ.bd.dims (run w0 h).circ.m ⟨0, by omega⟩ := hnum
  obtain ⟨hω, -⟩ := hres ⟨0, by omega⟩
  have hωω : (run w0 h).circ.bd.M.omega ⟨0, by omega⟩ = ω := hω
  obtain ⟨hCp, hLp⟩ := resonator_pos hgood hind
  have hω0 : 0 < ω := by rw [← hωω, hω]; positivity
  obtain ⟨ef, ev, psi, psi', hpe, hqe, hpf, hqf, ⟨hpi, z, hz, hpsi⟩, ⟨hqi, z', hz', hpsi'⟩, hses⟩ :=
    resonator_states he ha hlin hedge hind vals flux u w0 hw h hh hm0 hb hgood hflux num p q hp hq _ hdim noise env total
  have hΩ : |(run w0 h).circ.bd.M.omega ⟨0, by omega⟩ * q - (run w0 h).circ.bd.M.omega ⟨0, by omega⟩ * p| = ω := by
    rw [hωω]
    rcases hadj with rfl | rfl
    · push_cast
      rw [show ω * (q : ℝ) - ω * (q + 1) = -ω by ring, abs_neg, abs_of_pos hω0]
    · push_cast
      rw [show ω * (p + 1 : ℝ) - ω * p = ω by ring, abs_of_pos hω0]
  have hpq : p ≠ q := by omega
  refine ⟨(hses _).trans ?_, (hses _).trans ?_⟩
  · rw [resonator_capacitive hgood hlin hb hedge hind _ _ _ (by omega) _ _ noise _ env ef ev p q psi psi' hpe hqe hpf hqf
      hpi hqi z z' hz hz' hpsi hpsi' hT hpq ω hΩ h709 total, hωω, hop_adjacent hadj]
  · rw [resonator_inductive hgood hlin hb hedge hind _ _ _ (by omega) _ _ noise _ env ef ev p q psi psi' hpe hqe hpf hqf
      hpi hqi z z' hz hz' hpsi hpsi' hT hpq ω hΩ h709 total, hωω, hop_adjacent hadj]

/-- C114: selection rule.  Between states of the resonator that are not neighbours both rates vanish. -/
theorem C114_selection (he : EigsLowest eigs) (ha : CArgsortSpec as) (hcaps : CapsOK c.O) (hlin : Linear c.O c.els)
    (hedge : ∀ p ∈ c.els, p.1 = (0, 1)) (hind : ∃ q ∈ placements c.els, (c.O.elem q.2).kind = .ind)
    (vals : ElemId → ℝ) (flux : LoopId → ℝ) (u : ℝ)
    (w0 : World (circPhys c eigs as)) (hw : construct (circPhys c eigs as) vals flux u = .ok w0)
    (h : List Act) (hh : Orderly w0 h) (noise : ObjNoise) (env : NoiseEnv) (hT : 0 < env.T) :
    let w := run w0 h
    (∀ i, w.vals i = lastBuilt vals w0 h i) → GoodCircuit c w.vals → (∀ l, w.flux l = 0) → w.circ.m ≠ [] →
    let ω := 1 / √(allInd c.O c.els w.vals * allCap c.O c.els w.vals)
    ∀ num : ℕ, num + 1 < (w.circ.m.getD 0 0).toNat →
    ∀ p q : ℕ, p < num → q < num → p ≠ q → p ≠ q + 1 → q ≠ p + 1 →
    hbar * |ω * q - ω * p| / (kB * env.T) ≤ 709 → ∀ total : Bool,
      sessionRate noise env "capacitive" (p, q) total (diag (some num) w).2 = some (.ok (.val 0)) ∧
      sessionRate noise env "inductive" (p, q) total (diag (some num) w).2 = some (.ok (.val 0)) := by
  intro w hlast hgood hflux hm0 ω num hnum p q hp hq hpq h1 h2 h709 total
  have hb := linear_bd_now hcaps hlin vals flux u w0 hw h hh hlast hgood.noSelf
  obtain ⟨hk1, hres⟩ := resonator_core hgood hlin hb hedge hind
  have hdim : num + 1 < (run w0 h).circ.bd.dims (run w0 h).circ.m ⟨0, by omega⟩ := hnum
  obtain ⟨hω, -⟩ := hres ⟨0, by omega⟩
  have hωω : (run w0 h).circ.bd.M.omega ⟨0, by omega⟩ = ω := hω
  obtain ⟨ef, ev, psi, psi', hpe, hqe, hpf, hqf, ⟨hpi, z, hz, hpsi⟩, ⟨hqi, z', hz', hpsi'⟩, hses⟩ :=
    resonator_states he ha hlin hedge hind vals flux u w0 hw h hh hm0 hb hgood hflux num p q hp hq _ hdim noise env total
  have hop0 : hop p q = 0 := if_neg (by tauto)
  refine ⟨(hses _).trans ?_, (hses _).trans ?_⟩
  · rw [resonator_capacitive hgood hlin hb hedge hind _ _ _ (by omega) _ _ noise _ env ef ev p q psi psi' hpe hqe hpf hqf
      hpi hqi z z' hz hz' hpsi hpsi' hT hpq _ rfl (by rw [hωω]; exact h709) total, hop0]
    simp
  · rw [resonator_inductive hgood hlin hb hedge hind _ _ _ (by omega) _ _ noise _ env ef ev p q psi psi' hpe hqe hpf hqf
      hpi hqi z z' hz hz' hpsi hpsi' hT hpq _ rfl (by rw [hωω]; exact h709) total, hop0]
    simp

end SQ
