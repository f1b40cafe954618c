import Verif.Props.ResonatorSlope
import Verif.Props.Islands2

/-!
# C116: sensitivities of island circuits to their capacitors
-/

namespace SQ
open Matrix Spec Filter
open scoped Topology

variable {c : CircSpec} {eigs : EigsFn} {as : List ℂ → List ℕ}

/-- derivative of the node capacitances with respect to capacitor `e` -/
noncomputable def capSens (O : Objs) (els : Elements) (n : ℕ) (e : ElemId) : Matrix (Fin n) (Fin n) ℝ :=
  ((placements els).map (fun q => if capacitorOf O q.2 = e then edgeMat n q.1 else 0)).sum

theorem capSens_deriv (O : Objs) (els : Elements) (n : ℕ) (v : ElemId → ℝ) (e : ElemId) (x : ℝ) :
    HasDerivMat (fun t => capacitances (O.withVals (Function.update v e t)) els n) (capSens O els n e) x := by
  intro i j
  unfold capacitances capSens
  simp only [placedCap_withVals]
  generalize placements els = l
  induction l with
  | nil => exact hasDerivAt_const _ _
  | cons q l ih =>
    simp only [List.map_cons, List.sum_cons]
    refine HasDerivAt.add ?_ ih
    by_cases h : capacitorOf O q.2 = e
    · rw [if_pos h, h]
      simp only [Function.update_self, Matrix.smul_apply, smul_eq_mul]
      simpa using (hasDerivAt_id x).mul_const (edgeMat n q.1 i j)
    · rw [if_neg h]
      simp only [Function.update_of_ne h]
      exact hasDerivAt_const _ _

/-- the recorded sensitivity of a capacitor -/
theorem capSens_recorded {v : ElemId → ℝ} (hwt : WellTyped c.O) {n : ℕ} (hv : ValidElements n c.els) {a : Acc n}
    (htr : traverse c.torch c.fd (c.O.withVals v) n c.h c.els = .ok a) (e : ElemId) (he : (c.O.elem e).kind = .cap)
    (hatt : c.torch = true ∨ ∀ q ∈ placements c.els, (c.O.elem q.2).kind ≠ .cap → (c.O.elem q.2).cap ≠ e) :
    a.st.partialMats e = capSens c.O c.els n e := by
  have hfin : ∀ (f : ElemId → Prop) [DecidablePred f], (∀ q ∈ placements c.els, (f q.2 ↔ capacitorOf c.O q.2 = e)) →
      ((placements c.els).map fun q => if f q.2 then edgeMat n q.1 else 0).sum = capSens c.O c.els n e := by
    intro f _ hf
    rw [capSens]
    refine congrArg List.sum (List.map_congr_left ?_)
    intro q hq
    by_cases h : f q.2
    · rw [if_pos h, if_pos ((hf q hq).1 h)]
    · rw [if_neg h, if_neg (fun h' => h ((hf q hq).2 h'))]
  by_cases ht : c.torch = true
  · rw [ht] at htr
    have hwt' : WellTyped (c.O.withVals v) := hwt
    rw [(C20_sensitivity c.fd _ n c.h c.els hv hwt' a htr e).1 he]
    apply hfin (fun j => carries (c.O.withVals v) e j = true)
    intro q hq
    unfold carries capacitorOf
    show (if (c.O.elem q.2).kind = .cap then decide (q.2 = e) else decide ((c.O.elem q.2).cap = e)) = true ↔ _
    cases hk : (c.O.elem q.2).kind <;> simp
  · have htf : c.torch = false := by simpa using ht
    rw [htf] at htr
    rw [(C20_sensitivity_numpy c.fd _ n c.h c.els hv a htr e).1 he]
    apply hfin (fun j => j = e)
    intro q hq
    have hq' := (hatt.resolve_left ht) q hq
    unfold capacitorOf
    cases hk : (c.O.elem q.2).kind with
    | cap => simp
    | ind =>
      have := hq' (by rw [hk]; decide)
      simp only [this, iff_false]
      rintro rfl
      rw [hk] at he
      cases he
    | jj =>
      have := hq' (by rw [hk]; decide)
      simp only [this, iff_false]
      rintro rfl
      rw [hk] at he
      cases he

theorem conj_deriv {q n : ℕ} (J : Matrix (Fin q) (Fin n) ℝ) {F : ℝ → Matrix (Fin n) (Fin n) ℝ}
    {F' : Matrix (Fin n) (Fin n) ℝ} {x : ℝ} (h : HasDerivMat F F' x) :
    HasDerivMat (fun t => J * F t * Jᵀ) (J * F' * Jᵀ) x := by
  intro a b
  simp only [Matrix.mul_apply]
  exact HasDerivAt.fun_sum fun d _ => (HasDerivAt.fun_sum fun k _ => (h k d).const_mul _).mul_const _

/-- derivative of the inverse capacitances between the junction edges -/
theorem invCap_deriv (O : Objs) (els : Elements) (n : ℕ) (v : ElemId → ℝ) (e : ElemId) (x : ℝ)
    (hC : (capacitances (O.withVals (Function.update v e x)) els n).det ≠ 0) :
    HasDerivMat (fun t => junctionInvCap (O.withVals (Function.update v e t)) els n)
      (-(junctionIncidence O els n * ((capacitances (O.withVals (Function.update v e x)) els n)⁻¹ * capSens O els n e *
        (capacitances (O.withVals (Function.update v e x)) els n)⁻¹) * (junctionIncidence O els n)ᵀ)) x := by
  have h1 := hasDerivMat_inv (capSens_deriv O els n v e x) hC
  have h2 := conj_deriv (junctionIncidence O els n) h1
  rw [Matrix.mul_neg, Matrix.neg_mul] at h2
  exact h2

/-- derivative of the charging energy -/
theorem pairEnergy_deriv {k : ℕ} (m : Fin k → ℕ) (ng : Fin k → ℝ) {A : ℝ → Matrix (Fin k) (Fin k) ℝ}
    {A' : Matrix (Fin k) (Fin k) ℝ} {x : ℝ} (h : HasDerivMat A A' x) :
    HasDerivOp (fun t => pairEnergy m (A t) ng) (pairEnergy m A' ng) x := by
  intro a b
  unfold pairEnergy
  simp only [Matrix.smul_apply, Matrix.sum_apply, smul_eq_mul]
  refine HasDerivAt.const_mul _ (HasDerivAt.fun_sum fun i _ => HasDerivAt.fun_sum fun j _ => ?_)
  exact ((h i j).ofReal_comp).mul_const _

/-- `_get_quadratic_Q` of a symmetric matrix on charge modes -/
theorem island_quadratic {nJ k : ℕ} (D : ModeData nJ k) (m : Fin k → ℕ) (ng : Fin k → ℝ) (h : ∀ i, D.omega i = 0)
    {A : Matrix (Fin k) (Fin k) ℝ} (hA : A.IsSymm) : quadraticQ (buildMem D m ng) A = pairEnergy m A ng := by
  rw [C39_quadratic_form D m ng A hA]
  unfold pairEnergy
  simp only [Finset.smul_sum]
  refine Finset.sum_congr rfl fun i _ => Finset.sum_congr rfl fun j _ => ?_
  rw [island_Q D m ng (h i), island_Q D m ng (h j)]
  simp only [smul_mul_assoc, mul_smul_comm, smul_smul]
  congr 1
  have hh := hbar_pos
  have h1 : ((2 * eCharge / √hbar : ℝ)) * (2 * eCharge / √hbar) = (2 * eCharge) ^ 2 / hbar := by
    rw [div_mul_div_comm, Real.mul_self_sqrt hh.le, pow_two]
  have h2 : (((2 * eCharge) ^ 2 / 2 / hbar : ℝ) : ℂ) =
      1 / 2 * (((2 * eCharge / √hbar : ℝ) : ℂ) * ((2 * eCharge / √hbar : ℝ) : ℂ)) := by
    rw [← Complex.ofReal_mul, h1]
    push_cast
    ring
  rw [h2]
  ring

theorem edgeMat_isSymm (n : ℕ) (e : Edge) : (edgeMat n e).IsSymm := by
  ext i j
  simp only [Matrix.transpose_apply, edgeMat, Matrix.of_apply]
  ring

theorem capSens_isSymm (O : Objs) (els : Elements) (n : ℕ) (e : ElemId) : (capSens O els n e).IsSymm := by
  unfold capSens
  generalize placements els = l
  induction l with
  | nil => exact Matrix.isSymm_zero
  | cons q l ih =>
    rw [List.map_cons, List.sum_cons]
    refine Matrix.IsSymm.add ?_ ih
    split
    · exact edgeMat_isSymm _ _
    · exact Matrix.isSymm_zero

/-- an enumeration of the modes by decreasing `g` is unique if the values of `g` differ -/
theorem order_unique {q k : ℕ} (g : Fin q → ℝ) (hg : Function.Injective g) (σ τ : Fin q ≃ Fin k)
    (hσ : ∀ i j, g j < g i → σ i < σ j) (hτ : ∀ i j, g j < g i → τ i < τ j) : σ = τ := by
  have hmono : StrictMono (σ.symm.trans τ) := by
    intro a b hab
    show τ (σ.symm a) < τ (σ.symm b)
    apply hτ
    rcases lt_trichotomy (g (σ.symm b)) (g (σ.symm a)) with h | h | h
    · exact h
    · exact absurd (σ.symm.injective (hg h)) (ne_of_gt hab)
    · have := hσ _ _ h
      rw [Equiv.apply_symm_apply, Equiv.apply_symm_apply] at this
      exact absurd this (not_lt.2 hab.le)
  have hid : hmono.orderIsoOfSurjective _ (σ.symm.trans τ).surjective = OrderIso.refl (Fin k) :=
    Subsingleton.elim _ _
  ext i
  have := congrArg (fun f : Fin k ≃o Fin k => f (σ i)) hid
  simp only [StrictMono.coe_orderIsoOfSurjective, Equiv.trans_apply, Equiv.symm_apply_apply, OrderIso.refl_apply] at this
  rw [this]

theorem aligned_full {nJ n : ℕ} {M : Modes nJ n} (hs : M.keep.Pairwise (· < ·)) (hk : M.keep.length = n) : Aligned M := by
  have hmono : StrictMono fun i : Fin n => M.keep.get (i.cast hk.symm) := by
    intro i j hij
    exact List.pairwise_iff_get.1 hs _ _ hij
  have hsurj : Function.Surjective fun i : Fin n => M.keep.get (i.cast hk.symm) :=
    Finite.surjective_of_injective hmono.injective
  have hid : hmono.orderIsoOfSurjective _ hsurj = OrderIso.refl (Fin n) := Subsingleton.elim _ _
  intro i
  have := congrArg (fun f : Fin n ≃o Fin n => (f (i.cast hk) : ℕ)) hid
  simpa using this

/-- the derivative operator of a capacitor, in the modes that `C93_constructed` describes -/
theorem island_partial {n : ℕ} (hi : IslandCircuit c n) (hr : RoutinesOK c) (hwt : WellTyped c.O) {v : ElemId → ℝ}
    (hv : IslandValues c n v) {bd : Build} (hb : buildCirc c v = .ok bd) :
    bd.M.keep.length = n ∧ bd.n = n ∧ (∀ j, bd.M.omega j = 0) ∧ (capacitances (c.O.withVals v) c.els n).det ≠ 0 ∧
    (junctionInvCap (c.O.withVals v) c.els n).det ≠ 0 ∧
    ∃ σ : Fin (junctionEdges c.O c.els).length ≃ Fin bd.M.keep.length,
      (∀ i j, junctionInvCap (c.O.withVals v) c.els n j j < junctionInvCap (c.O.withVals v) c.els n i i → σ i < σ j) ∧
      ∃ a, traverse c.torch c.fd (c.O.withVals v) bd.n c.h c.els = .ok a ∧
        ∀ e, (c.O.elem e).kind = .cap →
          (c.torch = true ∨ ∀ q ∈ placements c.els, (c.O.elem q.2).kind ≠ .cap → (c.O.elem q.2).cap ≠ e) →
          ∀ (m : Fin bd.M.keep.length → ℕ) (ng : Fin bd.M.keep.length → ℝ) (fl : Fin bd.loops.length → ℝ),
            partialH bd.C bd.M (buildMem bd.M.data m ng) v bd.B fl a.st.partialMats bd.inds bd.juns none
              (gradElOf c.O _ e) =
            pairEnergy m ((-(junctionIncidence c.O c.els n * ((capacitances (c.O.withVals v) c.els n)⁻¹ *
              capSens c.O c.els n e * (capacitances (c.O.withVals v) c.els n)⁻¹) *
                (junctionIncidence c.O c.els n)ᵀ)).submatrix σ.symm σ.symm) ng := by
  have hgood := isl_good hi hr hv
  obtain ⟨-, -, hom, hJ, σ, -, hord, -, -, -, hR⟩ := isl_facts c v hgood hi.noInd hi.some n hi.nodes hi.indep hv.2 hr.sv
    hr.argsort (Or.inr hi.square) bd hb
  have hkn : bd.M.keep.length = n := by
    have := Fintype.card_congr σ
    simp only [Fintype.card_fin] at this
    rw [← this]; exact hi.square
  obtain ⟨n', a, B, t, hn', htr, hB, ht, rfl⟩ := buildCirc_stages hb
  have : n' = n := by rw [hi.nodes] at hn'; exact (Except.ok.inj hn').symm
  subst this
  obtain ⟨-, hcm, -, -, -, -⟩ := isl_mats hgood hi.noInd hi.some hi.nodes htr
  obtain ⟨-, hC, -⟩ := good_mats hgood hi.nodes htr
  refine ⟨hkn, rfl, hom, ?_, ?_, σ, hord, a, htr, ?_⟩
  · rw [← hcm]; exact hC.det_pos.ne'
  · rw [hcm] at hC
    exact (isl_gram rfl hC hi.indep hv.2 (W := junctionIncidence c.O c.els n') rfl).2.1.ne_zero
  intro e he hatt m ng fl
  have hP := capSens_recorded hwt hi.valid htr e he hatt
  have hg : ∀ nl, gradElOf c.O nl e = .cap e := by
    intro nl
    unfold gradElOf
    rw [he]
  rw [hg]
  have hal : Aligned (finishModes c.torch t) := aligned_full ((C32_uncoupled_removal t).2.2 c.torch).1 hkn
  have hA : headBlock (finishModes c.torch t).keep.length (capCoef a.cMat (finishModes c.torch t).R (a.st.partialMats e)) =
      (-(junctionIncidence c.O c.els n' * ((capacitances (c.O.withVals v) c.els n')⁻¹ *
        capSens c.O c.els n' e * (capacitances (c.O.withVals v) c.els n')⁻¹) *
          (junctionIncidence c.O c.els n')ᵀ)).submatrix σ.symm σ.symm := by
    have hRJ : (finishModes c.torch t).R.submatrix id (fun i => (finishModes c.torch t).keep.get (σ i)) =
        (junctionIncidence c.O c.els n')ᵀ := by
      ext p i
      exact hR i p p.2
    ext i j
    rw [headBlock_aligned hal]
    obtain ⟨i, rfl⟩ := σ.surjective i
    obtain ⟨j, rfl⟩ := σ.surjective j
    rw [Matrix.submatrix_apply, Equiv.symm_apply_apply, Equiv.symm_apply_apply, ← hRJ, hP, hcm]
    have hJ' : junctionIncidence c.O c.els n' =
        ((finishModes c.torch t).R.submatrix id (fun i => (finishModes c.torch t).keep.get (σ i)))ᵀ := by
      rw [hRJ, Matrix.transpose_transpose]
    rw [hJ']
    unfold capCoef
    rw [← Matrix.neg_mul, ← Matrix.neg_mul]
    simp only [← Matrix.mul_assoc]
    rfl
  refine Eq.trans ?_ (island_quadratic (finishModes c.torch t).data m ng hom ?_)
  · exact congrArg (quadraticQ (buildMem (finishModes c.torch t).data m ng)) hA
  · refine Matrix.IsSymm.submatrix ?_ _
    refine Matrix.IsSymm.neg ?_
    have hCs : (capacitances (c.O.withVals v) c.els n')ᵀ = capacitances (c.O.withVals v) c.els n' := by
      rw [← hcm]
      have := hC.isHermitian
      rw [Matrix.IsHermitian, Matrix.conjTranspose_eq_transpose_of_trivial] at this
      exact this
    unfold Matrix.IsSymm
    simp only [Matrix.transpose_mul, Matrix.transpose_transpose, Matrix.transpose_nonsing_inv, hCs,
      (capSens_isSymm c.O c.els n' e).eq, Matrix.mul_assoc]

theorem conditioned_near {q n : ℕ} {G : ℝ → Matrix (Fin q) (Fin q) ℝ} {G' : Matrix (Fin q) (Fin q) ℝ} {x0 : ℝ}
    (hd : HasDerivMat G G' x0) (hdet : (G x0).det ≠ 0) (hw : WellConditioned n (G x0)) :
    ∀ᶠ x in 𝓝 x0, WellConditioned n (G x) ∧ ∀ i j, G x0 j j < G x0 i i → G x j j < G x i i := by
  have hdi := hasDerivMat_inv hd hdet
  have hc : ∀ i j, ContinuousAt (fun t => G t i j) x0 := fun i j => (hd i j).continuousAt
  have hci : ∀ i j, ContinuousAt (fun t => (G t)⁻¹ i j) x0 := fun i j => (hdi i j).continuousAt
  have h2 : ∀ᶠ x in 𝓝 x0, WellConditioned n (G x) := by
    refine eventually_all.2 fun i => ?_
    have hcont : ContinuousAt (fun t => 1e-6 * (√(G t i i) + 1e-9) * (√n * √((G t)⁻¹ i i))) x0 :=
      (continuousAt_const.mul ((hc i i).sqrt.add continuousAt_const)).mul (continuousAt_const.mul (hci i i).sqrt)
    exact hcont.eventually_lt continuousAt_const (hw i)
  have h3 : ∀ᶠ x in 𝓝 x0, ∀ i j, G x0 j j < G x0 i i → G x j j < G x i i := by
    refine eventually_all.2 fun i => eventually_all.2 fun j => ?_
    by_cases h : G x0 j j < G x0 i i
    · exact ((hc j j).eventually_lt (hc i i) h).mono fun x hx _ => hx
    · exact Eventually.of_forall fun x hx => absurd hx h
  exact h2.and h3

/-- small changes of a capacitor keep the values admissible and the order of the modes -/
theorem island_near {n : ℕ} {v : ElemId → ℝ} (hv : IslandValues c n v)
    (hC : (capacitances (c.O.withVals v) c.els n).det ≠ 0)
    (hG : (junctionInvCap (c.O.withVals v) c.els n).det ≠ 0) (e : ElemId) :
    ∀ᶠ x in 𝓝 (v e), IslandValues c n (Function.update v e x) ∧
      ∀ i j, junctionInvCap (c.O.withVals v) c.els n j j < junctionInvCap (c.O.withVals v) c.els n i i →
        junctionInvCap (c.O.withVals (Function.update v e x)) c.els n j j <
          junctionInvCap (c.O.withVals (Function.update v e x)) c.els n i i := by
  have hd := invCap_deriv c.O c.els n v e (v e) (by rw [Function.update_eq_self]; exact hC)
  have h1 : ∀ᶠ x in 𝓝 (v e), PositiveCaps (c.O.withVals (Function.update v e x)) c.els := by
    have : ∀ q ∈ {q | q ∈ placements c.els}, ∀ᶠ x in 𝓝 (v e), 0 < placedCap (c.O.withVals (Function.update v e x)) q.2 := by
      intro q hq
      have h0 := hv.1 q hq
      rw [placedCap_withVals] at h0
      simp only [placedCap_withVals]
      by_cases h : capacitorOf c.O q.2 = e
      · rw [h] at h0 ⊢
        simp only [Function.update_self]
        exact lt_mem_nhds h0
      · simp only [Function.update_of_ne h]
        exact Eventually.of_forall fun _ => h0
    exact (eventually_all_finite (List.finite_toSet _)).2 this
  have h2 := conditioned_near (n := n) hd (by rw [Function.update_eq_self]; exact hG) (by
    rw [Function.update_eq_self]; exact hv.2)
  rw [Function.update_eq_self] at h2
  filter_upwards [h1, h2] with x a b
  exact ⟨⟨a, b.1⟩, b.2⟩

theorem island_keep {n : ℕ} (hi : IslandCircuit c n) (hr : RoutinesOK c) {v : ElemId → ℝ}
    (hv : IslandValues c n v) {b : Build} (hb : buildCirc c v = .ok b) : b.k = n ∧ b.n = n := by
  obtain ⟨b', hb', -, hk, -⟩ := C93_constructed c n hi hr v hv
  have : b = b' := by rw [hb'] at hb; exact (Except.ok.inj hb).symm
  subst this
  refine ⟨hk, ?_⟩
  obtain ⟨n', a, B, t, hn', -, -, -, rfl⟩ := buildCirc_stages hb
  rw [hi.nodes] at hn'
  exact (Except.ok.inj hn').symm

theorem island_noRemoval {n : ℕ} (hi : IslandCircuit c n) (hr : RoutinesOK c) (vals : ElemId → ℝ)
    (hv0 : IslandValues c n vals) (flux : LoopId → ℝ) (u : ℝ)
    (w0 : World (circPhys c eigs as)) (hw : construct (circPhys c eigs as) vals flux u = .ok w0)
    (h : List Act) (hupd : ∀ h1 h2, h = h1 ++ .update :: h2 → IslandValues c n (run w0 h1).vals) : NoRemoval c w0 h := by
  intro h1 h2 he
  right
  have h0 := island_keep hi hr hv0 (construct_build hw).1
  refine ⟨by rw [h0.1]; exact hi.nodes, fun b hb => ?_⟩
  have := island_keep hi hr (hupd h1 h2 he) hb
  rw [this.1, this.2]

/-- the build data of an island circuit are those of its current values -/
theorem island_bd_now {n : ℕ} (hi : IslandCircuit c n) (hr : RoutinesOK c) (vals : ElemId → ℝ)
    (hv0 : IslandValues c n vals) (flux : LoopId → ℝ) (u : ℝ)
    (w0 : World (circPhys c eigs as)) (hw : construct (circPhys c eigs as) vals flux u = .ok w0)
    (h : List Act) (hh : Orderly w0 h)
    (hupd : ∀ h1 h2, h = h1 ++ .update :: h2 → IslandValues c n (run w0 h1).vals)
    (hlast : ∀ i, (run w0 h).vals i = lastBuilt vals w0 h i) (hm : (run w0 h).circ.m ≠ []) :
    buildCirc c (run w0 h).vals = .ok (run w0 h).circ.bd ∧
    ∃ mem, (run w0 h).circ.bd.memOps (run w0 h).circ.m (run w0 h).circ.ng = .ok mem := by
  have hrem := island_noRemoval hi hr vals hv0 flux u w0 hw h hupd
  have hre : ∀ h1 h2, h = h1 ++ .update :: h2 →
      (circPhys c eigs as).rebuild ((circPhys c eigs as).nModes (run w0 h1).circ.bd) (run w0 h1).vals =
        (circPhys c eigs as).build (run w0 h1).vals := by
    intro h1 h2 he
    subst he
    exact rebuild_at hw h1 h2 hrem
  obtain ⟨hb, hmem⟩ := coherent_run (P := circPhys c eigs as) (fun v bd => buildCirc c v = .ok bd) h w0 vals
    (coherent_construct hw fun _ hb => hb) hh (fun h1 h2 he bd hbd => (hre h1 h2 he).symm.trans hbd)
  refine ⟨by rw [funext hlast]; exact hb, ?_⟩
  rcases hmem with h0 | ⟨mem, hmem, -⟩
  · exact absurd h0 hm
  · exact ⟨mem, hmem⟩

theorem split_last {h h1 h2 : List Act} {a : Act} (ha : a ≠ .update)
    (he : h ++ [a, .update] = h1 ++ .update :: h2) : h1 = h ++ [a] ∨ ∃ h2', h = h1 ++ .update :: h2' := by
  rcases List.eq_nil_or_concat h2 with rfl | ⟨l, b, rfl⟩
  · left
    rw [show h ++ [a, Act.update] = (h ++ [a]) ++ [.update] by simp] at he
    exact (List.append_inj_left' he rfl).symm
  · right
    rw [show h ++ [a, Act.update] = (h ++ [a]) ++ [.update] by simp, List.concat_eq_append,
      show h1 ++ Act.update :: (l ++ [b]) = (h1 ++ Act.update :: l) ++ [b] by simp] at he
    have he := List.append_inj_left' he rfl
    rcases List.eq_nil_or_concat l with rfl | ⟨l', b', rfl⟩
    · have := List.append_inj_right' he rfl
      simp only [List.cons.injEq, and_true] at this
      exact absurd this ha
    · rw [List.concat_eq_append, show h1 ++ Act.update :: (l' ++ [b']) = (h1 ++ Act.update :: l') ++ [b'] by simp] at he
      exact ⟨l', List.append_inj_left' he rfl⟩

/-- an island circuit one of whose elements is changed, and which is updated -/
theorem island_updated {n : ℕ} (hi : IslandCircuit c n) (hr : RoutinesOK c) (hwt : WellTyped c.O) (vals : ElemId → ℝ)
    (hv0 : IslandValues c n vals) (flux : LoopId → ℝ) (u : ℝ)
    (w0 : World (circPhys c eigs as)) (hw : construct (circPhys c eigs as) vals flux u = .ok w0)
    (h : List Act) (hh : Orderly w0 h)
    (hupd : ∀ h1 h2, h = h1 ++ .update :: h2 → IslandValues c n (run w0 h1).vals)
    (hlast : ∀ i, (run w0 h).vals i = lastBuilt vals w0 h i) (hval : IslandValues c n (run w0 h).vals)
    (hm : (run w0 h).circ.m ≠ [])
    (e : ElemId) (x : ℝ) (hx : IslandValues c n (Function.update (run w0 h).vals e x)) :
    Orderly w0 (h ++ [.setValue e x, .update]) ∧
    (∀ h1 h2, h ++ [.setValue e x, .update] = h1 ++ .update :: h2 → IslandValues c n (run w0 h1).vals) ∧
    (∀ i, (run w0 (h ++ [.setValue e x, .update])).vals i = lastBuilt vals w0 (h ++ [.setValue e x, .update]) i) ∧
    (run w0 (h ++ [.setValue e x, .update])).vals = Function.update (run w0 h).vals e x ∧
    (run w0 (h ++ [.setValue e x, .update])).circ.m = (run w0 h).circ.m ∧
    (run w0 (h ++ [.setValue e x, .update])).circ.ng = (run w0 h).circ.ng ∧
    (run w0 (h ++ [.setValue e x, .update])).unitFreq = (run w0 h).unitFreq := by
  have hset : run w0 (h ++ [.setValue e x]) = { run w0 h with vals := Function.update (run w0 h).vals e x } := by
    rw [run_snoc]
    rfl
  have hu2 : ∀ h1 h2, h ++ [.setValue e x, .update] = h1 ++ .update :: h2 → IslandValues c n (run w0 h1).vals := by
    intro h1 h2 he
    rcases split_last (by intro h; cases h) he with rfl | ⟨h2', rfl⟩
    · rw [hset]; exact hx
    · exact hupd h1 h2' rfl
  have hrem : NoRemoval c w0 ((h ++ [.setValue e x]) ++ [.update]) := by
    refine island_noRemoval hi hr vals hv0 flux u w0 hw _ ?_
    rw [List.append_assoc]
    exact hu2
  obtain ⟨b, hb, -⟩ := C93_constructed c n hi hr _ hx
  have hb' : buildCirc c (run w0 (h ++ [.setValue e x])).vals = .ok b := by rw [hset]; exact hb
  obtain ⟨hbd, mem0, hmem0⟩ := island_bd_now hi hr vals hv0 flux u w0 hw h hh hupd hlast hm
  obtain ⟨k1, -, o1, -⟩ := island_partial hi hr hwt hval hbd
  obtain ⟨k2, -, o2, -⟩ := island_partial hi hr hwt hx hb
  obtain ⟨mem, hmem⟩ : ∃ mem, b.memOps (run w0 (h ++ [Act.setValue e x])).circ.m (run w0 (h ++ [Act.setValue e x])).circ.ng = .ok mem := by
    rw [hset]
    unfold Build.memOps at hmem0 ⊢
    split at hmem0
    · cases hmem0
    split at hmem0
    · cases hmem0
    split at hmem0
    · cases hmem0
    rename_i n1 n2 n3
    refine ⟨⟨b.dims (run w0 h).circ.m, buildMem b.M.data _ (fun i => ((run w0 h).circ.ng i).getD 0)⟩, ?_⟩
    rw [if_neg, if_neg, if_neg]
    · rintro ⟨i, hi', hng⟩
      refine n3 ⟨i, ?_, hng⟩
      unfold Build.isCharge at hi' ⊢
      split at hi'
      · rename_i hlt
        have hlt' : i < (run w0 h).circ.bd.M.keep.length := by rw [k1]; rw [← k2]; exact hlt
        rw [dif_pos hlt']
        simp [o1]
      · cases hi'
    · rintro ⟨i, hi', hlt⟩
      exact n2 ⟨i, by rw [k1, ← k2]; exact hi', hlt⟩
    · rw [k2, ← k1]; exact n1
  obtain ⟨h1, h2, h3, -, -, -, -, h4, h5, -⟩ := C36_update_partial vals flux u w0 hw _ hrem b hb' _ hmem (by rw [hset]; exact hm)
  have hrun : run w0 (h ++ [.setValue e x, .update]) = (update (run w0 (h ++ [.setValue e x]))).2 := by
    rw [show h ++ [Act.setValue e x, .update] = (h ++ [.setValue e x]) ++ [.update] by simp, run_snoc]
    rfl
  have hu : (update (run w0 (h ++ [.setValue e x]))).2.unitFreq = (run w0 (h ++ [.setValue e x])).unitFreq ∧
      (update (run w0 (h ++ [.setValue e x]))).2.circ.ng = (run w0 (h ++ [.setValue e x])).circ.ng := by
    rw [update_ok ((rebuild_at hw _ [] hrem).trans hb') hmem]
    exact ⟨rfl, rfl⟩
  refine ⟨?_, hu2, ?_, ?_, ?_, ?_, ?_⟩
  · rw [show h ++ [Act.setValue e x, .update] = (h ++ [.setValue e x]) ++ [.update] by simp]
    exact orderly_snoc (orderly_snoc hh (fun h => by cases h)) (fun _ => h1)
  · intro i
    rw [lastBuilt_append_set e x h vals w0 h1, hrun, h4]
  · rw [hrun, h4, hset]
  · rw [hrun, h3, hset]
  · rw [hrun, hu.2, hset]
  · rw [hrun, hu.1, hset]

/-- `diag_slope` for all levels at once -/
theorem diag_slopes (he : EigsLowest eigs) (ha : CArgsortSpec as) (wt : ℝ → World (circPhys c eigs as))
    (hm : ∀ t, (wt t).circ.m ≠ []) {k : ℕ} {d : Fin k → ℕ} (H : ℝ → Op d)
    (hH : ∀ t, (hamiltonian (wt t)).1 = .ok ⟨k, d, H t⟩) (hherm : ∀ t, (H t).IsHermitian)
    (U : ℝ) (hU : ∀ t, (wt t).unitFreq = U) (num : ℕ) (h1 : 1 ≤ num) (hnum : num + 1 < Fintype.card (Idx d)) :
    ∃ (F : ℝ → List ℝ) (ev : ℝ → List (Idx d → ℂ)),
      (∀ t, (diag (some num) (wt t)).1 = .ok (F t, (ev t).map (fun v => ⟨k, d, v⟩))) ∧
      (∀ t (w : World (circPhys c eigs as)), w.circ.m ≠ [] → (hamiltonian w).1 = .ok ⟨k, d, H t⟩ → w.unitFreq = U →
        ∃ v, (diag (some num) w).1 = .ok (F t, v)) ∧
      (∀ t, (ev t).length = num ∧ ∀ v ∈ ev t, overlap v v = 1) ∧
      ∀ m, m + 1 < num → ∀ x dH, HasDerivOp H dH x → SimpleLevel (F x) m →
        ∃ hml : m < (ev x).length,
          HasDerivAt (fun t => (F t).getD m 0) ((innerOp (ev x)[m] dH (ev x)[m]).re / (2 * Real.pi * U)) x := by
  have h := fun t => diag_lowest he ha (hm t) (hH t) (hherm t) num h1 hnum
  choose vs ws ev w' hl hdg _ _ hlen hev using h
  refine ⟨fun t => ((ws t).take num).map (fun f => f / (2 * Real.pi * U)), ev, ?_, ?_, ?_, ?_⟩
  · intro t
    rw [hdg t, hU]
  · intro t w hmw hHw hUw
    obtain ⟨vs', ws', ev', w'', hl', hd', -⟩ := diag_lowest he ha hmw hHw (hherm t) num h1 hnum
    rw [hd', levels_unique hl' (hl t), hUw]
    exact ⟨_, rfl⟩
  · intro t
    refine ⟨hlen t, fun v hv => ?_⟩
    obtain ⟨i, hi, rfl⟩ := List.mem_iff_getElem.1 hv
    exact (hev t i _ (List.getElem?_eq_getElem hi)).1
  · intro m hmn x dH hd hsim
    have hwl : ∀ t, (ws t).length = Fintype.card (Idx d) := fun t => (hl t).len.trans (hl t).card
    have hs := simple_of_take (hl x).sorted hmn (by rw [hwl]; omega) hsim
    have hmx : m < (ev x).length := by rw [hlen]; omega
    obtain ⟨hn, hee⟩ := hev x m (ev x)[m] (List.getElem?_eq_getElem hmx)
    obtain ⟨r, hr, hdr⟩ := C90_level (Eventually.of_forall hherm) hd vs ws (Eventually.of_forall hl) m hs
      (ev x) _ (List.getElem?_eq_getElem hmx) hn hee
    have hr' : r = (innerOp (ev x)[m] dH (ev x)[m]).re := by
      unfold partialOmega at hr
      rw [if_neg (by omega), pyGet_nat hmx] at hr
      simpa using (Except.ok.inj hr).symm
    refine ⟨hmx, ?_⟩
    rw [← hr']
    have hF : (fun t => (((ws t).take num).map (fun f => f / (2 * Real.pi * U))).getD m 0) =
        fun t => (ws t).getD m 0 / (2 * Real.pi * U) := by
      funext t
      rw [List.getD_eq_getElem?_getD, List.getElem?_map, List.getElem?_take_of_lt (by omega),
        List.getD_eq_getElem?_getD, List.getElem?_eq_getElem (by rw [hwl]; omega)]
      rfl
    rw [hF]
    exact hdr.div_const _

end SQ
