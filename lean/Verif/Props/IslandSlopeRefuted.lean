import Verif.Props.IslandSlopeExample
import Verif.Props.DephasingCharge
/-!
# C116: refuted for attached capacitors under NumPy
-/

namespace SQ
open Matrix Spec Filter
open scoped Topology

/-- the energy of the pairs on one island with offset 1/4 and a negative coefficient is negative in every state -/
theorem pair_neg {k : ℕ} (hk : k = 1) (d : Fin k → ℕ) (A : Matrix (Fin k) (Fin k) ℝ) (ng : Fin k → ℝ)
    (hA : ∀ i j, A i j = -1) (hd : ∀ i, d i = 5) (hng : ∀ i, ng i = 1 / 4) (ψ : Idx d → ℂ) (hψ : overlap ψ ψ = 1) :
    (innerOp ψ (pairEnergy d A ng) ψ).re < 0 := by
  subst hk
  have hP : pairs d ng 0 = diagonal (fun x : Idx d => (((x 0 : ℕ) : ℝ) - 9 / 4 : ℂ)) := by
    have h1 : onMode d 0 (qCharge (d 0)) = diagonal (fun x : Idx d => (((x 0 : ℕ) : ℂ) - ((d 0 : ℂ) - 1) / 2)) :=
      single_diagonal (m := d) 0 _
    unfold pairs
    have h5 : ((d 0 : ℕ) : ℂ) = 5 := by rw [hd]; rfl
    rw [h1, hng, h5]
    ext x y
    by_cases hxy : x = y
    · subst hxy
      simp
      ring
    · simp [hxy]
  have hE : pairEnergy d A ng = diagonal (fun x : Idx d => ((-((2 * eCharge) ^ 2 / 2 / hbar * (((x 0 : ℕ) : ℝ) - 9 / 4) ^ 2) : ℝ) : ℂ)) := by
    unfold pairEnergy
    rw [Fin.sum_univ_one, Fin.sum_univ_one, hA, hP, Matrix.diagonal_mul_diagonal, ← Matrix.diagonal_smul, ← Matrix.diagonal_smul]
    refine congrArg Matrix.diagonal ?_
    funext x
    simp only [Pi.smul_apply, smul_eq_mul]
    push_cast
    ring
  rw [hE]
  unfold innerOp
  simp only [dotProduct, Matrix.mulVec_diagonal, Pi.star_apply]
  rw [Complex.re_sum]
  have hterm : ∀ x : Idx d, (star (ψ x) * (((-((2 * eCharge) ^ 2 / 2 / hbar * (((x 0 : ℕ) : ℝ) - 9 / 4) ^ 2) : ℝ) : ℂ) * ψ x)).re =
      -((2 * eCharge) ^ 2 / 2 / hbar * (((x 0 : ℕ) : ℝ) - 9 / 4) ^ 2) * Complex.normSq (ψ x) := by
    intro x
    rw [mul_left_comm, Complex.re_ofReal_mul]
    congr 1
    have : star (ψ x) * ψ x = (Complex.normSq (ψ x) : ℂ) := by
      rw [mul_comm]; exact Complex.mul_conj _
    rw [this, Complex.ofReal_re]
  rw [Finset.sum_congr rfl fun x _ => hterm x]
  have hK : 0 < (2 * eCharge) ^ 2 / 2 / hbar := by
    have := hbar_pos
    unfold eCharge
    positivity
  have hpos : ∀ x : Idx d, 0 < (((x 0 : ℕ) : ℝ) - 9 / 4) ^ 2 := by
    intro x
    refine sq_pos_of_ne_zero ?_
    intro h
    have h4 : ((4 * (x 0 : ℕ) : ℕ) : ℝ) = ((9 : ℕ) : ℝ) := by push_cast; linarith
    have := Nat.cast_injective h4
    omega
  refine Finset.sum_neg' (fun x _ => ?_) ?_
  · have := mul_nonneg (mul_pos hK (hpos x)).le (Complex.normSq_nonneg (ψ x))
    linarith
  · by_contra hcon
    push Not at hcon
    have hz : ∀ x, ψ x = 0 := by
      intro x
      have h1 := hcon x (Finset.mem_univ x)
      by_contra hx
      have := mul_pos (mul_pos hK (hpos x)) (Complex.normSq_pos.2 hx)
      linarith
    have : overlap ψ ψ = 0 := by
      unfold overlap
      exact Finset.sum_eq_zero fun x _ => by rw [hz x, mul_zero]
    rw [this] at hψ
    exact zero_ne_one hψ

theorem box_sens (v : ElemId → ℝ) (hv : v 1 = 1) (i j) :
    (-(junctionIncidence boxObjs (oneEdge [0]) 1 * ((capacitances (boxObjs.withVals v) (oneEdge [0]) 1)⁻¹ *
      capSens boxObjs (oneEdge [0]) 1 1 * (capacitances (boxObjs.withVals v) (oneEdge [0]) 1)⁻¹) *
        (junctionIncidence boxObjs (oneEdge [0]) 1)ᵀ)) i j = -1 := by
  have hC : capacitances (boxObjs.withVals v) (oneEdge [0]) 1 = 1 := by
    ext a b
    fin_cases a; fin_cases b
    simp [capacitances, placements, oneEdge, placedCap, boxObjs, Objs.withVals, edgeMat, incidence, hv]
  have hS : capSens boxObjs (oneEdge [0]) 1 1 = 1 := by
    ext a b
    fin_cases a; fin_cases b
    simp [capSens, placements, oneEdge, capacitorOf, boxObjs, edgeMat, incidence]
  have hE : junctionEdges boxObjs (oneEdge [0]) = [(0, 1)] := by simp [junctionEdges, oneEdge, boxObjs]
  have hJ : ∀ i a, junctionIncidence boxObjs (oneEdge [0]) 1 i a = incidence (0, 1) 1 := by
    intro i a
    fin_cases a
    show ((incidence ((junctionEdges boxObjs (oneEdge [0])).get i) (0 + 1) : ℤ) : ℝ) = _
    have : (junctionEdges boxObjs (oneEdge [0])).get i = (0, 1) := by
      have hm : ∀ l : List Edge, l = [(0, 1)] → ∀ i, l.get i = (0, 1) := by
        rintro _ rfl i
        fin_cases i
        rfl
      exact hm _ hE i
    rw [this]
  rw [hC, hS]
  simp only [inv_one, Matrix.mul_one, Matrix.neg_apply, Matrix.mul_apply, Fin.sum_univ_one, Matrix.transpose_apply, hJ]
  simp [incidence]

/-- a Cooper pair box with 5 charge states and offset charge 1/4 -/
theorem box_session (torch : Bool) (lib : ∀ n, NumLib n)
    (hlib : ∀ n, ∀ C L : Matrix (Fin n) (Fin n) ℝ, C.PosDef → L.PosSemidef → LibSpec (lib n) C L)
    (argsort : ArgsortFn) (hsrt : ArgsortSpec argsort) (argmax : ∀ k, ArgmaxFn k) (hm : ∀ k, ArgmaxSpec (argmax k))
    (eigs as) (he : EigsLowest eigs) (ha : CArgsortSpec as) :
    ∃ w0, construct (circPhys (parallelSpec torch .junctions boxObjs [0] (fun _ => LoopObj.init 0 0) lib exSv argsort argmax
        (fun _ _ => 0)) eigs as) (fun _ => 1) (fun _ => 0) 1 = .ok w0 ∧
      let h : List Act := [.setTruncNums (.list [3]), .setChargeOffset (some 1) (1 / 4)]
      Orderly w0 h ∧ (run w0 h).circ.m = [5] ∧ (run w0 h).vals = (fun _ => 1) ∧ (run w0 h).unitFreq = 1 ∧
      (run w0 h).circ.ng 0 = some (1 / 4) := by
  obtain ⟨w0, hw, -⟩ := C97_transmon torch .junctions boxObjs [0] box_junctions box_caps (by simp [boxObjs])
    (fun _ => LoopObj.init 0 0) lib hlib exSv exSv_spec argsort hsrt argmax hm (fun _ _ => 0) eigs as he ha (fun _ => 1)
    box_values (fun _ => 0) 1
  have hb : buildCirc _ _ = .ok w0.circ.bd := (construct_build hw).1
  obtain ⟨hk, -, -, hom, -⟩ := oe_facts (fd := .junctions) (torch := torch) box_junctions hlib exSv_spec hsrt hm box_values hb
  have ht := C42_constructed hw [3] hk.symm (by simp)
  obtain ⟨t1, t2, t3⟩ := truncOne ht.1
  have ho1 : Orderly w0 [.setTruncNums (.list [3])] := ⟨fun _ => Or.inl ht.1, trivial⟩
  have hnc : Build.isCharge w0.circ.bd 0 = true := by
    unfold Build.isCharge
    rw [dif_pos (by omega)]
    simp [hom]
  have hmm : dimsOf (circPhys _ eigs as) w0.circ.bd [3] = [5] := by
    have hnc' : (circPhys _ eigs as).isCharge w0.circ.bd 0 = true := hnc
    have hn1 : (circPhys _ eigs as).nModes w0.circ.bd = 1 := hk
    unfold dimsOf
    rw [hn1]
    simp [hnc']
  have hm1 : (run w0 [.setTruncNums (.list [3])]).circ.m = [5] := t3.trans hmm
  have hv0 : w0.vals = (fun _ => 1) ∧ w0.unitFreq = 1 := by
    have hw' := hw
    unfold construct at hw'
    split at hw'
    · cases hw'
    · injection hw' with hw'
      rw [← hw']
      exact ⟨rfl, rfl⟩
  have hv1 : (run w0 [.setTruncNums (.list [3])]).vals = fun _ => 1 := by
    funext i
    rw [(C81_value w0 i).2 _ (by simp), hv0.1]
  have hu1 : (run w0 [.setTruncNums (.list [3])]).unitFreq = 1 :=
    ((exec_inputs (.setTruncNums (.list [3])) w0).2.2.1 (by simp)).trans hv0.2
  have hne : (run w0 [.setTruncNums (.list [3])]).circ.m ≠ [] := by rw [hm1]; simp
  obtain ⟨-, hops⟩ := coherent_run (P := circPhys _ eigs as) (fun _ _ => True) _ w0 (fun _ => 1)
    (coherent_construct hw fun _ _ => trivial) ho1 (fun _ _ _ _ _ => trivial)
  obtain ⟨mem, hmem, -⟩ := hops.resolve_left hne
  have hch : (run w0 [.setTruncNums (.list [3])]).circ.bd.isCharge 0 = true := by
    have : (run w0 [.setTruncNums (.list [3])]).circ.bd = w0.circ.bd := t1
    rw [this]
    exact hnc
  obtain ⟨i1, -, i2, i3, -, i5, i6⟩ := offset_one hne ⟨mem, hmem⟩ hch (1 / 4)
  refine ⟨w0, hw, ⟨fun _ => Or.inl ht.1, fun _ => Or.inl i1, trivial⟩, i2.trans hm1, i3.trans hv1, i5.trans hu1, ?_⟩
  have : (run w0 [.setTruncNums (.list [3]), .setChargeOffset (some 1) (1 / 4)]).circ.ng = _ := i6
  rw [this, Function.update_self]

/-- C116, refuted for attached capacitors under NumPy: a Cooper pair box whose capacitor was given to its junction, with
offset charge 1/4; `get_partial_omega` returns 0 for the capacitor although the frequency of the ground state falls when
the capacitor grows. -/
theorem C116_attached_refuted : ∃ (c : CircSpec) (eigs : EigsFn) (as : List ℂ → List ℕ) (w0 : World (circPhys c eigs as))
    (F : ℝ → List ℝ), let h : List Act := [.setTruncNums (.list [3]), .setChargeOffset (some 1) (1 / 4)]
    let w := run w0 h
    ∃ (ev : List (Idx (w.circ.bd.dims w.circ.m) → ℂ)) (a : Acc w.circ.bd.n) (D : ℝ),
    EigsLowest eigs ∧ CArgsortSpec as ∧ c.torch = false ∧ c.els = [((0, 1), [0])] ∧ (c.O.elem 0).kind = .jj ∧
    (c.O.elem 0).cap = 1 ∧ (c.O.elem 1).kind = .cap ∧
    construct (circPhys c eigs as) (fun _ => 1) (fun _ => 0) 1 = .ok w0 ∧ Orderly w0 h ∧
    (∀ᶠ x in 𝓝 1, ∃ v, (diag (some 3) (run w0 (h ++ [.setValue 1 x, .update]))).1 = .ok (F x, v)) ∧
    (diag (some 3) w).1 = .ok (F 1, ev.map fun v => ⟨_, _, v⟩) ∧
    traverse c.torch c.fd (c.O.withVals w.vals) w.circ.bd.n c.h c.els = .ok a ∧
    HasDerivAt (fun x => (F x).getD 0 0) D 1 ∧ D < 0 ∧
    partialOmega ev (partialH w.circ.bd.C w.circ.bd.M
        (buildMem w.circ.bd.M.data (w.circ.bd.dims w.circ.m) (fun i => (w.circ.ng i).getD 0)) w.vals w.circ.bd.B
        (fun j => w.flux (w.circ.bd.loops.get j)) a.st.partialMats w.circ.bd.inds w.circ.bd.juns none
        (gradElOf c.O _ 1)) (0 : ℕ) false = .ok 0 := by
  choose lib hlib using exists_lib
  choose argmax hm using exists_argmax
  obtain ⟨argsort, hsrt⟩ := exists_argsort
  obtain ⟨eigs, he⟩ := exists_eigs_lowest
  obtain ⟨as, ha⟩ := exists_cargsort
  obtain ⟨w0, hw, ho, hm5, hvv, huu, hng⟩ := box_session false lib hlib argsort hsrt argmax hm eigs as he ha
  have hnl : ∀ i ∈ [0], (boxObjs.elem i).loops = [] := by simp [boxObjs]
  have hwt : WellTyped boxObjs := by
    intro i
    unfold boxObjs
    by_cases h : i = 0 <;> simp [h]
  obtain ⟨hI, hV0⟩ := oe_island_circuit (torch := false) (fd := .junctions) (h := fun _ => LoopObj.init 0 0) (lib := lib)
    (sv := exSv) (argsort := argsort) (argmax := argmax) (draws := fun _ _ => 0) box_junctions hnl box_values
  have hr : RoutinesOK (parallelSpec false .junctions boxObjs [0] (fun _ => LoopObj.init 0 0) lib exSv argsort argmax
    fun _ _ => 0) := ⟨hlib, exSv_spec, hsrt, hm, le_refl 3⟩
  have hupd : ∀ h1 h2, ([.setTruncNums (.list [3]), .setChargeOffset (some 1) (1 / 4)] : List Act) = h1 ++ .update :: h2 →
      IslandValues (parallelSpec false .junctions boxObjs [0] (fun _ => LoopObj.init 0 0) lib exSv argsort argmax
        fun _ _ => 0) 1 (run w0 h1).vals := by
    intro h1 h2 hx
    have : Act.update ∈ ([.setTruncNums (.list [3]), .setChargeOffset (some 1) (1 / 4)] : List Act) := by rw [hx]; simp
    simp at this
  have hne : (run w0 [.setTruncNums (.list [3]), .setChargeOffset (some 1) (1 / 4)]).circ.m ≠ [] := by rw [hm5]; simp
  have hlast : ∀ i, (run w0 [.setTruncNums (.list [3]), .setChargeOffset (some 1) (1 / 4)]).vals i =
      lastBuilt (fun _ => 1) w0 [.setTruncNums (.list [3]), .setChargeOffset (some 1) (1 / 4)] i := by
    intro i
    rw [hvv]
    rfl
  have hval : IslandValues (parallelSpec false .junctions boxObjs [0] (fun _ => LoopObj.init 0 0) lib exSv argsort argmax
        fun _ _ => 0) 1 (run w0 [.setTruncNums (.list [3]), .setChargeOffset (some 1) (1 / 4)]).vals := by
    rw [hvv]; exact hV0
  have hb := (island_bd_now hI hr _ hV0 _ _ w0 hw _ ho hupd hlast hne).1
  obtain ⟨hk, hbn, -⟩ := island_partial hI hr hwt hval hb
  have hlen : (junctionEdges boxObjs (oneEdge [0])).length = 1 := hI.square
  have hd : ∀ i, (run w0 [.setTruncNums (.list [3]), .setChargeOffset (some 1) (1 / 4)]).circ.bd.dims
      (run w0 [.setTruncNums (.list [3]), .setChargeOffset (some 1) (1 / 4)]).circ.m i = 5 := by
    intro i
    have hi0 : (i : ℕ) = 0 := by have := i.2; omega
    show (List.getD (run w0 [.setTruncNums (.list [3]), .setChargeOffset (some 1) (1 / 4)]).circ.m i (0 : ℤ)).toNat = 5
    rw [hm5, hi0]
    rfl
  obtain ⟨F, ev, a, σ, X, f1, f2, f3, -, f5, f6, f7, f8⟩ := island_slope he ha box_caps hwt 1 hI hr _ hV0 _ _ w0 hw _ ho hupd 1
    (by simp [parallelSpec, boxObjs]) hlast hval hne (by
      intro i j _
      have hi := i.2
      have hj := j.2
      change (i : ℕ) < (junctionEdges boxObjs (oneEdge [0])).length at hi
      change (j : ℕ) < (junctionEdges boxObjs (oneEdge [0])).length at hj
      exact Fin.ext (by omega)) 3 (by norm_num) (by
      unfold Idx
      rw [Fintype.card_pi]
      simp only [Fintype.card_fin]
      rw [Finset.prod_congr rfl fun i _ => hd i, Finset.prod_const, Finset.card_fin, hk]
      norm_num)
  have hneg : ∀ v ∈ ev, (innerOp v X v).re < 0 := by
    intro v hv
    rw [f5]
    refine pair_neg hk _ _ _ ?_ hd ?_ v (f7 v hv)
    · intro i j
      exact box_sens _ (by rw [hvv]) _ _
    · intro i
      have hi0 : (i : ℕ) = 0 := by have := i.2; omega
      show Option.getD (Circ.ng _ (i : ℕ)) 0 = _
      rw [hi0, hng]
      rfl
  have hsimple : SimpleLevel (F 1) 0 := by
    obtain ⟨w0', hw', hall⟩ := C97_transmon false .junctions boxObjs [0] box_junctions box_caps hnl
      (fun _ => LoopObj.init 0 0) lib hlib exSv exSv_spec argsort hsrt argmax hm (fun _ _ => 0) eigs as he ha (fun _ => 1)
      box_values (fun _ => 0) 1
    have : w0' = w0 := by rw [hw] at hw'; exact (Except.ok.inj hw').symm
    subst this
    obtain ⟨F', v', hd', hl', hs'⟩ := hall _ ho (by
      intro h1 h2 hx
      have : Act.update ∈ ([.setTruncNums (.list [3]), .setChargeOffset (some 1) (1 / 4)] : List Act) := by rw [hx]; simp
      simp at this) (fun i _ => hlast i) (by rw [hvv]; exact box_values) (by rw [hvv]; simp [boxObjs])
      (by rw [huu]; norm_num) 5 3 hm5 (by norm_num) (by norm_num)
    have hFF : F' = F 1 := by
      have := hd'.symm.trans f2
      rw [hvv] at this
      exact (Prod.mk.inj (Except.ok.inj this)).1
    rw [hFF] at hs' hl'
    exact simple_of_strict hs' (by omega)
  have hv1 : (run w0 [.setTruncNums (.list [3]), .setChargeOffset (some 1) (1 / 4)]).vals 1 = 1 := by rw [hvv]
  rw [hv1] at f1 f2 f8
  obtain ⟨hp, hder⟩ := f8 0 (by norm_num) hsimple
  refine ⟨_, eigs, as, w0, F, ev, a, _, he, ha, rfl, rfl, rfl, rfl, rfl, hw, ho, f1, f2, f3, hder, ?_, ?_⟩
  · refine div_neg_of_neg_of_pos (hneg _ (List.getElem_mem hp)) ?_
    rw [huu]
    positivity
  · have hP : a.st.partialMats 1 = 0 := by
      have := (C20_sensitivity_numpy _ _ _ _ _ (by rw [hbn]; exact hI.valid) a f3 1).1 rfl
      rw [this]
      simp [placements, parallelSpec, oneEdge]
      have hz : ∀ n : ℕ, ([0] : List (Matrix (Fin n) (Fin n) ℝ)).sum = 0 := fun n => by rw [List.sum_cons, List.sum_nil, add_zero]
      exact hz _
    have hX : ∀ {n nJ : ℕ} (C : Matrix (Fin n) (Fin n) ℝ) (M : Modes nJ n) (d : Fin M.keep.length → ℕ) (ng),
        quadraticQ (buildMem M.data d ng) (headBlock _ (capCoef C M.R 0)) = 0 := by
      intro n nJ C M d ng
      have : headBlock M.keep.length (capCoef C M.R 0) = 0 := by
        ext i j
        simp [headBlock, capCoef]
      rw [this, C39_quadratic_form _ _ _ _ (by ext i j; rfl)]
      simp
    have h0 := pyGet_nat hp
    unfold partialOmega
    rw [if_neg (by omega), h0]
    simp only [Bool.false_eq_true, if_false]
    show Except.ok ((innerOp ev[0] (quadraticQ _ (headBlock _ (capCoef _ _ (a.st.partialMats 1)))) ev[0]).re) = _
    rw [hP, hX]
    simp [innerOp]

end SQ
