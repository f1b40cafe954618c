import Verif.Props.FloatingDraws
import Verif.Props.MergeCircuit

/-!
# C130: freshly constructed circuits, and an example
-/

namespace SQ
open Matrix Spec

/-- a freshly constructed floating circuit with the truncation number `t` for every mode -/
theorem flt_truncated {c : CircSpec} {n : ℕ} (hi : FloatingCircuit c n) (hr : RoutinesOK c) {vals : ElemId → ℝ}
    (hv : IslandValues c n vals) {q : ℕ} (hq : (junctionEdges c.O c.els).length = q) {eigs as} {flux : LoopId → ℝ} {u : ℝ}
    {w0 : World (circPhys c eigs as)} (hw : construct (circPhys c eigs as) vals flux u = .ok w0) {t : ℤ} (ht : 1 ≤ t) :
    Orderly w0 [.setTruncNums (.list (List.replicate q t))] ∧
    (run w0 [.setTruncNums (.list (List.replicate q t))]).circ.m = List.replicate q (2 * t - 1) ∧
    (run w0 [.setTruncNums (.list (List.replicate q t))]).unitFreq = u ∧
    (run w0 [.setTruncNums (.list (List.replicate q t))]).vals = vals ∧
    ∀ i, ((run w0 [.setTruncNums (.list (List.replicate q t))]).circ.ng i).getD 0 = 0 := by
  have hb : buildCirc c vals = .ok w0.circ.bd := (construct_build hw).1
  obtain ⟨-, -, hom, hJ, σ, -⟩ := isl_facts c vals (flt_good hi hr hv.1) hi.noInd hi.some n hi.nodes hi.indep
    hv.2 hr.sv hr.argsort (Or.inl hi.numpy) w0.circ.bd hb
  have hkn : w0.circ.bd.M.keep.length = q := by
    have := Fintype.card_congr σ
    simp only [Fintype.card_fin] at this
    exact this.symm.trans hq
  have hfld : w0.unitFreq = u ∧ w0.vals = vals ∧ w0.flux = flux ∧
      w0.circ.islands = fun i => if i < (circPhys _ eigs as).nModes w0.circ.bd ∧ (circPhys _ eigs as).isCharge w0.circ.bd i
        then some (ChargeObj.init 0 1e-4) else none := by
    have hw' := hw
    unfold construct at hw'
    split at hw'
    · cases hw'
    · injection hw' with hw'
      rw [← hw']
      exact ⟨rfl, rfl, rfl, rfl⟩
  have hok : (setTruncNums (.list (List.replicate q t)) w0).1 = .ok () :=
    (C42_constructed hw (List.replicate q t) (by rw [List.length_replicate]; exact hkn.symm)
      (fun x hx => by rw [List.eq_of_mem_replicate hx]; exact ht)).1
  have hst : (run w0 [.setTruncNums (.list (List.replicate q t))]).circ.m = dimsOf _ w0.circ.bd (List.replicate q t) ∧
      (run w0 [.setTruncNums (.list (List.replicate q t))]).unitFreq = w0.unitFreq ∧
      (run w0 [.setTruncNums (.list (List.replicate q t))]).vals = w0.vals ∧
      (run w0 [.setTruncNums (.list (List.replicate q t))]).circ.ng = w0.circ.ng := by
    show (setTruncNums (.list (List.replicate q t)) w0).2.circ.m = _ ∧
      (setTruncNums (.list (List.replicate q t)) w0).2.unitFreq = _ ∧ (setTruncNums (.list (List.replicate q t)) w0).2.vals = _ ∧
      (setTruncNums (.list (List.replicate q t)) w0).2.circ.ng = _
    rcases setTruncNums_cases (.list (List.replicate q t)) w0 with ⟨h1, -⟩ | ⟨nums, hn, -, ⟨e, h1, -⟩ | ⟨mem, hmem, -, h2⟩⟩
    · rw [h1] at hok; cases hok
    · rw [h1] at hok; cases hok
    injection hn with hn
    subst hn
    rw [h2]
    exact ⟨rfl, rfl, rfl, rfl⟩
  have hn1 : (circPhys _ eigs as).nModes w0.circ.bd = q := hkn
  have hnc : ∀ i, i < q → (circPhys _ eigs as).isCharge w0.circ.bd i = true := by
    intro i hi
    show Build.isCharge w0.circ.bd i = true
    unfold Build.isCharge
    rw [dif_pos (by omega)]
    simp [hom]
  refine ⟨⟨fun _ => Or.inl hok, trivial⟩, ?_, hst.2.1.trans hfld.1, hst.2.2.1.trans hfld.2.1, ?_⟩
  · rw [hst.1]
    unfold dimsOf
    rw [hn1]
    refine List.ext_getElem (by simp) ?_
    intro i h1 h2
    have hi : i < q := by simpa using h1
    simp [hnc i hi, hi]
  · intro i
    rw [hst.2.2.2]
    unfold Circ.ng
    rw [hfld.2.2.2, hn1]
    by_cases hi : i < q
    · simp [hi, hnc i hi, ChargeObj.init, ChargeObj.chValue]
    · simp [hi]

/-- C130 (capacitors in series, freshly constructed circuits): with the same truncation number for every mode, the two circuits
have the same frequencies. -/
theorem C130_series_constructed {c c' : CircSpec} {eigs eigs' : EigsFn} {as as' : List ℂ → List ℕ} {n : ℕ}
    (he : EigsLowest eigs) (ha : CArgsortSpec as) (he' : EigsLowest eigs') (ha' : CArgsortSpec as')
    (hi : FloatingCircuit c n) (hi' : FloatingCircuit c' (n + 1)) (hr : RoutinesOK c) (hr' : RoutinesOK c') (hO : c'.O = c.O)
    (hcaps : CapsOK c.O) (i0 i1 i2 : ElemId) (hs : SplitCapacitor c.O n c.els c'.els i0 i1 i2)
    (q : ℕ) (hq : (junctionEdges c.O c.els).length = q) (hq' : (junctionEdges c.O c'.els).length = q)
    (vals : ElemId → ℝ) (hv : IslandValues c n vals) (hv' : IslandValues c' (n + 1) vals)
    (h0 : vals i0 = seriesCap (vals i1) (vals i2)) (flux flux' : LoopId → ℝ) (u : ℝ)
    (w0 : World (circPhys c eigs as)) (hw : construct (circPhys c eigs as) vals flux u = .ok w0)
    (w0' : World (circPhys c' eigs' as')) (hw' : construct (circPhys c' eigs' as') vals flux' u = .ok w0')
    (t : ℤ) (ht : 1 ≤ t) (num : ℕ) (h1 : 1 ≤ num) (hnum : num + 1 < (2 * t - 1).toNat ^ q) :
    ∃ F v v', (diag (some num) (run w0 [.setTruncNums (.list (List.replicate q t))])).1 = .ok (F, v) ∧
      (diag (some num) (run w0' [.setTruncNums (.list (List.replicate q t))])).1 = .ok (F, v') := by
  obtain ⟨o1, m1, u1, v1, n1⟩ := flt_truncated hi hr hv hq hw ht
  obtain ⟨o2, m2, u2, v2, n2⟩ := flt_truncated hi' hr' hv' (hO ▸ hq' : (junctionEdges c'.O c'.els).length = q) hw' ht
  have hq0 : q ≠ 0 := by
    rw [← hq]; simpa using hi.some
  have hne : List.replicate q (2 * t - 1) ≠ [] := by simpa using hq0
  obtain ⟨π, -, hdiag⟩ := C130_series he ha he' ha' hi hi' hr hr' hO hcaps i0 i1 i2 hs vals vals flux flux' u u w0 hw w0' hw'
    _ _ o1 o2 (by simp) (by simp) (fun i _ => by rw [v1]) (fun i _ => by rw [v2]) (by rw [v1]; exact hv) (by rw [v1]; exact hv')
    (v2.trans v1.symm) (by rw [v1]; exact h0) (by rw [m1]; exact hne) (by rw [m2]; exact hne) (u2.trans u1.symm)
  have hget : ∀ i : Fin (junctionEdges c.O c.els).length, (List.replicate q (2 * t - 1)).getD i 0 = 2 * t - 1 := by
    intro i
    have : (i : ℕ) < q := by rw [← hq]; exact i.2
    simp [List.getD, this]
  refine hdiag ?_ ?_ num h1 ?_
  · intro i
    rw [m1, m2]
    exact (hget _).trans (hget _).symm
  · intro i
    rw [n1, n2]
  · rw [m1, Finset.prod_congr rfl (fun i _ => by rw [hget i]), Finset.prod_const, Finset.card_univ, Fintype.card_fin, hq]
    exact hnum

theorem _root_.SQ.Spec.IslandCircuit.floating {c : CircSpec} {n : ℕ} (hi : IslandCircuit c n) (ht : c.torch = false) :
    FloatingCircuit c n := ⟨ht, hi.nodes, hi.valid, hi.ground, hi.noInd, hi.noLoops, hi.some, hi.indep⟩

/-- `{(0, 1): [J], (0, 2): [C₁], (2, 1): [C₂]}` -/
def serEls : Elements := [((0, 1), [0]), ((0, 2), [5]), ((2, 1), [6])]

/-- junction of 5 with 2 F attached, capacitors of 2 F and 3 F in series, or of 6/5 F -/
noncomputable def serVals : ElemId → ℝ := fun i =>
  if i = 0 then 5 else if i = 4 then 6 / 5 else if i = 6 then 3 else 2

theorem ser_caps : capBetween (twoObjs.withVals serVals) serEls 0 1 = 2 ∧ capBetween (twoObjs.withVals serVals) serEls 0 2 = 2 ∧
    capBetween (twoObjs.withVals serVals) serEls 1 2 = 3 := by
  refine ⟨?_, ?_, ?_⟩ <;>
    simp [capBetween, serEls, placements, placedCap, twoObjs, Objs.withVals, serVals]

theorem ser_valid : ValidElements 2 serEls := by
  intro p hp
  simp [serEls] at hp
  rcases hp with rfl | rfl | rfl <;> simp [ValidEdge]

theorem ser_jun : junctionEdges twoObjs serEls = [(0, 1)] := by
  simp [junctionEdges, serEls, twoObjs]

theorem ser_G (i j : Fin (junctionEdges twoObjs serEls).length) :
    junctionInvCap (twoObjs.withVals serVals) serEls 2 i j = 5 / 16 := by
  have hC : capacitances (twoObjs.withVals serVals) serEls 2 = !![5, -3; -3, 5] := by
    obtain ⟨h1, h2, h3⟩ := ser_caps
    rw [two_nodes ser_valid, h1, h2, h3]
    norm_num
  have hget : ∀ i : Fin (junctionEdges twoObjs serEls).length, (junctionEdges twoObjs serEls).get i = (0, 1) := by
    intro i
    have h1 : ∀ x ∈ junctionEdges twoObjs serEls, x = (0, 1) := by rw [ser_jun]; simp
    exact h1 _ (List.get_mem _ i)
  have hrow : ∀ i, junctionIncidence twoObjs serEls 2 i = ![1, 0] := by
    intro i
    funext k
    change (incidence ((junctionEdges twoObjs serEls).get i) (k + 1) : ℝ) = _
    rw [hget]
    fin_cases k <;> simp [incidence]
  have e1 : junctionInvCap (twoObjs.withVals serVals) serEls 2 i j = junctionIncidence twoObjs serEls 2 i ⬝ᵥ
      ((capacitances (twoObjs.withVals serVals) serEls 2)⁻¹ *ᵥ junctionIncidence twoObjs serEls 2 j) := by
    unfold junctionInvCap
    rw [Matrix.mul_assoc]; rfl
  have hinv : (!![5, -3; -3, 5] : Matrix (Fin 2) (Fin 2) ℝ)⁻¹ = !![5 / 16, 3 / 16; 3 / 16, 5 / 16] := by
    apply inv_eq_right_inv
    ext a b
    fin_cases a <;> fin_cases b <;> norm_num [mul_apply, Fin.sum_univ_two]
  rw [e1, hC, hinv, hrow, hrow]
  simp [mulVec, dotProduct, Fin.sum_univ_two]

theorem ser_cond : WellConditioned 2 (junctionInvCap (twoObjs.withVals serVals) serEls 2) := by
  have hlen : (junctionEdges twoObjs serEls).length = 1 := by rw [ser_jun]; rfl
  have key : ∀ (q : ℕ) (G : Matrix (Fin q) (Fin q) ℝ), q = 1 → (∀ i j, G i j = 5 / 16) → WellConditioned 2 G := by
    rintro q G rfl hG i
    have hGi : G⁻¹ i i = 16 / 5 := by
      have : G⁻¹ = Matrix.of fun _ _ => 16 / 5 := by
        apply inv_eq_right_inv
        ext a b
        rw [mul_apply, Fintype.sum_subsingleton _ a, hG, Subsingleton.elim a b]
        norm_num
      rw [this]; rfl
    rw [hG, hGi]
    have h1 : √(5 / 16 : ℝ) ≤ 1 := by rw [Real.sqrt_le_left (by norm_num)]; norm_num
    have h2 : √((2 : ℕ) : ℝ) ≤ 2 := by
      rw [Real.sqrt_le_left (by norm_num)]; norm_num
    have h3 : √(16 / 5 : ℝ) ≤ 2 := by
      rw [Real.sqrt_le_left (by norm_num)]; norm_num
    have h4 := Real.sqrt_nonneg (5 / 16 : ℝ)
    have h5 := Real.sqrt_nonneg ((2 : ℕ) : ℝ)
    have h6 := Real.sqrt_nonneg (16 / 5 : ℝ)
    have h7 : √((2 : ℕ) : ℝ) * √(16 / 5 : ℝ) ≤ 4 := by
      have := mul_le_mul h2 h3 h6 (by norm_num)
      linarith
    have h8 : 0 ≤ √((2 : ℕ) : ℝ) * √(16 / 5 : ℝ) := by positivity
    nlinarith
  exact key _ _ hlen ser_G

/-- The hypotheses can be met: a junction with 2 F, shunted by 2 F and 3 F in series, or by 6/5 F. -/
theorem C130_example : ∃ (c c' : CircSpec) (eigs : EigsFn) (as : List ℂ → List ℕ) (w0 : World (circPhys c eigs as))
    (w0' : World (circPhys c' eigs as)),
    c.els = oneEdge [0, 4] ∧ c'.els = serEls ∧ FloatingCircuit c 1 ∧ FloatingCircuit c' 2 ∧
    SplitCapacitor c.O 1 c.els c'.els 4 5 6 ∧ serVals 4 = seriesCap (serVals 5) (serVals 6) ∧
    IslandValues c 1 serVals ∧ IslandValues c' 2 serVals ∧
    construct (circPhys c eigs as) serVals (fun _ => 0) 1 = .ok w0 ∧ construct (circPhys c' eigs as) serVals (fun _ => 0) 1 = .ok w0' ∧
    ∃ F v v', (diag (some 3) (run w0 [.setTruncNums (.list [4])])).1 = .ok (F, v) ∧
      (diag (some 3) (run w0' [.setTruncNums (.list [4])])).1 = .ok (F, v') := by
  choose lib hlib using exists_lib
  choose argmax hm using exists_argmax
  obtain ⟨argsort, hsrt⟩ := exists_argsort
  obtain ⟨eigs, he⟩ := exists_eigs_lowest
  obtain ⟨as, ha⟩ := exists_cargsort
  have hcaps : CapsOK twoObjs := by
    intro i
    change (twoObjs.elem (twoObjs.elem i).cap).kind ≠ .jj
    unfold twoObjs
    simp only
    split_ifs <;> simp_all
  have hoj : OnlyJunctions twoObjs [0, 4] := ⟨by
    intro i hi
    simp at hi
    rcases hi with rfl | rfl <;> simp [twoObjs], 0, by simp, rfl⟩
  obtain ⟨hI, hV⟩ := oe_island_circuit (torch := false) (fd := .junctions) (O := twoObjs) (ids := [0, 4])
    (h := fun _ => LoopObj.init 0 0) (lib := lib) (sv := exSv) (argsort := argsort) (argmax := argmax) (draws := fun _ _ => 0)
    (vals := serVals) hoj (by intro i hi; simp at hi; rcases hi with rfl | rfl <;> simp [twoObjs]) ⟨by
      intro i hi
      simp at hi
      rcases hi with rfl | rfl <;> norm_num [placedCap, twoObjs, Objs.withVals, serVals], by
      norm_num [totalCap, placedCap, twoObjs, Objs.withVals, serVals]⟩
  let c : CircSpec := parallelSpec false .junctions twoObjs [0, 4] (fun _ => LoopObj.init 0 0) lib exSv argsort argmax (fun _ _ => 0)
  have hF : FloatingCircuit c 1 := hI.floating rfl
  have hr : RoutinesOK c := ⟨hlib, exSv_spec, hsrt, hm, le_refl 3⟩
  have hF' : ∀ draws, FloatingCircuit { c with els := serEls, draws := draws } 2 := by
    intro draws
    refine ⟨rfl, rfl, ser_valid, ?_, ?_, ?_, ?_, ?_⟩
    · intro k hk
      have j1 : Joined serEls 1 0 := ⟨((0, 1), [0]), by simp [serEls], by simp, by simp⟩
      have j2 : Joined serEls 2 0 := ⟨((0, 2), [5]), by simp [serEls], by simp, by simp⟩
      interval_cases k
      · exact .refl
      · exact .single j1
      · exact .single j2
    · intro q hq
      change q ∈ placements serEls at hq
      simp [placements, serEls] at hq
      change (twoObjs.elem q.2).kind ≠ .ind
      rcases hq with rfl | rfl | rfl <;> simp [twoObjs]
    · intro q hq
      change q ∈ placements serEls at hq
      simp [placements, serEls] at hq
      change (twoObjs.elem q.2).loops = []
      rcases hq with rfl | rfl | rfl <;> simp [twoObjs]
    · change junctionEdges twoObjs serEls ≠ []
      rw [ser_jun]; simp
    · change LinearIndependent ℝ (junctionIncidence twoObjs serEls 2).row
      have hlen : (junctionEdges twoObjs serEls).length = 1 := by rw [ser_jun]; rfl
      have : Subsingleton (Fin (junctionEdges twoObjs serEls).length) := by rw [hlen]; infer_instance
      rw [linearIndependent_subsingleton_index_iff]
      intro i h0
      have h1 := congrFun h0 0
      change (incidence ((junctionEdges twoObjs serEls).get i) 1 : ℝ) = 0 at h1
      have h2 : ∀ x ∈ junctionEdges twoObjs serEls, x = (0, 1) := by rw [ser_jun]; simp
      rw [h2 _ (List.get_mem _ i)] at h1
      simp [incidence] at h1
  have hr' : ∀ draws, RoutinesOK { c with els := serEls, draws := draws } := fun draws => ⟨hlib, exSv_spec, hsrt, hm, le_refl 3⟩
  have hV' : ∀ draws, IslandValues { c with els := serEls, draws := draws } 2 serVals := by
    intro draws
    refine ⟨?_, ser_cond⟩
    intro q hq
    change q ∈ placements serEls at hq
    simp [placements, serEls] at hq
    change 0 < placedCap (twoObjs.withVals serVals) q.2
    rcases hq with rfl | rfl | rfl <;> norm_num [placedCap, twoObjs, Objs.withVals, serVals]
  obtain ⟨draws, b, hb⟩ := C130_constructed _ 2 (hF' fun _ _ => 0) (hr' _) serVals (hV' _) (by norm_num)
  have hb' : buildCirc { c with els := serEls, draws := draws } serVals = .ok b := hb
  obtain ⟨w0, hw, -⟩ := C93_session c 1 hI hr hcaps eigs as serVals hV (fun _ => 0) 1
  obtain ⟨w0', hw'⟩ : ∃ w0', construct (circPhys { c with els := serEls, draws := draws } eigs as) serVals (fun _ => 0) 1 = .ok w0' := by
    have h2 : (circPhys { c with els := serEls, draws := draws } eigs as).build serVals = .ok b := hb'
    unfold construct
    rw [h2]
    exact ⟨_, rfl⟩
  have hs : SplitCapacitor twoObjs 1 (oneEdge [0, 4]) serEls 4 5 6 :=
    ⟨rfl, rfl, rfl, 0, 1, [((0, 1), 0)], by decide, by decide⟩
  have h0 : serVals 4 = seriesCap (serVals 5) (serVals 6) := by norm_num [serVals, seriesCap]
  refine ⟨c, { c with els := serEls, draws := draws }, eigs, as, w0, w0', rfl, rfl, hF, hF' _, hs, h0, hV, hV' _, hw, hw', ?_⟩
  exact C130_series_constructed he ha he ha hF (hF' _) hr (hr' _) rfl hcaps 4 5 6 hs 1 hI.square (by
    change (junctionEdges twoObjs serEls).length = 1
    rw [ser_jun]; rfl) serVals hV (hV' _) h0 _ _ 1 w0 hw w0' hw' 4 (by norm_num) 3 (by norm_num) (by decide)

end SQ
