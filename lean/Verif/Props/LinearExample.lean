import Verif.Props.Linear
import Verif.Props.LevelsExample

/-!
# Concrete cases for C100 and C101
-/

namespace SQ
open Matrix Spec

/-- elements 0 and 2 are inductors, all others capacitors; all have value 1 -/
def pairObjs : Objs where
  elem := fun i => if i = 0 ∨ i = 2 then ⟨.ind, 1, 1, [], false, true⟩ else ⟨.cap, 1, 1, [], false, true⟩
  loopValue := fun _ => 0
  loopReqGrad := fun _ => false
  loopIsLeaf := fun _ => true

/-- a circuit of these elements -/
noncomputable def pairSpec (els : Elements) (lib : ∀ n, NumLib n) (argsort : ArgsortFn) (argmax : ∀ k, ArgmaxFn k) :
    CircSpec where
  torch := false
  fd := .junctions
  O := pairObjs
  els := els
  h := fun _ => LoopObj.init 0 0
  lib := lib
  sv := exSv
  argsort := argsort
  argmax := argmax
  draws := fun _ _ => 0
  fuel := 3

theorem pair_kind (i : ElemId) : (pairObjs.elem i).kind = .ind ∨ (pairObjs.elem i).kind = .cap := by
  unfold pairObjs
  by_cases h : i = 0 ∨ i = 2
  · left; simp [h]
  · right; simp [h]

theorem pair_caps : CapsOK pairObjs := by
  intro i
  rcases pair_kind (pairObjs.elem i).cap with h | h <;> rw [h] <;> simp

theorem pair_linear (els : Elements) : Linear pairObjs els := by
  intro q _
  rcases pair_kind q.2 with h | h <;> rw [h] <;> simp

theorem pair_placedCap (i : ElemId) : placedCap (pairObjs.withVals fun _ => 1) i = 1 := by
  unfold placedCap
  split <;> rfl

theorem pair_good {els : Elements} {lib : ∀ n, NumLib n} {argsort : ArgsortFn} {argmax : ∀ k, ArgmaxFn k}
    (hlib : ∀ n, ∀ C L : Matrix (Fin n) (Fin n) ℝ, C.PosDef → L.PosSemidef → LibSpec (lib n) C L)
    (hm : ∀ k, ArgmaxSpec (argmax k)) {n : ℕ} (hn : numNodes els = .ok n) (hv : ValidElements n els)
    (hg : GroundConnected n els) (hL : nodeInvInd n (pairObjs.withVals fun _ => 1) els = 1) :
    GoodCircuit (pairSpec els lib argsort argmax) (fun _ => 1) where
  noSelf := fun p hp => (hv p hp).1
  caps := by
    intro q _
    show 0 < placedCap (pairObjs.withVals fun _ => 1) q.2
    rw [pair_placedCap]
    exact one_pos
  inds := fun q _ _ => one_pos
  ground := by
    intro n' hn'
    obtain rfl : n' = n := Except.ok.inj (hn'.symm.trans hn)
    exact hg
  argmax := hm
  lib := by
    intro n' a hn' htr
    obtain rfl : n' = n := Except.ok.inj (hn'.symm.trans hn)
    obtain ⟨-, h2⟩ := traverse_mats hv htr
    have hl : a.lMat = 1 := h2.trans hL
    have hc : a.cMat.PosDef := (C16_cap_posdef _ _ _ _ _ _ hv (by
      intro q _
      show 0 < placedCap (pairObjs.withVals fun _ => 1) q.2
      rw [pair_placedCap]
      exact one_pos) hg a htr).1
    have hlb := hlib n' a.cMat a.lMat hc (by rw [hl]; exact PosSemidef.one)
    refine ⟨hlb, ?_⟩
    rw [hl, ← diagonal_one] at hlb ⊢
    exact gap_diagonal one_pos (fun _ => .inr rfl) hlb

theorem linear_omega {c : CircSpec} {vals : ElemId → ℝ} (hc : GoodCircuit c vals) (hlin : Linear c.O c.els) {n : ℕ}
    (hn : numNodes c.els = .ok n) (hv : ValidElements n c.els) (hg : InductivelyGrounded n c.O c.els) {b : Build}
    (hb : buildCirc c vals = .ok b) : ∀ i, b.M.omega i ≠ 0 := by
  obtain rfl : n = b.n := Except.ok.inj (hn.symm.trans (linear_keep hc.noSelf hlin hb).1)
  obtain ⟨-, -, -, -, -, -, v, hli, hv'⟩ := linear_modes hc hlin hb
  have hLu := invInd_isUnit hv hc.inds (O := c.O.withVals vals) hg
  intro i h0
  have h2 := hv' i
  rw [h0] at h2
  simp only [ne_eq, OfNat.ofNat_ne_zero, not_false_eq_true, zero_pow, zero_smul] at h2
  exact hli.ne_zero i (eq_zero_of_mulVec_eq_zero (isUnit_iff_ne_zero.1 hLu) h2)

/-- a session of such a circuit after `set_trunc_nums` -/
theorem pair_session {els : Elements} {lib : ∀ n, NumLib n} {argsort : ArgsortFn} {argmax : ∀ k, ArgmaxFn k}
    (hlib : ∀ n, ∀ C L : Matrix (Fin n) (Fin n) ℝ, C.PosDef → L.PosSemidef → LibSpec (lib n) C L)
    (hm : ∀ k, ArgmaxSpec (argmax k)) {n : ℕ} (hn : numNodes els = .ok n) (hv : ValidElements n els)
    (hg : GroundConnected n els) (hL : nodeInvInd n (pairObjs.withVals fun _ => 1) els = 1)
    (hi : InductivelyGrounded n pairObjs els) (eigs : EigsFn) (as : List ℂ → List ℕ) (nums : List ℤ)
    (hlen : nums.length = n) (hp : ∀ x ∈ nums, 1 ≤ x) :
    ∃ w0 : World (circPhys (pairSpec els lib argsort argmax) eigs as),
      construct (circPhys (pairSpec els lib argsort argmax) eigs as) (fun _ => 1) (fun _ => 0) 1 = .ok w0 ∧
      Orderly w0 [.setTruncNums (.list nums)] ∧
      (∀ i, (run w0 [.setTruncNums (.list nums)]).vals i = lastBuilt (fun _ => 1) w0 [.setTruncNums (.list nums)] i) ∧
      (run w0 [.setTruncNums (.list nums)]).vals = (fun _ => 1) ∧
      (∀ l, (run w0 [.setTruncNums (.list nums)]).flux l = 0) ∧
      (run w0 [.setTruncNums (.list nums)]).circ.m = nums ∧ (run w0 [.setTruncNums (.list nums)]).unitFreq = 1 := by
  have hgood := pair_good (argsort := argsort) hlib hm hn hv hg hL
  have hlin : Linear (pairSpec els lib argsort argmax).O (pairSpec els lib argsort argmax).els := pair_linear els
  obtain ⟨b, hb⟩ := linear_exists hgood hlin hn hv (by
    intro q _
    show (pairObjs.elem q.2).loops = []
    unfold pairObjs
    simp only
    split <;> rfl)
  have hk := linear_keep hgood.noSelf hlin hb
  have hom := linear_omega hgood hlin hn hv hi hb
  have hbn : b.k = n := hk.2.trans (Except.ok.inj (hk.1.symm.trans hn))
  obtain ⟨w0, hw⟩ : ∃ w0, construct (circPhys (pairSpec els lib argsort argmax) eigs as) (fun _ => 1) (fun _ => 0) 1 = .ok w0 := by
    unfold construct
    have : (circPhys (pairSpec els lib argsort argmax) eigs as).build (fun _ => 1) = .ok b := hb
    rw [this]
    exact ⟨_, rfl⟩
  have hbb : w0.circ.bd = b := by
    have h0 : buildCirc _ _ = .ok w0.circ.bd := (construct_build hw).1
    rw [hb] at h0
    exact (Except.ok.inj h0).symm
  have hst : w0.vals = (fun _ => 1) ∧ w0.flux = (fun _ => 0) ∧ w0.unitFreq = 1 := by
    have hw' := hw
    unfold construct at hw'
    split at hw'
    · cases hw'
    · injection hw' with hw'
      rw [← hw']
      exact ⟨rfl, rfl, rfl⟩
  have ht := C42_constructed hw nums (by rw [hbb, hlen]; exact hbn.symm) hp
  obtain ⟨t1, t2, t3⟩ := truncOne ht.1
  have hvals : (run w0 [.setTruncNums (.list nums)]).vals = w0.vals := by
    funext i
    exact (C81_value w0 i).2 _ (by simp)
  refine ⟨w0, hw, ⟨fun _ => .inl ht.1, trivial⟩, ?_, hvals.trans hst.1, ?_, ?_, ?_⟩
  · intro i
    rw [hvals, hst.1]
    rfl
  · intro l
    have : (run w0 [.setTruncNums (.list nums)]).flux = w0.flux := t2
    rw [this, hst.2.1]
  · refine t3.trans ?_
    unfold dimsOf
    have hnm : (circPhys (pairSpec els lib argsort argmax) eigs as).nModes w0.circ.bd = n := by rw [hbb]; exact hbn
    rw [hnm]
    refine List.ext_getElem (by simp [hlen]) ?_
    intro i h1 h2
    have hi' : i < b.M.keep.length := by
      show i < b.k
      rw [hbn, ← hlen]; exact h2
    have hnc : (circPhys (pairSpec els lib argsort argmax) eigs as).isCharge w0.circ.bd i = false := by
      rw [hbb]
      show Build.isCharge b i = false
      unfold Build.isCharge
      rw [dif_pos hi']
      simp [hom]
    simp [hnc, h2]
  · have : (run w0 [.setTruncNums (.list nums)]).unitFreq = w0.unitFreq := by
      show (setTruncNums (.list nums) w0).2.unitFreq = _
      unfold setTruncNums
      simp only
      split
      · rfl
      · split <;> rfl
    rw [this, hst.2.2]

/-- capacitor 1 and inductor 0 in parallel -/
def resEls : Elements := [((0, 1), [0, 1])]

/-- an LC resonator with L = 1 and C = 1 + 1 (the capacitor and that of the inductor): the first three frequencies are
0, f, 2f with f = 1/(2π√2). -/
theorem C100_example : ∃ (c : CircSpec) (eigs : EigsFn) (as : List ℂ → List ℕ) (w0 : World (circPhys c eigs as)),
    EigsLowest eigs ∧ CArgsortSpec as ∧ CapsOK c.O ∧ Linear c.O c.els ∧ c.els = [((0, 1), [0, 1])] ∧
    construct (circPhys c eigs as) (fun _ => 1) (fun _ => 0) 1 = .ok w0 ∧
    ∃ v, (diag (some 3) (run w0 [.setTruncNums (.list [6])])).1 =
      .ok ([0, 1 / (2 * Real.pi * √2), 2 * (1 / (2 * Real.pi * √2))], v) := by
  choose lib hlib using exists_lib
  choose argmax hm using exists_argmax
  obtain ⟨argsort, hsrt⟩ := exists_argsort
  obtain ⟨eigs, he⟩ := exists_eigs_lowest
  obtain ⟨as, ha⟩ := exists_cargsort
  have hn : numNodes resEls = .ok 1 := rfl
  have hv : ValidElements 1 resEls := by
    intro p hp
    simp [resEls] at hp
    subst hp
    simp [ValidEdge]
  have hg : GroundConnected 1 resEls := by
    intro k hk
    interval_cases k
    · exact .refl
    · exact .single ⟨((0, 1), [0, 1]), by simp [resEls], by simp, by simp⟩
  have hL : nodeInvInd 1 (pairObjs.withVals fun _ => 1) resEls = 1 := by
    ext i j
    fin_cases i; fin_cases j
    simp [nodeInvInd, placements, resEls, placedInvInd, Objs.withVals, pairObjs, edgeMat, incidence]
  have hi : InductivelyGrounded 1 pairObjs resEls := by
    intro k hk
    interval_cases k
    · exact .refl
    · exact .single ⟨((0, 1), 0), by simp [placements, resEls], by simp [pairObjs], by simp⟩
  have hgood := pair_good (argsort := argsort) hlib hm hn hv hg hL
  obtain ⟨w0, hw, ho, hlast, hvals, hfl, hmm, hu⟩ := pair_session (argsort := argsort) hlib hm hn hv hg hL hi eigs as [6] rfl
    (by simp)
  refine ⟨_, eigs, as, w0, he, ha, pair_caps, pair_linear _, rfl, hw, ?_⟩
  have key := C100_resonator (c := pairSpec resEls lib argsort argmax) he ha pair_caps (pair_linear _) (by
    intro p hp
    simp [pairSpec, resEls] at hp
    rw [hp]) ⟨((0, 1), 0), by simp [pairSpec, placements, resEls], by simp [pairSpec, pairObjs]⟩ _ _ _ w0 hw _ ho hlast
    (by rw [hvals]; exact hgood) hfl (by rw [hmm]; simp) 3 (by norm_num) (by rw [hmm]; decide)
  obtain ⟨v, hd⟩ := key
  refine ⟨v, hd.trans ?_⟩
  rw [hvals, hu]
  have e1 : ((placements (pairSpec resEls lib argsort argmax).els).map fun q =>
      placedInvInd ((pairSpec resEls lib argsort argmax).O.withVals fun _ => 1) q.2).sum = 1 := by
    simp [pairSpec, placements, resEls, placedInvInd, Objs.withVals, pairObjs]
  have e2 : ((placements (pairSpec resEls lib argsort argmax).els).map fun q =>
      placedCap ((pairSpec resEls lib argsort argmax).O.withVals fun _ => 1) q.2).sum = 2 := by
    simp [pairSpec, placements, resEls, placedCap, Objs.withVals, pairObjs]
    norm_num
  rw [e1, e2]
  norm_num [List.range_succ]

/-- two LC resonators coupled by capacitor 4 -/
def coupEls : Elements := [((0, 1), [0]), ((0, 2), [2]), ((1, 2), [4])]

/-- the same with nodes 1 and 2 exchanged, one edge written backwards and another order -/
def coupEls' : Elements := [((2, 0), [0]), ((1, 2), [4]), ((0, 1), [2])]

/-- two coupled LC resonators and the same circuit with its nodes exchanged meet the hypotheses of C101 -/
theorem C101_example : ∃ (c c' : CircSpec) (eigs : EigsFn) (as : List ℂ → List ℕ) (w0 : World (circPhys c eigs as))
    (w0' : World (circPhys c' eigs as)) (σ : Equiv.Perm (Fin 2)),
    EigsLowest eigs ∧ CArgsortSpec as ∧ c'.O = c.O ∧ c.els = [((0, 1), [0]), ((0, 2), [2]), ((1, 2), [4])] ∧
    c'.els = [((2, 0), [0]), ((1, 2), [4]), ((0, 1), [2])] ∧ Renumbered σ c.els c'.els ∧
    InductivelyGrounded 2 c.O c.els ∧
    construct (circPhys c eigs as) (fun _ => 1) (fun _ => 0) 1 = .ok w0 ∧
    construct (circPhys c' eigs as) (fun _ => 1) (fun _ => 0) 1 = .ok w0' ∧
    ∃ F v v', (diag (some 4) (run w0 [.setTruncNums (.list [3, 4])])).1 = .ok (F, v) ∧
      (diag (some 4) (run w0' [.setTruncNums (.list [3, 4])])).1 = .ok (F, v') := by
  choose lib hlib using exists_lib
  choose argmax hm using exists_argmax
  obtain ⟨argsort, hsrt⟩ := exists_argsort
  obtain ⟨eigs, he⟩ := exists_eigs_lowest
  obtain ⟨as, ha⟩ := exists_cargsort
  have hn : numNodes coupEls = .ok 2 := rfl
  have hn' : numNodes coupEls' = .ok 2 := rfl
  have hv : ValidElements 2 coupEls := by
    intro p hp
    simp [coupEls] at hp
    rcases hp with rfl | rfl | rfl <;> simp [ValidEdge]
  have hv' : ValidElements 2 coupEls' := by
    intro p hp
    simp [coupEls'] at hp
    rcases hp with rfl | rfl | rfl <;> simp [ValidEdge]
  have hg : GroundConnected 2 coupEls := by
    intro k hk
    interval_cases k
    · exact .refl
    · exact .single ⟨((0, 1), [0]), by simp [coupEls], by simp, by simp⟩
    · exact .single ⟨((0, 2), [2]), by simp [coupEls], by simp, by simp⟩
  have hg' : GroundConnected 2 coupEls' := by
    intro k hk
    interval_cases k
    · exact .refl
    · exact .single ⟨((0, 1), [2]), by simp [coupEls'], by simp, by simp⟩
    · exact .single ⟨((2, 0), [0]), by simp [coupEls'], by simp, by simp⟩
  have hL : nodeInvInd 2 (pairObjs.withVals fun _ => 1) coupEls = 1 := by
    ext i j
    fin_cases i <;> fin_cases j <;>
      simp [nodeInvInd, placements, coupEls, placedInvInd, Objs.withVals, pairObjs, edgeMat, incidence]
  have hL' : nodeInvInd 2 (pairObjs.withVals fun _ => 1) coupEls' = 1 := by
    ext i j
    fin_cases i <;> fin_cases j <;>
      simp [nodeInvInd, placements, coupEls', placedInvInd, Objs.withVals, pairObjs, edgeMat, incidence]
  have hi : InductivelyGrounded 2 pairObjs coupEls := by
    intro k hk
    interval_cases k
    · exact .refl
    · exact .single ⟨((0, 1), 0), by simp [placements, coupEls], by simp [pairObjs], by simp⟩
    · exact .single ⟨((0, 2), 2), by simp [placements, coupEls], by simp [pairObjs], by simp⟩
  have hi' : InductivelyGrounded 2 pairObjs coupEls' := by
    intro k hk
    interval_cases k
    · exact .refl
    · exact .single ⟨((0, 1), 2), by simp [placements, coupEls'], by simp [pairObjs], by simp⟩
    · exact .single ⟨((2, 0), 0), by simp [placements, coupEls'], by simp [pairObjs], by simp⟩
  have hren : Renumbered (Equiv.swap 0 1 : Equiv.Perm (Fin 2)) coupEls coupEls' := by
    refine ⟨[((2, 0), 0), ((0, 1), 2), ((1, 2), 4)], ?_, ?_⟩
    · decide
    · simp only [placements, coupEls, List.flatMap_cons, List.flatMap_nil, List.map_cons, List.map_nil, List.append_nil,
        List.cons_append, List.nil_append]
      refine .cons ⟨rfl, .inr ?_⟩ (.cons ⟨rfl, .inl ?_⟩ (.cons ⟨rfl, .inr ?_⟩ .nil)) <;> decide
  have hgood := pair_good (argsort := argsort) hlib hm hn hv hg hL
  have hgood' := pair_good (argsort := argsort) hlib hm hn' hv' hg' hL'
  obtain ⟨w0, hw, ho, hlast, hvals, hfl, hmm, hu⟩ := pair_session (argsort := argsort) hlib hm hn hv hg hL hi eigs as [3, 4]
    rfl (by simp)
  obtain ⟨w0', hw', ho', hlast', hvals', hfl', hmm', hu'⟩ := pair_session (argsort := argsort) hlib hm hn' hv' hg' hL' hi'
    eigs as [3, 4] rfl (by simp)
  refine ⟨pairSpec coupEls lib argsort argmax, pairSpec coupEls' lib argsort argmax, eigs, as, w0, w0', Equiv.swap 0 1, he, ha,
    rfl, rfl, rfl, hren, hi, hw, hw', ?_⟩
  exact C101_renumbering (c := pairSpec coupEls lib argsort argmax) (c' := pairSpec coupEls' lib argsort argmax) he ha he ha rfl
    pair_caps (pair_linear _) hn hn' hv _ hren hi _ _ _ _ _ _ w0 hw w0' hw' _ _ ho ho' hlast hlast'
    (by rw [hvals]; exact hgood) (by rw [hvals']; exact hgood') hfl hfl' (by rw [hmm]; simp)
    (by rw [hvals, hvals']) (by rw [hmm, hmm']) (by rw [hu, hu']) 4 (by norm_num) (by
      rw [hmm]; simp [Fin.prod_univ_two])

end SQ
