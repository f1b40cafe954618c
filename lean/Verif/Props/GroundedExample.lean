import Verif.Props.Grounded
import Verif.Props.LinearExample

/-!
# Concrete cases for C132 and the case of C111 of circuits held by inductors
-/

namespace SQ
open Matrix Spec Real

/-- elements 0 and 2 are inductors, 4 and 6 junctions, all others capacitors; all have value 1 -/
def heldObjs : Objs where
  elem := fun i => if i = 0 ∨ i = 2 then ⟨.ind, 1, 1, [], false, true⟩ else
    if i = 4 ∨ i = 6 then ⟨.jj, 1, 1, [], false, true⟩ else ⟨.cap, 1, 1, [], false, true⟩
  loopValue := fun _ => 0
  loopReqGrad := fun _ => false
  loopIsLeaf := fun _ => true

/-- two junctions shunted by inductors, coupled by a capacitor -/
def heldEls : Elements := [((0, 1), [0, 4]), ((0, 2), [2, 6]), ((1, 2), [8])]

/-- the same with nodes 1 and 2 exchanged, edges written backwards and in another order -/
def heldEls' : Elements := [((2, 0), [4, 0]), ((1, 2), [8]), ((0, 1), [2, 6])]

/-- a circuit of these elements -/
noncomputable def heldSpec (els : Elements) (lib : ∀ n, NumLib n) (argsort : ArgsortFn) (argmax : ∀ k, ArgmaxFn k) :
    CircSpec where
  torch := false
  fd := .junctions
  O := heldObjs
  els := els
  h := fun _ => LoopObj.init 0 0
  lib := lib
  sv := exSv
  argsort := argsort
  argmax := argmax
  draws := fun _ _ => 0
  fuel := 3

theorem held_caps : CapsOK heldObjs := by
  intro i
  have h1 : (heldObjs.elem i).cap = 1 := by
    unfold heldObjs
    simp only
    split_ifs <;> rfl
  rw [h1]
  simp [heldObjs]

theorem held_placedCap (i : ElemId) : placedCap (heldObjs.withVals fun _ => 1) i = 1 := by
  unfold placedCap
  split <;> rfl

theorem held_good {els : Elements} {lib : ∀ n, NumLib n} {argsort : ArgsortFn} {argmax : ∀ k, ArgmaxFn k}
    (hlib : ∀ n, ∀ C L : Matrix (Fin n) (Fin n) ℝ, C.PosDef → L.PosSemidef → LibSpec (lib n) C L)
    (hm : ∀ k, ArgmaxSpec (argmax k)) {n : ℕ} (hn : numNodes els = .ok n) (hv : ValidElements n els)
    (hg : GroundConnected n els) (hL : nodeInvInd n (heldObjs.withVals fun _ => 1) els = 1) :
    GoodCircuit (heldSpec els lib argsort argmax) (fun _ => 1) where
  noSelf := fun p hp => (hv p hp).1
  caps := by
    intro q _
    show 0 < placedCap (heldObjs.withVals fun _ => 1) q.2
    rw [held_placedCap]
    exact one_pos
  inds := fun q _ _ => one_pos
  ground := by
    intro n' hn'
    obtain rfl : n' = n := Except.ok.inj (hn'.symm.trans hn)
    exact hg
  argmax := hm
  lib := by
    intro n' a hn' htr
    obtain rfl : n' = n := Except.ok.inj (hn'.symm.trans hn)
    obtain ⟨-, h2⟩ := traverse_mats hv htr
    have hl : a.lMat = 1 := h2.trans hL
    have hc : a.cMat.PosDef := (C16_cap_posdef _ _ _ _ _ _ hv (by
      intro q _
      show 0 < placedCap (heldObjs.withVals fun _ => 1) q.2
      rw [held_placedCap]
      exact one_pos) hg a htr).1
    have hlb := hlib n' a.cMat a.lMat hc (by rw [hl]; exact PosSemidef.one)
    refine ⟨hlb, ?_⟩
    rw [hl, ← diagonal_one] at hlb ⊢
    exact gap_diagonal one_pos (fun _ => .inr rfl) hlb

/-- a circuit held by inductors can be constructed if the distribution of the fluxes succeeds -/
theorem held_exists_flux {c : CircSpec} {n : ℕ} {vals : ElemId → ℝ} {ω : Fin n → ℝ} {v : Fin n → Fin n → ℝ}
    (hh : HeldCircuit c n vals ω v) (hv : ValidElements n c.els) (hf3 : 3 ≤ c.fuel)
    (hB : ∀ a, traverse c.torch c.fd (c.O.withVals vals) n c.h c.els = .ok a →
      ∃ B, fluxMatrix c.sv n a.st.kMat a.st.cEdge (a.st.loops.map a.st.loopHeap) = .ok B) :
    ∃ b, buildCirc c vals = .ok b ∧ b.k = n ∧ ∀ i, b.M.omega i ≠ 0 := by
  have hc := hh.good
  have hn := hh.nodes
  have h0 : ∀ p ∈ c.els, ∀ i ∈ p.2, ((c.O.withVals vals).elem i).kind = .ind → ((c.O.withVals vals).elem i).value ≠ 0 := by
    intro p hp i hi hk
    exact (hc.inds (p.1, i) (by
      unfold placements; simp only [List.mem_flatMap, List.mem_map]; exact ⟨p, hp, i, hi, rfl⟩) hk).ne'
  obtain ⟨a, htr, -⟩ := C14_energy_forms c.torch c.fd (c.O.withVals vals) n c.h c.els hv h0
  obtain ⟨B0, hf⟩ := hB a htr
  have hm := hh.modes
  have m1 : a.cMat = nodeCap n (c.O.withVals vals) c.els := (traverse_mats hv htr).1
  have m2 : a.lMat = nodeInvInd n (c.O.withVals vals) c.els := (traverse_mats hv htr).2
  rw [← m1, ← m2] at hm
  have hom := gm_omega hc hn htr hm
  obtain ⟨b, hb⟩ := buildCirc_ok hc hn htr hf (.inr (.inl fun j => by rw [hom]; exact (hm.positive j).ne')) hf3
  obtain ⟨k1, k2⟩ := gm_keep hh hb
  refine ⟨b, hb, k2.trans k1, ?_⟩
  obtain ⟨n', a', B, t, hn', htr', -, ht, rfl⟩ := buildCirc_stages hb
  obtain rfl : n' = n := Except.ok.inj (hn'.symm.trans hn)
  obtain rfl : a' = a := Except.ok.inj (htr'.symm.trans htr)
  have hto := (gm_trans hc hn htr ht hm).1
  intro i
  change (finishModes c.torch t).omega i ≠ 0
  obtain ⟨keep, hk, -⟩ := finishModes_eq c.torch t
  have hall : ∀ i, (finishModes c.torch t).omega i ≠ 0 := by
    rw [hk]
    intro i
    show t.omega _ ≠ 0
    rw [hto]
    exact (hm.positive _).ne'
  exact hall i

/-- a circuit held by inductors, without loops, can be constructed -/
theorem held_exists {c : CircSpec} {n : ℕ} {vals : ElemId → ℝ} {ω : Fin n → ℝ} {v : Fin n → Fin n → ℝ}
    (hh : HeldCircuit c n vals ω v) (hv : ValidElements n c.els) (hf3 : 3 ≤ c.fuel)
    (hl : ∀ q ∈ placements c.els, (c.O.elem q.2).loops = []) :
    ∃ b, buildCirc c vals = .ok b ∧ b.k = n ∧ ∀ i, b.M.omega i ≠ 0 := by
  refine held_exists_flux hh hv hf3 fun a htr => ⟨none, ?_⟩
  have hlu : loopUses (c.O.withVals vals) c.els = [] := by
    unfold loopUses
    rw [List.flatMap_eq_nil_iff]
    intro q hq
    have hq2 : q.1 ∈ inductivePlacements (c.O.withVals vals) c.els := by
      have := List.mem_map_of_mem (f := Prod.fst) hq
      simpa [numbered] using this
    have : ((c.O.withVals vals).elem q.1.2).loops = [] := hl q.1 (List.mem_of_mem_filter hq2)
    rw [this]
    rfl
  have hl0 : a.st.loops = [] := by
    obtain ⟨l1, -⟩ := C19_loop_membership c.torch c.fd (c.O.withVals vals) n c.h _ hv a htr
    rw [l1, hlu]
    rfl
  rw [hl0]
  unfold fluxMatrix
  simp [loopRows]

/-- a session of such a circuit after `set_trunc_nums` -/
theorem held_session_flux {c : CircSpec} {n : ℕ} {vals : ElemId → ℝ}
    (hbuild : ∃ b, buildCirc c vals = .ok b ∧ b.k = n ∧ ∀ i, b.M.omega i ≠ 0) (f : LoopId → ℝ)
    (eigs : EigsFn) (as : List ℂ → List ℕ) (nums : List ℤ) (hlen : nums.length = n) (hp : ∀ x ∈ nums, 1 ≤ x) :
    ∃ w0 : World (circPhys c eigs as),
      construct (circPhys c eigs as) vals f 1 = .ok w0 ∧
      Orderly w0 [.setTruncNums (.list nums)] ∧
      (∀ i, (run w0 [.setTruncNums (.list nums)]).vals i = lastBuilt vals w0 [.setTruncNums (.list nums)] i) ∧
      (run w0 [.setTruncNums (.list nums)]).vals = vals ∧
      (∀ l, (run w0 [.setTruncNums (.list nums)]).flux l = f l) ∧
      (run w0 [.setTruncNums (.list nums)]).circ.m = nums ∧ (run w0 [.setTruncNums (.list nums)]).unitFreq = 1 := by
  obtain ⟨b, hb, hbn, hom⟩ := hbuild
  obtain ⟨w0, hw⟩ : ∃ w0, construct (circPhys c eigs as) vals f 1 = .ok w0 := by
    unfold construct
    have : (circPhys c eigs as).build vals = .ok b := hb
    rw [this]
    exact ⟨_, rfl⟩
  have hbb : w0.circ.bd = b := by
    have h0 : buildCirc _ _ = .ok w0.circ.bd := (construct_build hw).1
    rw [hb] at h0
    exact (Except.ok.inj h0).symm
  have hst : w0.vals = vals ∧ w0.flux = f ∧ w0.unitFreq = 1 := by
    have hw' := hw
    unfold construct at hw'
    split at hw'
    · cases hw'
    · injection hw' with hw'
      rw [← hw']
      exact ⟨rfl, rfl, rfl⟩
  have ht := C42_constructed hw nums (by rw [hbb, hlen]; exact hbn.symm) hp
  obtain ⟨t1, t2, t3⟩ := truncOne ht.1
  have hvals : (run w0 [.setTruncNums (.list nums)]).vals = w0.vals := by
    funext i
    exact (C81_value w0 i).2 _ (by simp)
  refine ⟨w0, hw, ⟨fun _ => .inl ht.1, trivial⟩, ?_, hvals.trans hst.1, ?_, ?_, ?_⟩
  · intro i
    rw [hvals, hst.1]
    rfl
  · intro l
    have : (run w0 [.setTruncNums (.list nums)]).flux = w0.flux := t2
    rw [this, hst.2.1]
  · refine t3.trans ?_
    unfold dimsOf
    have hnm : (circPhys c eigs as).nModes w0.circ.bd = n := by rw [hbb]; exact hbn
    rw [hnm]
    refine List.ext_getElem (by simp [hlen]) ?_
    intro i h1 h2
    have hi' : i < b.M.keep.length := by
      show i < b.k
      rw [hbn, ← hlen]; exact h2
    have hnc : (circPhys c eigs as).isCharge w0.circ.bd i = false := by
      rw [hbb]
      show Build.isCharge b i = false
      unfold Build.isCharge
      rw [dif_pos hi']
      simp [hom]
    simp [hnc, h2]
  · have : (run w0 [.setTruncNums (.list nums)]).unitFreq = w0.unitFreq := by
      show (setTruncNums (.list nums) w0).2.unitFreq = _
      unfold setTruncNums
      simp only
      split
      · rfl
      · split <;> rfl
    rw [this, hst.2.2]

/-- the same without loops, at zero flux -/
theorem held_session {c : CircSpec} {n : ℕ} {vals : ElemId → ℝ} {ω : Fin n → ℝ} {v : Fin n → Fin n → ℝ}
    (hh : HeldCircuit c n vals ω v) (hv : ValidElements n c.els) (hf3 : 3 ≤ c.fuel)
    (hl : ∀ q ∈ placements c.els, (c.O.elem q.2).loops = []) (eigs : EigsFn) (as : List ℂ → List ℕ) (nums : List ℤ)
    (hlen : nums.length = n) (hp : ∀ x ∈ nums, 1 ≤ x) :
    ∃ w0 : World (circPhys c eigs as),
      construct (circPhys c eigs as) vals (fun _ => 0) 1 = .ok w0 ∧
      Orderly w0 [.setTruncNums (.list nums)] ∧
      (∀ i, (run w0 [.setTruncNums (.list nums)]).vals i = lastBuilt vals w0 [.setTruncNums (.list nums)] i) ∧
      (run w0 [.setTruncNums (.list nums)]).vals = vals ∧
      (∀ l, (run w0 [.setTruncNums (.list nums)]).flux l = 0) ∧
      (run w0 [.setTruncNums (.list nums)]).circ.m = nums ∧ (run w0 [.setTruncNums (.list nums)]).unitFreq = 1 :=
  held_session_flux (held_exists hh hv hf3 hl) _ eigs as nums hlen hp

/-- frequencies of the two coupled fluxonia: 1/√2 of the motion in phase, 1/2 of the motion in opposite phase -/
noncomputable def heldFreq : Fin 2 → ℝ := ![√(1 / 2), 1 / 2]

/-- their patterns -/
noncomputable def heldPattern : Fin 2 → Fin 2 → ℝ := ![![1 / 2, 1 / 2], ![√(1 / 8), -√(1 / 8)]]

theorem held_modes {els : Elements} (hC : nodeCap 2 (heldObjs.withVals fun _ => 1) els = !![3, -1; -1, 3])
    (hL : nodeInvInd 2 (heldObjs.withVals fun _ => 1) els = 1) :
    ModePatterns (nodeCap 2 (heldObjs.withVals fun _ => 1) els) (nodeInvInd 2 (heldObjs.withVals fun _ => 1) els)
      heldFreq heldPattern := by
  have h2 : √(1 / 2 : ℝ) ^ 2 = 1 / 2 := Real.sq_sqrt (by norm_num)
  have h8 : √(1 / 8 : ℝ) * √(1 / 8) = 1 / 8 := Real.mul_self_sqrt (by norm_num)
  have hlt : (1 / 2 : ℝ) < √(1 / 2) := by
    apply Real.lt_sqrt_of_sq_lt
    norm_num
  rw [hC, hL]
  refine ⟨?_, ?_, ?_, ?_⟩
  · intro j
    fin_cases j
    · exact Real.sqrt_pos.2 (by norm_num)
    · show (0 : ℝ) < 1 / 2
      norm_num
  · intro i j hij
    fin_cases i <;> fin_cases j <;> simp at hij
    exact hlt
  · rw [show heldFreq = ![√(1 / 2), 1 / 2] from rfl, show heldPattern = ![![1 / 2, 1 / 2], ![√(1 / 8), -√(1 / 8)]] from rfl]
    generalize √(1 / 2 : ℝ) = x at *
    generalize √(1 / 8 : ℝ) = y at *
    intro j
    rw [one_mulVec]
    fin_cases j <;> ext i <;> fin_cases i <;>
      simp [mulVec, dotProduct, Fin.sum_univ_two] <;> (try rw [h2]) <;> ring
  · rw [show heldPattern = ![![1 / 2, 1 / 2], ![√(1 / 8), -√(1 / 8)]] from rfl]
    generalize √(1 / 8 : ℝ) = y at *
    intro i j
    fin_cases i <;> fin_cases j <;>
      simp [mulVec, dotProduct, Fin.sum_univ_two] <;> nlinarith [h8]

theorem held_coupled {els : Elements} {q : Edge × ElemId} (hq : q ∈ placements els) (hk : (heldObjs.elem q.2).kind = .jj)
    (h : ∀ x : Fin 2 → ℝ, acrossEdge x q.1 = x 0 ∨ acrossEdge x q.1 = -x 0) (j : Fin 2) :
    CoupledMode heldObjs els (heldFreq j) (heldPattern j) := by
  refine ⟨q, hq, hk, ?_⟩
  unfold phaseZp
  have h1 : |acrossEdge (heldPattern j) q.1| = |heldPattern j 0| := by
    rcases h (heldPattern j) with h | h <;> rw [h]
    rw [abs_neg]
  have h2 : (1 / 4 : ℝ) ≤ |heldPattern j 0| := by
    refine le_trans ?_ (le_abs_self _)
    fin_cases j
    · show (1 / 4 : ℝ) ≤ 1 / 2
      norm_num
    · show (1 / 4 : ℝ) ≤ √(1 / 8)
      apply Real.le_sqrt_of_sq_le
      norm_num
  have h3 : heldFreq j ≤ 1 ∧ 0 < heldFreq j := by
    fin_cases j
    · refine ⟨?_, Real.sqrt_pos.2 (by norm_num)⟩
      show √(1 / 2) ≤ 1
      rw [Real.sqrt_le_iff]
      norm_num
    · show (1 / 2 : ℝ) ≤ 1 ∧ 0 < (1 / 2 : ℝ)
      norm_num
  have h4 : (1e-18 : ℝ) ≤ √(hbar / (2 * heldFreq j)) := by
    apply Real.le_sqrt_of_sq_le
    rw [le_div_iff₀ (by linarith)]
    have : (1e-18 : ℝ) ^ 2 * 2 ≤ hbar := by
      unfold hbar
      norm_num
    nlinarith
  have h5 : (1e15 : ℝ) ≤ 2 * π / Phi0 := by
    rw [le_div_iff₀ Phi0_pos]
    refine le_trans (b := 4) ?_ (by have := Real.two_le_pi; linarith)
    unfold Phi0
    norm_num
  have h6 : (1e15 : ℝ) * 1e-18 ≤ 2 * π / Phi0 * √(hbar / (2 * heldFreq j)) :=
    mul_le_mul h5 h4 (by norm_num) (le_trans (by norm_num) h5)
  rw [abs_mul, abs_of_nonneg (le_trans (by norm_num) h6), h1]
  calc (1e-11 : ℝ) ≤ 1e15 * 1e-18 * (1 / 4) := by norm_num
    _ ≤ _ := mul_le_mul h6 h2 (by norm_num) (le_trans (by norm_num) h6)

/-- two coupled fluxonia, written down in two ways, meet the hypotheses of C132 and of the case of C111: their normal
modes have the frequencies 1/√2 and 1/2, and both sessions return the same levels -/
theorem C132_example : ∃ (c c' : CircSpec) (eigs : EigsFn) (as : List ℂ → List ℕ) (w0 : World (circPhys c eigs as))
    (w0' : World (circPhys c' eigs as)),
    EigsLowest eigs ∧ CArgsortSpec as ∧ c'.O = c.O ∧ c.torch = false ∧
    c.els = [((0, 1), [0, 4]), ((0, 2), [2, 6]), ((1, 2), [8])] ∧
    c'.els = [((2, 0), [4, 0]), ((1, 2), [8]), ((0, 1), [2, 6])] ∧
    HeldCircuit c 2 (fun _ => 1) ![√(1 / 2), 1 / 2] ![![1 / 2, 1 / 2], ![√(1 / 8), -√(1 / 8)]] ∧
    construct (circPhys c eigs as) (fun _ => 1) (fun _ => 0) 1 = .ok w0 ∧
    construct (circPhys c' eigs as) (fun _ => 1) (fun _ => 0) 1 = .ok w0' ∧
    ∃ F v v', (diag (some 4) (run w0 [.setTruncNums (.list [3, 4])])).1 = .ok (F, v) ∧
      (diag (some 4) (run w0' [.setTruncNums (.list [3, 4])])).1 = .ok (F, v') := by
  choose lib hlib using exists_lib
  choose argmax hm using exists_argmax
  obtain ⟨argsort, hsrt⟩ := exists_argsort
  obtain ⟨eigs, he⟩ := exists_eigs_lowest
  obtain ⟨as, ha⟩ := exists_cargsort
  have hn : numNodes heldEls = .ok 2 := rfl
  have hn' : numNodes heldEls' = .ok 2 := rfl
  have hv : ValidElements 2 heldEls := by
    intro p hp
    simp [heldEls] at hp
    rcases hp with rfl | rfl | rfl <;> simp [ValidEdge]
  have hv' : ValidElements 2 heldEls' := by
    intro p hp
    simp [heldEls'] at hp
    rcases hp with rfl | rfl | rfl <;> simp [ValidEdge]
  have hg : GroundConnected 2 heldEls := by
    intro k hk
    interval_cases k
    · exact .refl
    · exact .single ⟨((0, 1), [0, 4]), by simp [heldEls], by simp, by simp⟩
    · exact .single ⟨((0, 2), [2, 6]), by simp [heldEls], by simp, by simp⟩
  have hg' : GroundConnected 2 heldEls' := by
    intro k hk
    interval_cases k
    · exact .refl
    · exact .single ⟨((0, 1), [2, 6]), by simp [heldEls'], by simp, by simp⟩
    · exact .single ⟨((2, 0), [4, 0]), by simp [heldEls'], by simp, by simp⟩
  have hL : nodeInvInd 2 (heldObjs.withVals fun _ => 1) heldEls = 1 := by
    ext i j
    fin_cases i <;> fin_cases j <;>
      simp [nodeInvInd, placements, heldEls, placedInvInd, Objs.withVals, heldObjs, edgeMat, incidence]
  have hL' : nodeInvInd 2 (heldObjs.withVals fun _ => 1) heldEls' = 1 := by
    ext i j
    fin_cases i <;> fin_cases j <;>
      simp [nodeInvInd, placements, heldEls', placedInvInd, Objs.withVals, heldObjs, edgeMat, incidence]
  have hC : nodeCap 2 (heldObjs.withVals fun _ => 1) heldEls = !![3, -1; -1, 3] := by
    ext i j
    fin_cases i <;> fin_cases j <;>
      simp [nodeCap, placements, heldEls, held_placedCap, edgeMat, incidence] <;> norm_num
  have hC' : nodeCap 2 (heldObjs.withVals fun _ => 1) heldEls' = !![3, -1; -1, 3] := by
    ext i j
    fin_cases i <;> fin_cases j <;>
      simp [nodeCap, placements, heldEls', held_placedCap, edgeMat, incidence] <;> norm_num
  have hheld : HeldCircuit (heldSpec heldEls lib argsort argmax) 2 (fun _ => 1) heldFreq heldPattern :=
    ⟨held_good hlib hm hn hv hg hL, hn, held_modes hC hL, .inr (.inr fun j =>
      held_coupled (q := ((0, 1), 4)) (by simp [heldSpec, heldEls, placements]) (by simp [heldObjs]) (by
        intro x
        simp [acrossEdge, incidence, Fin.sum_univ_two]) j)⟩
  have hheld' : HeldCircuit (heldSpec heldEls' lib argsort argmax) 2 (fun _ => 1) heldFreq heldPattern :=
    ⟨held_good hlib hm hn' hv' hg' hL', hn', held_modes hC' hL', .inr (.inr fun j =>
      held_coupled (q := ((0, 1), 6)) (by simp [heldSpec, heldEls', placements]) (by simp [heldObjs]) (by
        intro x
        simp [acrossEdge, incidence, Fin.sum_univ_two]) j)⟩
  have hloops : ∀ i : ElemId, (heldObjs.elem i).loops = [] := by
    intro i
    unfold heldObjs
    simp only
    split_ifs <;> rfl
  have hren : Renumbered (Equiv.swap 0 1 : Equiv.Perm (Fin 2)) heldEls heldEls' := by
    refine ⟨[((2, 0), 0), ((2, 0), 4), ((0, 1), 2), ((0, 1), 6), ((1, 2), 8)], ?_, ?_⟩
    · decide
    · simp only [placements, heldEls, List.flatMap_cons, List.flatMap_nil, List.map_cons, List.map_nil, List.append_nil,
        List.cons_append, List.nil_append]
      refine .cons ⟨rfl, .inr ?_⟩ (.cons ⟨rfl, .inr ?_⟩ (.cons ⟨rfl, .inl ?_⟩ (.cons ⟨rfl, .inl ?_⟩
        (.cons ⟨rfl, .inr ?_⟩ .nil)))) <;> decide
  obtain ⟨w0, hw, ho, hlast, hvals, hfl, hmm, hu⟩ := held_session hheld hv le_rfl (fun q _ => hloops q.2) eigs as [3, 4]
    rfl (by simp)
  obtain ⟨w0', hw', ho', hlast', hvals', hfl', hmm', hu'⟩ := held_session hheld' hv' le_rfl (fun q _ => hloops q.2) eigs as
    [3, 4] rfl (by simp)
  have hnu : ∀ {h1 h2 : List Act}, [Act.setTruncNums (.list [3, 4])] = h1 ++ .update :: h2 → False := by
    intro h1 h2 h
    have : Act.update ∈ [Act.setTruncNums (.list [3, 4])] := by rw [h]; simp
    simp at this
  refine ⟨heldSpec heldEls lib argsort argmax, heldSpec heldEls' lib argsort argmax, eigs, as, w0, w0', he, ha,
    rfl, rfl, rfl, rfl, hheld, hw, hw', ?_⟩
  exact C111_held_partial (c := heldSpec heldEls lib argsort argmax) (c' := heldSpec heldEls' lib argsort argmax) he ha he ha rfl
    held_caps _ hren _ _ _ _ _ _ w0 hw w0' hw' _ _ ho ho' ⟨_, _, hheld⟩ ⟨_, _, hheld'⟩ (fun h1 h2 h => (hnu h).elim)
    (fun h1 h2 h => (hnu h).elim) (fun i _ => hlast i) (fun i _ => hlast' i)
    ⟨_, _, by rw [hvals]; exact hheld⟩ ⟨_, _, by rw [hvals']; exact hheld'⟩ hfl hfl' (by rw [hmm]; simp)
    (by rw [hvals, hvals']) (by rw [hmm, hmm']) (by rw [hu, hu']) 4 (by norm_num) (by
      rw [hmm]; simp [Fin.prod_univ_two])

end SQ
