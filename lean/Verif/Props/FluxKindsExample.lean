import Verif.Props.FluxKinds
import Verif.Props.GroundedExample
import Verif.Props.Fluxonium
import Verif.Props.RelabelLoops

/-!
# Concrete case for C135: two junctions that share an inductor
-/

namespace SQ
open Matrix Spec Real

/-- junctions 0 and 4 with an inductor 2 between them: loop 0 runs through 0 and 2, loop 1 through 2 and 4 -/
def sharedObjs : Objs where
  elem := fun i =>
    if i = 0 then ⟨.jj, 1, 1, [0], false, true⟩
    else if i = 2 then ⟨.ind, 1, 3, [0, 1], false, true⟩
    else if i = 4 then ⟨.jj, 1, 5, [1], false, true⟩
    else ⟨.cap, 1, 1, [], false, true⟩
  loopValue := fun _ => 0
  loopReqGrad := fun _ => false
  loopIsLeaf := fun _ => true

/-- all in parallel -/
def sharedEls : Elements := [((0, 1), [0, 2, 4])]

/-- capacitors of 1/3 F, everything else has value 1 -/
noncomputable def sharedVals : ElemId → ℝ := fun i => if i = 0 ∨ i = 2 ∨ i = 4 then 1 else 1 / 3

/-- the circuit under PyTorch with `flux_dist='junctions'` -/
noncomputable def sharedSpec (lib : ∀ n, NumLib n) (argsort : ArgsortFn) (argmax : ∀ k, ArgmaxFn k) : CircSpec where
  torch := true
  fd := .junctions
  O := sharedObjs
  els := sharedEls
  h := fun _ => LoopObj.init 0 0
  lib := lib
  sv := exSv
  argsort := argsort
  argmax := argmax
  draws := fun _ _ => 0
  fuel := 3

theorem shared_valid : ValidElements 1 sharedEls := by
  intro p hp
  simp [sharedEls] at hp
  subst hp; simp [ValidEdge]

theorem shared_placements : inductivePlacements sharedObjs sharedEls = [((0, 1), 0), ((0, 1), 2), ((0, 1), 4)] := by decide

theorem shared_mats :
    nodeCap 1 (sharedObjs.withVals sharedVals) sharedEls = 1 ∧ nodeInvInd 1 (sharedObjs.withVals sharedVals) sharedEls = 1 := by
  constructor <;> ext i j <;> fin_cases i <;> fin_cases j <;>
    simp [nodeCap, nodeInvInd, placements, sharedEls, placedCap, placedInvInd, sharedObjs, Objs.withVals, edgeMat, incidence, sharedVals]
  norm_num

theorem shared_mem {q : Edge × ElemId} (hq : q ∈ placements sharedEls) : q.2 = 0 ∨ q.2 = 2 ∨ q.2 = 4 := by
  simp [placements, sharedEls] at hq
  rcases hq with rfl | rfl | rfl <;> simp

theorem shared_held {lib : ∀ n, NumLib n} {argsort : ArgsortFn} {argmax : ∀ k, ArgmaxFn k}
    (hlib : ∀ n, ∀ C L : Matrix (Fin n) (Fin n) ℝ, C.PosDef → L.PosSemidef → LibSpec (lib n) C L)
    (hm : ∀ k, ArgmaxSpec (argmax k)) :
    HeldCircuit (sharedSpec lib argsort argmax) 1 sharedVals (fun _ => 1) (fun _ _ => 1) where
  good := {
    noSelf := fun p hp => (shared_valid p hp).1
    caps := by
      intro q hq
      rcases shared_mem hq with h2 | h2 | h2 <;> rw [h2] <;>
        simp [placedCap, sharedSpec, Objs.withVals, sharedObjs, sharedVals]
    inds := by
      intro q hq hk
      rcases shared_mem hq with h2 | h2 | h2 <;> rw [h2] at hk ⊢ <;>
        simp [sharedSpec, Objs.withVals, sharedObjs, sharedVals] at hk ⊢
    ground := by
      intro n' hn'
      obtain rfl : n' = 1 := Except.ok.inj (hn'.symm.trans (rfl : _ = Except.ok 1))
      intro k hk
      interval_cases k
      · exact .refl
      · exact .single ⟨((0, 1), [0, 2, 4]), by simp [sharedSpec, sharedEls], by simp, by simp⟩
    argmax := hm
    lib := by
      intro n' a hn' htr
      obtain rfl : n' = 1 := Except.ok.inj (hn'.symm.trans (rfl : _ = Except.ok 1))
      obtain ⟨h1, h2⟩ := traverse_mats shared_valid htr
      have hc1 : a.cMat = 1 := h1.trans shared_mats.1
      have hl1 : a.lMat = 1 := h2.trans shared_mats.2
      refine ⟨hlib 1 _ _ ?_ ?_, fx_gap _ _⟩
      · rw [hc1]; exact PosDef.one
      · rw [hl1]; exact PosSemidef.one }
  nodes := rfl
  modes := by
    have h1' : nodeCap 1 ((sharedSpec lib argsort argmax).O.withVals sharedVals) (sharedSpec lib argsort argmax).els = 1 := shared_mats.1
    have h2' : nodeInvInd 1 ((sharedSpec lib argsort argmax).O.withVals sharedVals) (sharedSpec lib argsort argmax).els = 1 := shared_mats.2
    rw [h1', h2']
    refine ⟨fun _ => one_pos, ?_, ?_, ?_⟩
    · intro i j hij
      exact absurd (Subsingleton.elim i j) hij.ne
    · intro j
      simp
    · intro i j
      rw [if_pos (Subsingleton.elim i j)]
      simp [dotProduct]
  kept := .inl rfl

theorem shared_flux {sv : SvdFn} (hsv : SvdSpec sv) (c c' v A v' A' : ℝ) (hc : 0 < c) (hc' : 0 < c') :
    ∃ B, fluxMatrix sv 1 [[1], [1], [1]] [c, c', c] [⟨v, A, [0, 1], [[1], [1]]⟩, ⟨v', A', [1, 2], [[1], [1]]⟩] = .ok (some B) := by
  have hr : ((keptCols sv (arrayOf 1 [[1], [1], [1]])).map
        (fun j i => arrayOf 1 [[1], [1], [1]] i j * [c, c', c].getD i 0) ++
          [![1, -1, 0], ![0, 1, -1]] : List (Fin 3 → ℝ))
      = [![c, c', c], ![1, -1, 0], ![0, 1, -1]] := by
    rw [kept_three hsv]
    have e2 : (fun i : Fin 3 => arrayOf 1 [[1], [1], [1]] i 0 * [c, c', c].getD i 0) = ![c, c', c] := by
      funext i
      fin_cases i <;> simp [arrayOf, rowVec]
    rw [← e2]; rfl
  have hX := squareOf_three ![c, c', c] ![1, -1, 0] ![0, 1, -1]
  rw [← hr] at hX
  have hdet : (Matrix.of ![![c, c', c], ![1, -1, 0], ![0, 1, -1]] : Matrix (Fin 3) (Fin 3) ℝ).det ≠ 0 := by
    rw [Matrix.det_fin_three]
    simp
    intro h
    linarith
  have hlr := loopRows_three hsv false v A v' A'
  simp only [Bool.false_eq_true, if_false] at hlr
  exact fluxMatrix_some (kMat := [[1], [1], [1]]) (cEdge := [c, c', c])
    (loops := [⟨v, A, [0, 1], [[1], [1]]⟩, ⟨v', A', [1, 2], [[1], [1]]⟩]) hlr (by simp) (by simp) hX hdet

theorem shared_built {lib : ∀ n, NumLib n} {argsort : ArgsortFn} {argmax : ∀ k, ArgmaxFn k}
    (hlib : ∀ n, ∀ C L : Matrix (Fin n) (Fin n) ℝ, C.PosDef → L.PosSemidef → LibSpec (lib n) C L)
    (hm : ∀ k, ArgmaxSpec (argmax k)) : ∃ b, buildCirc (sharedSpec lib argsort argmax) sharedVals = .ok b := by
  have hex : ∃ b, buildCirc (sharedSpec lib argsort argmax) sharedVals = .ok b ∧ b.k = 1 ∧ ∀ i, b.M.omega i ≠ 0 := by
    refine held_exists_flux (shared_held hlib hm) shared_valid le_rfl ?_
    intro a htr
    obtain ⟨l1, -, l2, l3, -⟩ := C19_loop_membership _ _ _ 1 _ _ shared_valid a htr
    obtain ⟨-, -, -, -, -, hk⟩ := C18_branch_numbering _ _ _ 1 _ _ shared_valid a htr
    have hce := traverse_cEdge shared_valid htr
    have hip' : inductivePlacements (sharedObjs.withVals sharedVals) sharedEls = [((0, 1), 0), ((0, 1), 2), ((0, 1), 4)] :=
      shared_placements
    have hk' : a.st.kMat = [[1], [1], [1]] := by
      have : a.st.kMat = (inductivePlacements (sharedObjs.withVals sharedVals) sharedEls).map (fun q => incVec 1 q.1) := hk
      rw [this, hip']
      rfl
    have hce' : a.st.cEdge = [1e-20, 1e20, 1e-20] := by
      have : a.st.cEdge = (inductivePlacements (sharedObjs.withVals sharedVals) sharedEls).map
        (fun q => fluxCap (sharedObjs.withVals sharedVals) .junctions q.2) := hce
      rw [this, hip']
      simp [fluxCap, Objs.withVals, sharedObjs]
    have hu : loopUses (sharedObjs.withVals sharedVals) sharedEls =
        [(0, 0, (0, 1)), (0, 1, (0, 1)), (1, 1, (0, 1)), (1, 2, (0, 1))] := by
      unfold loopUses numbered
      rw [hip']
      simp [Objs.withVals, sharedObjs]
    have hloops : a.st.loops = [0, 1] := by
      have : a.st.loops = firstUses ((loopUses (sharedObjs.withVals sharedVals) sharedEls).map Prod.fst) := l1
      rw [this, hu]
      decide
    have hobj : a.st.loops.map a.st.loopHeap = [⟨(LoopObj.init 0 0).value, (LoopObj.init 0 0).A, [0, 1], [[1], [1]]⟩,
        ⟨(LoopObj.init 0 0).value, (LoopObj.init 0 0).A, [1, 2], [[1], [1]]⟩] := by
      rw [hloops]
      obtain ⟨e1, e2⟩ := l2 0 (by rw [hloops]; simp)
      obtain ⟨e3, e4⟩ := l3 0
      obtain ⟨f1, f2⟩ := l2 1 (by rw [hloops]; simp)
      obtain ⟨f3, f4⟩ := l3 1
      have u0 : usesOf (sharedObjs.withVals sharedVals) sharedEls 0 = [(0, (0, 1)), (1, (0, 1))] := by
        unfold usesOf
        rw [hu]
        simp
      have u1 : usesOf (sharedObjs.withVals sharedVals) sharedEls 1 = [(1, (0, 1)), (2, (0, 1))] := by
        unfold usesOf
        rw [hu]
        simp
      have g1 : (a.st.loopHeap 0).indices = [0, 1] := e1.trans (congrArg (List.map Prod.fst) u0)
      have g2 : (a.st.loopHeap 0).kMat = [[1], [1]] := e2.trans (congrArg (List.map fun u => incVec 1 u.2) u0)
      have g3 : (a.st.loopHeap 1).indices = [1, 2] := f1.trans (congrArg (List.map Prod.fst) u1)
      have g4 : (a.st.loopHeap 1).kMat = [[1], [1]] := f2.trans (congrArg (List.map fun u => incVec 1 u.2) u1)
      simp only [List.map_cons, List.map_nil]
      have k0 : a.st.loopHeap 0 = ⟨(LoopObj.init 0 0).value, (LoopObj.init 0 0).A, [0, 1], [[1], [1]]⟩ := by
        rw [← g1, ← g2]
        show a.st.loopHeap 0 = ⟨((sharedSpec lib argsort argmax).h 0).value, ((sharedSpec lib argsort argmax).h 0).A, _, _⟩
        rw [← e3, ← e4]
      have k1 : a.st.loopHeap 1 = ⟨(LoopObj.init 0 0).value, (LoopObj.init 0 0).A, [1, 2], [[1], [1]]⟩ := by
        rw [← g3, ← g4]
        show a.st.loopHeap 1 = ⟨((sharedSpec lib argsort argmax).h 1).value, ((sharedSpec lib argsort argmax).h 1).A, _, _⟩
        rw [← f3, ← f4]
      rw [k0, k1]
    obtain ⟨B, hB⟩ := shared_flux exSv_spec 1e-20 1e20 (LoopObj.init 0 0).value (LoopObj.init 0 0).A (LoopObj.init 0 0).value
      (LoopObj.init 0 0).A (by norm_num) (by norm_num)
    have : ∀ {k1 k2 : List (List ℤ)} {c1 c2 : List ℝ} {o1 o2 : List LoopObj}, k1 = k2 → c1 = c2 → o1 = o2 →
        (∃ B, fluxMatrix exSv 1 k2 c2 o2 = .ok B) → ∃ B, fluxMatrix exSv 1 k1 c1 o1 = .ok B := by
      rintro _ _ _ _ _ _ rfl rfl rfl h
      exact h
    exact this hk' hce' hobj ⟨_, hB⟩
  obtain ⟨b, hb, -⟩ := hex
  exact ⟨b, hb⟩

/-- two junctions sharing an inductor meet the hypotheses of C135: each junction carries the whole flux of its loop, the
inductor in both loops carries nothing -/
theorem C135_example : ∃ (c : CircSpec) (vals : ElemId → ℝ) (b : Build), c.els = [((0, 1), [0, 2, 4])] ∧
    NoSelfLoops c.els ∧ LoopsListedOnce c.O ∧ SvdSpec c.sv ∧ numNodes c.els = .ok 1 ∧ carrier c.fd = some .jj ∧
    OwnElements 1 c.O c.els .jj ∧ OneEach c.O c.els .jj ∧ buildCirc c vals = .ok b ∧
    ∃ s0 s1 : ℝ, (s0 = 1 ∨ s0 = -1) ∧ (s1 = 1 ∨ s1 = -1) ∧ ∀ flux, branchPhase b flux 0 = s0 * flux 0 ∧
      branchPhase b flux 1 = 0 ∧ branchPhase b flux 2 = s1 * flux 1 := by
  choose lib hlib using exists_lib
  choose argmax hm using exists_argmax
  obtain ⟨argsort, -⟩ := exists_argsort
  obtain ⟨b, hb⟩ := shared_built (argsort := argsort) hlib hm
  have hlen : (inductivePlacements sharedObjs sharedEls).length = 3 := by rw [shared_placements]; rfl
  have hself : NoSelfLoops sharedEls := fun p hp => (shared_valid p hp).1
  have honce : LoopsListedOnce sharedObjs := by
    intro i
    unfold sharedObjs
    simp only
    split_ifs <;> simp
  -- the two own junctions
  have hown0 : OwnElement 1 sharedObjs (inductivePlacements sharedObjs sharedEls) .jj 0 ⟨0, by rw [hlen]; norm_num⟩ ∧
      OwnElement 1 sharedObjs (inductivePlacements sharedObjs sharedEls) .jj 1 ⟨2, by rw [hlen]; norm_num⟩ := by
    generalize hP : inductivePlacements sharedObjs sharedEls = P at *
    rw [shared_placements] at hP
    subst hP
    have hs : ∀ g : Fin 3 → ℝ, (∑ j : Fin 3, g j * (incidence (([((0, 1), 0), ((0, 1), 2), ((0, 1), 4)] : List (Edge × ElemId)).get j).1 1 : ℝ)) =
        g 0 + g 1 + g 2 := by
      intro g
      rw [Fin.sum_univ_three]
      simp [incidence]
    constructor
    · refine ⟨rfl, rfl, fun g h0 hg hk => ?_⟩
      have h2 : g ⟨2, by norm_num⟩ = 0 := hg ⟨2, by norm_num⟩ (by simp [sharedObjs])
      have h3 := (hs g).symm.trans (hk 0)
      funext j
      have a0 : g 0 = 0 := h0
      have a2 : g 2 = 0 := h2
      fin_cases j
      · exact a0
      · show g 1 = 0
        linarith
      · exact a2
    · refine ⟨rfl, rfl, fun g h0 hg hk => ?_⟩
      have h2 : g ⟨0, by norm_num⟩ = 0 := hg ⟨0, by norm_num⟩ (by simp [sharedObjs])
      have h3 := (hs g).symm.trans (hk 0)
      funext j
      have a0 : g 2 = 0 := h0
      have a2 : g 0 = 0 := h2
      fin_cases j
      · exact a2
      · show g 1 = 0
        linarith
      · exact a0
  have hown : OwnElements 1 sharedObjs sharedEls .jj := by
    intro q hq l hl
    rw [shared_placements] at hq
    have : l = 0 ∨ l = 1 := by
      simp at hq
      rcases hq with rfl | rfl | rfl <;> simp [sharedObjs] at hl <;> tauto
    rcases this with rfl | rfl
    · exact ⟨_, hown0.1⟩
    · exact ⟨_, hown0.2⟩
  have hone : OneEach sharedObjs sharedEls .jj := by
    unfold OneEach
    rw [shared_placements]
    have h : ∀ i j : Fin 3, (sharedObjs.elem (([((0, 1), 0), ((0, 1), 2), ((0, 1), 4)] : List (Edge × ElemId)).get i).2).kind = .jj →
        (sharedObjs.elem (([((0, 1), 0), ((0, 1), 2), ((0, 1), 4)] : List (Edge × ElemId)).get j).2).kind = .jj →
        ∀ l ∈ (sharedObjs.elem (([((0, 1), 0), ((0, 1), 2), ((0, 1), 4)] : List (Edge × ElemId)).get i).2).loops,
        l ∈ (sharedObjs.elem (([((0, 1), 0), ((0, 1), 2), ((0, 1), 4)] : List (Edge × ElemId)).get j).2).loops → i = j := by decide
    exact fun i j l hi hj hli hlj => h i j hi hj l hli hlj
  obtain ⟨s, hs1, hs2⟩ := C135_one_each (c := sharedSpec lib argsort argmax) hself honce exSv_spec rfl hb rfl hown hone
    (by rw [show (inductivePlacements (sharedSpec lib argsort argmax).O (sharedSpec lib argsort argmax).els).length = 3 from hlen]; norm_num)
  refine ⟨sharedSpec lib argsort argmax, sharedVals, b, rfl, hself, honce, exSv_spec, rfl, rfl, hown, hone, hb, s 0, s 1, hs1 0, hs1 1,
    fun flux => ⟨hs2 flux 0 _ hown0.1, ?_, hs2 flux 1 _ hown0.2⟩⟩
  refine C135_flux_dist (c := sharedSpec lib argsort argmax) hself honce exSv_spec rfl hb rfl hown flux ⟨1, ?_⟩ ?_
  · show 1 < (inductivePlacements sharedObjs sharedEls).length
    rw [hlen]; norm_num
  · exact (by decide : Kind.ind ≠ Kind.jj)

end SQ
