import Verif.Props.LoopSignsHeld
import Verif.Props.GroundedExample
import Verif.Props.Fluxonium

/-!
# Concrete case for C134 and the case of C111 of one loop: a flux-biased fluxonium written down in two ways
-/

namespace SQ
open Matrix Spec Real

/-- the fluxonium with the edge written backwards and the junction first -/
def fluxoniumEls' : Elements := [((1, 0), [2, 0])]

/-- L = 1, C = 1/2 + 1/2 (SI units), E_J/ħ = 5 -/
noncomputable def biasVals : ElemId → ℝ := fun i => if i = 2 then 5 else if i = 0 then 1 else 1 / 2

/-- the fluxonium with a given dictionary -/
noncomputable def biasSpec (els : Elements) (lib : ∀ n, NumLib n) (argsort : ArgsortFn) (argmax : ∀ k, ArgmaxFn k) :
    CircSpec :=
  { fluxoniumSpec false (fun _ => LoopObj.init 0 0) lib exSv argsort argmax (fun _ _ => 0) with els := els }

/-- the two dictionaries -/
def BiasEls (els : Elements) : Prop := els = fluxoniumEls ∨ els = fluxoniumEls'

theorem bias_valid {els : Elements} (h : BiasEls els) : ValidElements 1 els := by
  rcases h with rfl | rfl
  · exact fx_valid
  · intro p hp
    simp [fluxoniumEls'] at hp
    subst hp; simp [ValidEdge]

theorem bias_mats {els : Elements} (h : BiasEls els) :
    nodeCap 1 (fluxoniumObjs.withVals biasVals) els = 1 ∧ nodeInvInd 1 (fluxoniumObjs.withVals biasVals) els = 1 := by
  rcases h with rfl | rfl
  · constructor <;> ext i j <;> fin_cases i <;> fin_cases j <;>
      simp [nodeCap, nodeInvInd, placements, fluxoniumEls, placedCap, placedInvInd, fluxoniumObjs, Objs.withVals, edgeMat, incidence, biasVals]
    norm_num
  · constructor <;> ext i j <;> fin_cases i <;> fin_cases j <;>
      simp [nodeCap, nodeInvInd, placements, fluxoniumEls', placedCap, placedInvInd, fluxoniumObjs, Objs.withVals, edgeMat, incidence, biasVals]
    norm_num

theorem bias_placements {els : Elements} (h : BiasEls els) {q : Edge × ElemId} (hq : q ∈ placements els) :
    (q.1 = (0, 1) ∨ q.1 = (1, 0)) ∧ (q.2 = 0 ∨ q.2 = 2) := by
  rcases h with rfl | rfl
  · simp [placements, fluxoniumEls] at hq
    rcases hq with rfl | rfl <;> simp
  · simp [placements, fluxoniumEls'] at hq
    rcases hq with rfl | rfl <;> simp

theorem bias_good {els : Elements} (h : BiasEls els) {lib : ∀ n, NumLib n} {argsort : ArgsortFn} {argmax : ∀ k, ArgmaxFn k}
    (hlib : ∀ n, ∀ C L : Matrix (Fin n) (Fin n) ℝ, C.PosDef → L.PosSemidef → LibSpec (lib n) C L)
    (hm : ∀ k, ArgmaxSpec (argmax k)) : GoodCircuit (biasSpec els lib argsort argmax) biasVals where
  noSelf := fun p hp => (bias_valid h p hp).1
  caps := by
    intro q hq
    rcases (bias_placements h hq).2 with h2 | h2 <;> rw [h2] <;>
      simp [placedCap, biasSpec, fluxoniumSpec, Objs.withVals, fluxoniumObjs, biasVals]
  inds := by
    intro q hq hk
    rcases (bias_placements h hq).2 with h2 | h2 <;> rw [h2] at hk ⊢ <;>
      simp [biasSpec, fluxoniumSpec, Objs.withVals, fluxoniumObjs, biasVals] at hk ⊢
  ground := by
    intro n' hn'
    obtain rfl : n' = 1 := by
      rcases h with rfl | rfl <;> exact (Except.ok.inj (hn'.symm.trans (rfl : _ = Except.ok 1)))
    intro k hk
    interval_cases k
    · exact .refl
    · rcases h with rfl | rfl
      · exact .single ⟨((0, 1), [0, 2]), by simp [biasSpec, fluxoniumEls], by simp, by simp⟩
      · exact .single ⟨((1, 0), [2, 0]), by simp [biasSpec, fluxoniumEls'], by simp, by simp⟩
  argmax := hm
  lib := by
    intro n' a hn' htr
    obtain rfl : n' = 1 := by
      rcases h with rfl | rfl <;> exact (Except.ok.inj (hn'.symm.trans (rfl : _ = Except.ok 1)))
    obtain ⟨h1, h2⟩ := traverse_mats (bias_valid h) htr
    have hc1 : a.cMat = 1 := h1.trans (bias_mats h).1
    have hl1 : a.lMat = 1 := h2.trans (bias_mats h).2
    refine ⟨hlib 1 _ _ ?_ ?_, fx_gap _ _⟩
    · rw [hc1]; exact PosDef.one
    · rw [hl1]; exact PosSemidef.one

theorem bias_held {els : Elements} (h : BiasEls els) {lib : ∀ n, NumLib n} {argsort : ArgsortFn} {argmax : ∀ k, ArgmaxFn k}
    (hlib : ∀ n, ∀ C L : Matrix (Fin n) (Fin n) ℝ, C.PosDef → L.PosSemidef → LibSpec (lib n) C L)
    (hm : ∀ k, ArgmaxSpec (argmax k)) :
    HeldCircuit (biasSpec els lib argsort argmax) 1 biasVals (fun _ => 1) (fun _ _ => 1) where
  good := bias_good h hlib hm
  nodes := by rcases h with rfl | rfl <;> rfl
  modes := by
    obtain ⟨h1, h2⟩ := bias_mats h
    have h1' : nodeCap 1 ((biasSpec els lib argsort argmax).O.withVals biasVals) (biasSpec els lib argsort argmax).els = 1 := h1
    have h2' : nodeInvInd 1 ((biasSpec els lib argsort argmax).O.withVals biasVals) (biasSpec els lib argsort argmax).els = 1 := h2
    rw [h1', h2']
    refine ⟨fun _ => one_pos, ?_, ?_, ?_⟩
    · intro i j hij
      exact absurd (Subsingleton.elim i j) hij.ne
    · intro j
      simp
    · intro i j
      rw [if_pos (Subsingleton.elim i j)]
      simp [dotProduct]
  kept := by
    refine .inr (.inr fun j => ?_)
    obtain ⟨e, he, hq⟩ : ∃ e : Edge, (e = (0, 1) ∨ e = (1, 0)) ∧ (e, 2) ∈ placements els := by
      rcases h with rfl | rfl
      · exact ⟨(0, 1), .inl rfl, by simp [placements, fluxoniumEls]⟩
      · exact ⟨(1, 0), .inr rfl, by simp [placements, fluxoniumEls']⟩
    refine ⟨(e, 2), hq, rfl, ?_⟩
    have ha : |acrossEdge (fun _ : Fin 1 => (1 : ℝ)) e| = 1 := by
      rcases he with rfl | rfl <;> simp [acrossEdge, incidence]
    unfold phaseZp
    have h4 : (1e-18 : ℝ) ≤ √(hbar / (2 * 1)) := by
      apply Real.le_sqrt_of_sq_le
      unfold hbar
      norm_num
    have h5 : (1e15 : ℝ) ≤ 2 * π / Phi0 := by
      rw [le_div_iff₀ Phi0_pos]
      refine le_trans (b := 4) ?_ (by have := Real.two_le_pi; linarith)
      unfold Phi0
      norm_num
    have h6 : (1e15 : ℝ) * 1e-18 ≤ 2 * π / Phi0 * √(hbar / (2 * 1)) :=
      mul_le_mul h5 h4 (by norm_num) (le_trans (by norm_num) h5)
    rw [abs_mul, abs_of_nonneg (le_trans (by norm_num) h6), ha, mul_one]
    exact le_trans (by norm_num) h6

theorem bias_built {els : Elements} (h : BiasEls els) {lib : ∀ n, NumLib n} {argsort : ArgsortFn} {argmax : ∀ k, ArgmaxFn k}
    (hlib : ∀ n, ∀ C L : Matrix (Fin n) (Fin n) ℝ, C.PosDef → L.PosSemidef → LibSpec (lib n) C L)
    (hm : ∀ k, ArgmaxSpec (argmax k)) :
    ∃ b, buildCirc (biasSpec els lib argsort argmax) biasVals = .ok b ∧ b.k = 1 ∧ ∀ i, b.M.omega i ≠ 0 := by
  refine held_exists_flux (bias_held h hlib hm) (bias_valid h) le_rfl ?_
  have h0 : ∀ p ∈ els, ∀ i ∈ p.2, ((fluxoniumObjs.withVals biasVals).elem i).kind = .ind →
      ((fluxoniumObjs.withVals biasVals).elem i).value ≠ 0 := by
    intro p hp i hi hk
    exact ((bias_good (argsort := argsort) h hlib hm).inds (p.1, i) (by
      unfold placements; simp only [List.mem_flatMap, List.mem_map]; exact ⟨p, hp, i, hi, rfl⟩) hk).ne'
  intro a htr
  have key : ∃ a' B, getLCWB exSv false .junctions (fluxoniumObjs.withVals biasVals) 1 (fun _ => LoopObj.init 0 0) els =
      .ok ⟨a', some B⟩ := by
    rcases h with rfl | rfl
    · obtain ⟨a', B, h1, -⟩ := C23_whole_flux exSv exSv_spec false .junctions (fluxoniumObjs.withVals biasVals) 1
        (fun _ => LoopObj.init 0 0) fluxoniumEls fx_valid h0 (0, 1) 0 2 0 rfl rfl rfl (Or.inr ⟨rfl, rfl⟩) (by simp)
      exact ⟨a', B, h1⟩
    · obtain ⟨a', B, h1, -⟩ := C23_whole_flux exSv exSv_spec false .junctions (fluxoniumObjs.withVals biasVals) 1
        (fun _ => LoopObj.init 0 0) fluxoniumEls' (bias_valid (.inr rfl)) h0 (1, 0) 2 0 0 rfl rfl rfl (Or.inl ⟨rfl, rfl⟩) (by simp)
      exact ⟨a', B, h1⟩
  obtain ⟨a', B, h1⟩ := key
  unfold getLCWB at h1
  have htr' : traverse false .junctions (fluxoniumObjs.withVals biasVals) 1 (fun _ => LoopObj.init 0 0) els = .ok a := htr
  rw [htr'] at h1
  simp only at h1
  show ∃ B, fluxMatrix exSv 1 a.st.kMat a.st.cEdge (a.st.loops.map a.st.loopHeap) = .ok B
  cases hB : fluxMatrix exSv 1 a.st.kMat a.st.cEdge (a.st.loops.map a.st.loopHeap) with
  | ok B => exact ⟨B, rfl⟩
  | error e => rw [hB] at h1; cases h1

theorem bias_two {lib : ∀ n, NumLib n} {argsort : ArgsortFn} {argmax : ∀ k, ArgmaxFn k} :
    TwoNotations (biasSpec fluxoniumEls lib argsort argmax) (biasSpec fluxoniumEls' lib argsort argmax) 1 1 where
  objects := rfl
  fluxDist := rfl
  noSelf := fun p hp => (bias_valid (.inl rfl) p hp).1
  noSelf' := fun p hp => (bias_valid (.inr rfl) p hp).1
  once := by
    intro i
    show (fluxoniumObjs.elem i).loops.Nodup
    unfold fluxoniumObjs
    simp only
    split_ifs <;> simp
  svd := exSv_spec
  svd' := exSv_spec
  nodes := rfl
  nodes' := rfl
  renumbered := by
    refine ⟨[((1, 0), 0), ((1, 0), 2)], ?_, ?_⟩
    · show (placements fluxoniumEls').Perm _
      decide
    · simp only [placements, biasSpec, fluxoniumEls, List.flatMap_cons, List.flatMap_nil, List.map_cons, List.map_nil,
        List.append_nil]
      refine .cons ⟨rfl, .inr ?_⟩ (.cons ⟨rfl, .inr ?_⟩ .nil) <;> decide

/-- a fluxonium with an external flux of one radian, written down with the edge in both directions and the elements in both
orders, meets the hypotheses of C134 and of the case of C111 of one loop; both sessions return the same levels -/
theorem C134_example : ∃ (c c' : CircSpec) (eigs : EigsFn) (as : List ℂ → List ℕ) (w0 : World (circPhys c eigs as))
    (w0' : World (circPhys c' eigs as)),
    EigsLowest eigs ∧ CArgsortSpec as ∧ TwoNotations c c' 1 1 ∧ OneLoop c.O c.els ∧ ValidElements 1 c.els ∧
    c.els = [((0, 1), [0, 2])] ∧ c'.els = [((1, 0), [2, 0])] ∧ HeldCircuit c 1 biasVals (fun _ => 1) (fun _ _ => 1) ∧
    construct (circPhys c eigs as) biasVals (fun _ => 1) 1 = .ok w0 ∧
    construct (circPhys c' eigs as) biasVals (fun _ => 1) 1 = .ok w0' ∧
    ∃ F v v', (diag (some 4) (run w0 [.setTruncNums (.list [9])])).1 = .ok (F, v) ∧
      (diag (some 4) (run w0' [.setTruncNums (.list [9])])).1 = .ok (F, v') := by
  choose lib hlib using exists_lib
  choose argmax hm using exists_argmax
  obtain ⟨argsort, -⟩ := exists_argsort
  obtain ⟨eigs, he⟩ := exists_eigs_lowest
  obtain ⟨as, ha⟩ := exists_cargsort
  have hheld := bias_held (argsort := argsort) (.inl rfl) hlib hm
  have hheld' := bias_held (argsort := argsort) (.inr rfl) hlib hm
  obtain ⟨w0, hw, ho, hlast, hvals, hfl, hmm, hu⟩ := held_session_flux (bias_built (argsort := argsort) (.inl rfl) hlib hm)
    (fun _ => 1) eigs as [9] rfl (by simp)
  obtain ⟨w0', hw', ho', hlast', hvals', hfl', hmm', hu'⟩ := held_session_flux
    (bias_built (argsort := argsort) (.inr rfl) hlib hm) (fun _ => 1) eigs as [9] rfl (by simp)
  have hnu : ∀ {h1 h2 : List Act}, [Act.setTruncNums (.list [9])] = h1 ++ .update :: h2 → False := by
    intro h1 h2 h
    have : Act.update ∈ [Act.setTruncNums (.list [9])] := by rw [h]; simp
    simp at this
  have hone : OneLoop fluxoniumObjs fluxoniumEls := by
    refine ⟨0, fun q hq l hl => ?_⟩
    rcases (bias_placements (.inl rfl) hq).2 with h2 | h2 <;> rw [h2] at hl <;> simpa [fluxoniumObjs] using hl
  refine ⟨biasSpec fluxoniumEls lib argsort argmax, biasSpec fluxoniumEls' lib argsort argmax, eigs, as, w0, w0', he, ha,
    bias_two, hone, bias_valid (.inl rfl), rfl, rfl, hheld, hw, hw', ?_⟩
  exact C111_one_loop_partial he ha he ha bias_two fx_caps hone _ _ _ _ _ _ w0 hw w0' hw' _ _ ho ho' ⟨_, _, hheld⟩
    ⟨_, _, hheld'⟩ (fun h1 h2 h => (hnu h).elim) (fun h1 h2 h => (hnu h).elim) (fun i _ => hlast i) (fun i _ => hlast' i)
    ⟨_, _, by rw [hvals]; exact hheld⟩ ⟨_, _, by rw [hvals']; exact hheld'⟩ (funext fun l => (hfl' l).trans (hfl l).symm)
    (by rw [hmm]; simp) (by rw [hvals, hvals']) (by rw [hmm, hmm']) (by rw [hu, hu']) 4 (by norm_num) (by
      rw [hmm]; simp)

end SQ
