import Verif.Props.PartsSession

/-!
# C128: two transmons in one dictionary
-/

namespace SQ
open Matrix Spec

theorem cond_congr {O : Objs} {els els' : Elements} {n : ℕ} (h1 : junctionEdges O els = junctionEdges O els')
    (h2 : capacitances O els n = capacitances O els' n) (h : WellConditioned n (junctionInvCap O els n)) :
    WellConditioned n (junctionInvCap O els' n) := by
  unfold junctionInvCap junctionIncidence at h ⊢
  rw [h2] at h
  generalize junctionEdges O els' = l at *
  subst h1
  exact h

theorem two_apart (lib : ∀ n, NumLib n) (sv : SvdFn) (argsort : ArgsortFn) (argmax : ∀ k, ArgmaxFn k) :
    IslandValues { twoSpec false .junctions twoObjs [0] [2] [] (fun _ => LoopObj.init 0 0) lib sv argsort argmax (fun _ _ => 0) with
      els := [((0, 1), [0]), ((0, 2), [2])] } 2 twoVals := by
  have hi : TwoIslands twoObjs [0] [2] [] :=
    ⟨two_ex_islands.first, two_ex_islands.second, by simp, fun i h => two_ex_islands.noLoops i (by simp at h ⊢; tauto)⟩
  obtain ⟨e1, e2, -⟩ := two_ex_total
  have e3 : totalCap (twoObjs.withVals twoVals) [] = 0 := by simp [totalCap]
  have hv : TwoValues twoObjs [0] [2] [] twoVals := by
    refine ⟨fun i h => two_ex_values.pos i (by simp at h ⊢; tauto), ?_, ?_, ?_⟩
    · rw [e1, e2, e3]; norm_num
    · rw [e1, e3]; norm_num
    · rw [e2, e3]; norm_num
  obtain ⟨h1, h2⟩ := two_values (torch := false) (fd := .junctions) (h := fun _ => LoopObj.init 0 0) (lib := lib) (sv := sv)
    (argsort := argsort) (argmax := argmax) (draws := fun _ _ => 0) hi hv
  have hp : placements [((0, 1), [0]), ((0, 2), [2])] = placements (twoEls [0] [2] []) := by decide
  refine ⟨?_, ?_⟩
  · intro q hq
    exact h1 q (by
      change q ∈ placements (twoEls [0] [2] [])
      rw [← hp]
      exact hq)
  · refine cond_congr ?_ ?_ h2
    · show junctionEdges twoObjs (twoEls [0] [2] []) = junctionEdges twoObjs [((0, 1), [0]), ((0, 2), [2])]
      simp [junctionEdges, twoEls, twoObjs]
    · show capacitances (twoObjs.withVals twoVals) (twoEls [0] [2] []) 2 =
        capacitances (twoObjs.withVals twoVals) [((0, 1), [0]), ((0, 2), [2])] 2
      unfold capacitances
      rw [hp]

/-- the hypotheses can be met: transmons 0 (2 F) and 1 (3 F) and the dictionary with both of them, three charge states each;
the lowest frequency of the nine-dimensional circuit is the sum of the lowest frequencies of the transmons -/
theorem C128_example : ∃ (spec : CircId → CircSpec) (cM : CircSpec) (eigs : EigsFn) (as : List ℂ → List ℕ)
    (w0 : ∀ c, World (circPhys (spec c) eigs as)) (wM0 : World (circPhys cM eigs as)), EigsLowest eigs ∧ CArgsortSpec as ∧
    (spec 0).els = [((0, 1), [0])] ∧ (spec 1).els = [((0, 1), [2])] ∧ cM.els = [((0, 1), [0]), ((0, 2), [2])] ∧
    (∀ c, (spec c).O = cM.O) ∧
    (∀ c, construct (circPhys (spec c) eigs as) twoVals (fun _ => 0) 1 = .ok (w0 c)) ∧
    construct (circPhys cM eigs as) twoVals (fun _ => 0) 1 = .ok wM0 ∧
    (∃ F v, (diag (some 1) (run wM0 [.setTruncNums (.list [2, 2])])).1 = .ok ([F], v)) ∧
    (reported 1 (run wM0 [.setTruncNums (.list [2, 2])])).getD 0 0 =
      (reported 1 (run (w0 0) [.setTruncNums (.list [2])])).getD 0 0 + (reported 1 (run (w0 1) [.setTruncNums (.list [2])])).getD 0 0 := by
  choose lib hlib using exists_lib
  choose argmax hm using exists_argmax
  obtain ⟨argsort, hsrt⟩ := exists_argsort
  obtain ⟨eigs, he⟩ := exists_eigs_lowest
  obtain ⟨as, ha⟩ := exists_cargsort
  have hi := two_ex_islands
  have hv := two_ex_values
  let sp : CircId → CircSpec := fun c => parallelSpec false .junctions twoObjs (if c = 0 then [0] else [2]) (fun _ => LoopObj.init 0 0)
    lib exSv argsort argmax (fun _ _ => 0)
  let cM : CircSpec := { twoSpec false .junctions twoObjs [0] [2] [] (fun _ => LoopObj.init 0 0) lib exSv argsort argmax (fun _ _ => 0) with
      els := [((0, 1), [0]), ((0, 2), [2])] }
  have hrM : RoutinesOK cM := ⟨hlib, exSv_spec, hsrt, hm, le_refl 3⟩
  have hs : ∀ c, IslandCircuit (sp c) 1 ∧ RoutinesOK (sp c) ∧ IslandValues (sp c) 1 twoVals := by
    intro c
    obtain ⟨e1, e2, -⟩ := two_ex_total
    have key : ∀ l : List ElemId, l = [0] ∨ l = [2] → IslandCircuit (parallelSpec false .junctions twoObjs l (fun _ => LoopObj.init 0 0)
        lib exSv argsort argmax (fun _ _ => 0)) 1 ∧ IslandValues (parallelSpec false .junctions twoObjs l (fun _ => LoopObj.init 0 0)
        lib exSv argsort argmax (fun _ _ => 0)) 1 twoVals := by
      rintro l (rfl | rfl)
      · refine oe_island_circuit hi.first (fun i h => hi.noLoops i (Or.inl h)) ⟨fun i h => hv.pos i (Or.inl h), ?_⟩
        rw [e1]; norm_num
      · refine oe_island_circuit hi.second (fun i h => hi.noLoops i (Or.inr (Or.inl h))) ⟨fun i h => hv.pos i (Or.inr (Or.inl h)), ?_⟩
        rw [e2]; norm_num
    obtain ⟨a, b⟩ := key (if c = 0 then [0] else [2]) (by split_ifs <;> simp)
    exact ⟨a, ⟨hlib, exSv_spec, hsrt, hm, le_refl 3⟩, b⟩
  have hcaps : CapsOK twoObjs := by
    intro i
    unfold twoObjs
    simp only
    split_ifs <;> simp_all
  have hVM : IslandValues cM 2 twoVals := two_apart _ _ _ _
  have hels : cM.els = mergedEls (fun _ => 1) (fun c => (sp c).els) [0, 1] [] := rfl
  have hIM : IslandCircuit cM 2 := merged_island (vals := twoVals) (sz := fun _ => 1) (cs := [0, 1]) (cps := []) (by decide) (by simp)
    (fun c _ => (hs c).1) (fun _ _ => rfl) hels (by simp) (by simp) rfl
  choose w0 hw using fun c => (C93_session _ 1 (hs c).1 (hs c).2.1 hcaps eigs as twoVals (hs c).2.2 (fun _ => 0) 1)
  obtain ⟨wM0, hwM, -⟩ := C93_session _ 2 hIM hrM hcaps eigs as twoVals hVM (fun _ => 0) 1
  obtain ⟨ws, wsM, -, -, hl, hd, -, hlow⟩ := C128_constructed he ha sp (fun _ => 1) [0, 1] (by decide) (by simp) cM (fun c _ => (hs c).1)
    (fun c _ => (hs c).2.1) (fun _ _ => rfl) hcaps hels hrM 2 rfl rfl twoVals (fun c _ => (hs c).2.2) hVM (fun _ _ => 0) (fun _ => 0) 1 w0
    (fun c _ => (hw c).1) wM0 hwM 2 (by norm_num)
  have hl' : wsM.length = 9 := hl
  refine ⟨sp, cM, eigs, as, w0, wM0, he, ha, rfl, rfl, rfl, fun _ => rfl, fun c => (hw c).1, hwM, ?_, ?_⟩
  · obtain ⟨v, h1⟩ := hd 1 le_rfl (by rw [hl']; norm_num)
    obtain ⟨a, l, e⟩ := List.exists_cons_of_length_pos (l := wsM) (by rw [hl']; norm_num)
    rw [e] at h1
    exact ⟨_, v, h1⟩
  · refine (hlow (by intro c _; decide)).trans ?_
    simp only [List.map_cons, List.map_nil, List.sum_cons, List.sum_nil, add_zero]
    rfl

end SQ
