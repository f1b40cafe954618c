import Verif.Props.HeldBound
import Verif.Props.GroundedExample

/-!
# C137: two coupled fluxonia
-/

namespace SQ
open Matrix Spec Real

/-- two coupled fluxonia meet the hypotheses of C137: their lowest frequencies are within the energies of their two junctions
of the sums of 1/√2 and 1/2 -/
theorem C137_example : ∃ (c : CircSpec) (eigs : EigsFn) (as : List ℂ → List ℕ) (w0 : World (circPhys c eigs as)),
    EigsLowest eigs ∧ CArgsortSpec as ∧ c.torch = false ∧
    c.els = [((0, 1), [0, 4]), ((0, 2), [2, 6]), ((1, 2), [8])] ∧
    HeldCircuit c 2 (fun _ => 1) ![√(1 / 2), 1 / 2] ![![1 / 2, 1 / 2], ![√(1 / 8), -√(1 / 8)]] ∧
    construct (circPhys c eigs as) (fun _ => 1) (fun _ => 0) 1 = .ok w0 ∧
    ∃ (ws : List ℝ) (ev : _), (diag (some 4) (run w0 [.setTruncNums (.list [3, 4])])).1 = .ok (ws.map (fun f => f / (2 * π * 1)), ev) ∧
      ws.length = 4 ∧ ∀ i < 4, |ws.getD i 0 - (lowest (fun x : ∀ j : Fin 2, Fin (([3, 4] : List ℤ).getD j 0).toNat =>
        √(1 / 2) * (x 0 : ℕ) + 1 / 2 * (x 1 : ℕ)) 4).getD i 0| ≤ 2 := by
  choose lib hlib using exists_lib
  choose argmax hm using exists_argmax
  obtain ⟨argsort, hsrt⟩ := exists_argsort
  obtain ⟨eigs, he⟩ := exists_eigs_lowest
  obtain ⟨as, ha⟩ := exists_cargsort
  have hn : numNodes heldEls = .ok 2 := rfl
  have hv : ValidElements 2 heldEls := by
    intro p hp
    simp [heldEls] at hp
    rcases hp with rfl | rfl | rfl <;> simp [ValidEdge]
  have hg : GroundConnected 2 heldEls := by
    intro k hk
    interval_cases k
    · exact .refl
    · exact .single ⟨((0, 1), [0, 4]), by simp [heldEls], by simp, by simp⟩
    · exact .single ⟨((0, 2), [2, 6]), by simp [heldEls], by simp, by simp⟩
  have hL : nodeInvInd 2 (heldObjs.withVals fun _ => 1) heldEls = 1 := by
    ext i j
    fin_cases i <;> fin_cases j <;>
      simp [nodeInvInd, placements, heldEls, placedInvInd, Objs.withVals, heldObjs, edgeMat, incidence]
  have hC : nodeCap 2 (heldObjs.withVals fun _ => 1) heldEls = !![3, -1; -1, 3] := by
    ext i j
    fin_cases i <;> fin_cases j <;>
      simp [nodeCap, placements, heldEls, held_placedCap, edgeMat, incidence] <;> norm_num
  have hheld : HeldCircuit (heldSpec heldEls lib argsort argmax) 2 (fun _ => 1) heldFreq heldPattern :=
    ⟨held_good hlib hm hn hv hg hL, hn, held_modes hC hL, .inr (.inr fun j =>
      held_coupled (q := ((0, 1), 4)) (by simp [heldSpec, heldEls, placements]) (by simp [heldObjs]) (by
        intro x
        simp [acrossEdge, incidence, Fin.sum_univ_two]) j)⟩
  have hloops : ∀ i : ElemId, (heldObjs.elem i).loops = [] := by
    intro i
    unfold heldObjs
    simp only
    split_ifs <;> rfl
  obtain ⟨w0, hw, ho, hlast, hvals, hfl, hmm, hu⟩ := held_session hheld hv le_rfl (fun q _ => hloops q.2) eigs as [3, 4]
    rfl (by simp)
  refine ⟨heldSpec heldEls lib argsort argmax, eigs, as, w0, he, ha, rfl, rfl, hheld, hw, ?_⟩
  have hnu : ∀ {h1 h2 : List Act}, [Act.setTruncNums (.list [3, 4])] = h1 ++ .update :: h2 → False := by
    intro h1 h2 h
    have : Act.update ∈ [Act.setTruncNums (.list [3, 4])] := by rw [h]; simp
    simp at this
  have key := C137_zero_flux he ha held_caps _ _ _ w0 hw _ ho ⟨_, _, hheld⟩ (fun h1 h2 h => (hnu h).elim)
    (fun i _ => hlast i) (by rw [hmm]; simp) hfl heldFreq heldPattern (by rw [hvals]; exact hheld) 4 (by norm_num) (by
      rw [hmm]; simp [Fin.prod_univ_two])
  simp only [hvals, hu] at key
  obtain ⟨ws, ev, h1, h2, h3⟩ := key
  refine ⟨ws, ev, h1, h2, fun i hi => ?_⟩
  have h4 := h3 i hi
  generalize (run w0 [Act.setTruncNums (.list [3, 4])]).circ.m = M at h4 hmm
  subst hmm
  simp only [Fin.sum_univ_two] at h4
  refine h4.trans (le_of_eq ?_)
  simp [heldSpec, heldEls, placements, heldObjs]
  try norm_num

end SQ
