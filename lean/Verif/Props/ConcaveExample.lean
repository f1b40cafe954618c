import Verif.Props.Concave

/-!
# C138: a SQUID
-/

namespace SQ
open Matrix Complex SQ.Spec

/-- the hypotheses can be met: a SQUID with truncation number 4 (7 charge states), one junction at 1, 2 and 3 -/
theorem C138_example : ∃ (c : CircSpec) (eigs : EigsFn) (as : List ℂ → List ℕ) (w0 : World (circPhys c eigs as)),
    EigsLowest eigs ∧ CArgsortSpec as ∧ NoSelfLoops c.els ∧ (c.O.elem 0).kind = .jj ∧
    construct (circPhys c eigs as) (fun _ => 1) (fun _ => 0) 1 = .ok w0 ∧
    ∃ F F1 F2 v v1 v2, (diag (some 3) (run w0 [.setTruncNums (.list [4]), .setValue 0 2])).1 = .ok (F, v) ∧
      (diag (some 3) (run w0 [.setTruncNums (.list [4]), .setValue 0 1])).1 = .ok (F1, v1) ∧
      (diag (some 3) (run w0 [.setTruncNums (.list [4]), .setValue 0 3])).1 = .ok (F2, v2) ∧
      F.length = 3 ∧ F1.length = 3 ∧ F2.length = 3 ∧
      (F1.getD 0 0 + F2.getD 0 0) / 2 ≤ F.getD 0 0 ∧
      (F1.getD 0 0 + F1.getD 1 0 + (F2.getD 0 0 + F2.getD 1 0)) / 2 ≤ F.getD 0 0 + F.getD 1 0 := by
  choose lib hlib using exists_lib
  choose argmax hm using exists_argmax
  obtain ⟨argsort, hsrt⟩ := exists_argsort
  obtain ⟨eigs, he⟩ := exists_eigs_lowest
  obtain ⟨as, ha⟩ := exists_cargsort
  have hj : OnlyJunctions squidObjs [4, 0, 2] := by
    refine ⟨?_, 0, by simp, rfl⟩
    intro i hi
    simp at hi
    rcases hi with rfl | rfl | rfl <;> decide
  obtain ⟨b, hb0, hk0, -, -⟩ := C92_squid false .junctions squidObjs [4, 0, 2] 0 2 0 (by decide) rfl rfl rfl rfl
    (fun _ => LoopObj.init 0 0) lib hlib exSv exSv_spec argsort hsrt argmax hm (fun _ _ => 0) _ squid_values
  have hcon : ∃ w0, construct (circPhys (parallelSpec false .junctions squidObjs [4, 0, 2] (fun _ => LoopObj.init 0 0) lib exSv
      argsort argmax (fun _ _ => 0)) eigs as) (fun _ => 1) (fun _ => 0) 1 = .ok w0 := by
    unfold construct
    rw [show (circPhys (parallelSpec false .junctions squidObjs [4, 0, 2] (fun _ => LoopObj.init 0 0) lib exSv
      argsort argmax (fun _ _ => 0)) eigs as).build (fun _ => 1) = .ok b from hb0]
    exact ⟨_, rfl⟩
  obtain ⟨w0, hw⟩ := hcon
  have hgood := oe_good (vals := fun _ => 1) (torch := false) (fd := .junctions) (h := fun _ => LoopObj.init 0 0)
    (sv := exSv) (argsort := argsort) (draws := fun _ _ => 0) hj hlib hm squid_values
  have hb : buildCirc _ _ = .ok w0.circ.bd := (construct_build hw).1
  obtain rfl : b = w0.circ.bd := Except.ok.inj (hb0.symm.trans hb)
  obtain ⟨hk, -, -, hom, -⟩ := oe_facts (fd := .junctions) (torch := false) hj hlib exSv_spec hsrt hm squid_values hb
  have hinds := (oe_juns (fd := .junctions) (torch := false) hj hgood.noSelf hb).1
  have hu : w0.unitFreq = 1 := by
    have hw' := hw
    unfold construct at hw'
    split at hw'
    · cases hw'
    · injection hw' with hw'
      rw [← hw']
  have hok : (setTruncNums (.list [4]) w0).1 = .ok () := (C42_constructed hw [4] hk.symm (by simp)).1
  have hbd : (run w0 [.setTruncNums (.list [4])]).circ.bd = w0.circ.bd := run_bd _ w0 (by simp)
  have hst : (run w0 [.setTruncNums (.list [4])]).circ.m = dimsOf _ w0.circ.bd [4] ∧
      (run w0 [.setTruncNums (.list [4])]).unitFreq = w0.unitFreq ∧ (run w0 [.setTruncNums (.list [4])]).vals = w0.vals := by
    show (setTruncNums (.list [4]) w0).2.circ.m = _ ∧
      (setTruncNums (.list [4]) w0).2.unitFreq = _ ∧ (setTruncNums (.list [4]) w0).2.vals = _
    rcases setTruncNums_cases (.list [4]) w0 with ⟨h1, -⟩ | ⟨nums, hn, -, ⟨e, h1, -⟩ | ⟨mem, hmem, -, h2⟩⟩
    · rw [h1] at hok; cases hok
    · rw [h1] at hok; cases hok
    injection hn with hn
    subst hn
    rw [h2]
    exact ⟨rfl, rfl, rfl⟩
  have ho : Orderly w0 [.setTruncNums (.list [4])] := ⟨fun _ => Or.inl hok, trivial⟩
  have hn1 : (circPhys _ eigs as).nModes w0.circ.bd = 1 := hk
  have hnc : (circPhys _ eigs as).isCharge w0.circ.bd 0 = true := by
    show Build.isCharge w0.circ.bd 0 = true
    unfold Build.isCharge
    rw [dif_pos (by omega)]
    simp [hom]
  have hm0 : (run w0 [.setTruncNums (.list [4])]).circ.m ≠ [] := by
    rw [hst.1]
    unfold dimsOf
    rw [hn1]
    simp
  have hu' : 0 < (run w0 [.setTruncNums (.list [4])]).unitFreq := by rw [hst.2.1, hu]; norm_num
  have hcard : Fintype.card (Idx ((run w0 [.setTruncNums (.list [4])]).circ.bd.dims
      (run w0 [.setTruncNums (.list [4])]).circ.m)) = 7 := by
    have h1 := card_dims (run w0 [.setTruncNums (.list [4])]) [4]
    rw [hbd] at h1
    rw [hst.1, hbd]
    refine h1.trans ?_
    unfold spaceDim dimsOf
    rw [hbd, hn1]
    simp [hnc]
  have hvals : w0.vals = fun _ => 1 := by
    have hw' := hw
    unfold construct at hw'
    split at hw'
    · cases hw'
    · injection hw' with hw'
      rw [← hw']
  have hJC : ∀ x : ℝ, JunctionCalls squidObjs [.setValue 0 x] := by
    intro y x hx
    rw [List.mem_singleton] at hx
    exact ⟨0, y, hx, rfl⟩
  refine ⟨_, eigs, as, w0, he, ha, hgood.noSelf, rfl, hw, ?_⟩
  have hv : ∀ x : ℝ, (run w0 ([.setTruncNums (.list [4])] ++ [.setValue 0 x])).vals = fun i => if i = 0 then x else 1 := by
    intro x
    rw [run_append]
    show Function.update (run w0 [.setTruncNums (.list [4])]).vals 0 x = _
    rw [hst.2.2, hvals]
    funext i
    rw [Function.update_apply]
  obtain ⟨F, F1, F2, v, v1, v2, h1, h2, h3, h4, h5, h6, h7⟩ := C138_concave he ha hgood.noSelf (fun _ => 1) (fun _ => 0) 1 w0 hw
      [.setTruncNums (.list [4])] ho hm0 hu' [.setValue 0 2] [.setValue 0 1] [.setValue 0 3] (hJC 2) (hJC 1) (hJC 3)
      (1 / 2) (by norm_num) (by norm_num) (by
        intro i _
        rw [hv, hv, hv]
        simp only
        split <;> norm_num) 3 (by norm_num) (by rw [hcard]; norm_num)
  refine ⟨F, F1, F2, v, v1, v2, h1, h2, h3, h4, h5, h6, ?_, ?_⟩
  · have := h7 1 (by norm_num)
    simp only [Finset.sum_range_one] at this
    linarith
  · have := h7 2 (by norm_num)
    simp only [Finset.sum_range_succ, Finset.sum_range_zero, zero_add] at this
    linarith

end SQ
