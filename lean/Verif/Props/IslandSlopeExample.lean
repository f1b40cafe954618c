import Verif.Props.IslandSlopeSession

/-!
# C116: examples
-/

namespace SQ
open Matrix Spec Filter
open scoped Topology

/-- the hypotheses can be met: a Cooper pair box under PyTorch with 5 charge states; the capacitor is the one attached
to its junction, and the two lowest levels are differentiated -/
theorem C116_example : ∃ (c : CircSpec) (eigs : EigsFn) (as : List ℂ → List ℕ) (w0 : World (circPhys c eigs as)) (h : List Act)
    (F : ℝ → List ℝ) (r : ℝ), construct (circPhys c eigs as) (fun _ => 1) (fun _ => 0) 1 = .ok w0 ∧ Orderly w0 h ∧
    (run w0 h).circ.m = [5] ∧
    (∀ᶠ x in 𝓝 1, ∃ v, (diag (some 3) (run w0 (h ++ [.setValue 1 x, .update]))).1 = .ok (F x, v)) ∧
    HasDerivAt (fun x => (F x).getD 1 0 - (F x).getD 0 0) r 1 := by
  choose lib hlib using exists_lib
  choose argmax hm using exists_argmax
  obtain ⟨argsort, hsrt⟩ := exists_argsort
  obtain ⟨eigs, he⟩ := exists_eigs_lowest
  obtain ⟨as, ha⟩ := exists_cargsort
  obtain ⟨w0, hw, -⟩ := C97_transmon true .junctions boxObjs [0] box_junctions box_caps (by simp [boxObjs])
    (fun _ => LoopObj.init 0 0) lib hlib exSv exSv_spec argsort hsrt argmax hm (fun _ _ => 0) eigs as he ha (fun _ => 1)
    box_values (fun _ => 0) 1
  have hb : buildCirc _ _ = .ok w0.circ.bd := (construct_build hw).1
  obtain ⟨hk, -, -, hom, -⟩ := oe_facts (fd := .junctions) (torch := true) box_junctions hlib exSv_spec hsrt hm box_values hb
  have ht := C42_constructed hw [3] hk.symm (by simp)
  obtain ⟨t1, t2, t3⟩ := truncOne ht.1
  have ho1 : Orderly w0 [.setTruncNums (.list [3])] := ⟨fun _ => Or.inl ht.1, trivial⟩
  have hmm : dimsOf (circPhys _ eigs as) w0.circ.bd [3] = [5] := by
    have hnc : (circPhys _ eigs as).isCharge w0.circ.bd 0 = true := by
      show Build.isCharge w0.circ.bd 0 = true
      unfold Build.isCharge
      rw [dif_pos (by omega)]
      simp [hom]
    have hn1 : (circPhys _ eigs as).nModes w0.circ.bd = 1 := hk
    unfold dimsOf
    rw [hn1]
    simp [hnc]
  have hm1 : (run w0 [.setTruncNums (.list [3])]).circ.m = [5] := t3.trans hmm
  have hv0 : w0.vals = (fun _ => 1) ∧ w0.unitFreq = 1 := by
    have hw' := hw
    unfold construct at hw'
    split at hw'
    · cases hw'
    · injection hw' with hw'
      rw [← hw']
      exact ⟨rfl, rfl⟩
  have hv1 : (run w0 [.setTruncNums (.list [3])]).vals = fun _ => 1 := by
    funext i
    rw [(C81_value w0 i).2 _ (by simp), hv0.1]
  have hu1 : (run w0 [.setTruncNums (.list [3])]).unitFreq = 1 :=
    ((exec_inputs (.setTruncNums (.list [3])) w0).2.2.1 (by simp)).trans hv0.2
  obtain ⟨F, ev, a, dH, f1, f2, f3, f4, f5⟩ := C116_transmon true .junctions boxObjs [0] box_junctions box_caps (by
      intro i
      unfold boxObjs
      by_cases h : i = 0 <;> simp [h]) (by simp [boxObjs])
    (fun _ => LoopObj.init 0 0) lib hlib exSv exSv_spec argsort hsrt argmax hm (fun _ _ => 0) eigs as he ha (fun _ => 1)
    box_values (fun _ => 0) 1 w0 hw [.setTruncNums (.list [3])] ho1 (by
      intro h1 h2 hx
      have : Act.update ∈ [Act.setTruncNums (.list [3])] := by rw [hx]; simp
      simp at this) 1 (by simp [boxObjs]) (Or.inl rfl) (by intro i; rw [hv1]; rfl) (by rw [hv1]; exact box_values)
    (by rw [hv1]; simp [boxObjs]) (by rw [hu1]; norm_num) 5 3 hm1 (by norm_num) (by norm_num)
  obtain ⟨r, r', -, -, -, h4⟩ := f5 1 (by norm_num)
  rw [hv1] at f1 h4
  exact ⟨_, eigs, as, w0, _, F, _, hw, ho1, hm1, f1, h4⟩

/-- two coupled transmons of 2 F and 3 F meet the conditions on the circuit; the coupling capacitor 4 is attached to no
junction -/
example : ∃ c : CircSpec, IslandCircuit c 2 ∧ RoutinesOK c ∧ IslandValues c 2 twoVals ∧ c.torch = false ∧
    (Function.Injective fun i => junctionInvCap (c.O.withVals twoVals) c.els 2 i i) ∧ (c.O.elem 4).kind = .cap ∧
    ∀ q ∈ placements c.els, (c.O.elem q.2).kind ≠ .cap → (c.O.elem q.2).cap ≠ 4 := by
  choose lib hlib using exists_lib
  choose argmax hm using exists_argmax
  obtain ⟨argsort, ha⟩ := exists_argsort
  have hi := two_ex_islands
  have hv := two_ex_values
  refine ⟨twoSpec false .junctions twoObjs [0] [2] [4] (fun _ => LoopObj.init 0 0) lib exSv argsort argmax
      (fun _ _ => 0), two_island hi, ⟨hlib, exSv_spec, ha, hm, le_refl 3⟩, two_values hi hv, rfl, ?_, rfl, ?_⟩
  · have hlen : (junctionEdges twoObjs (twoEls [0] [2] [4])).length = 2 := by rw [two_edges hi]; rfl
    obtain ⟨e1, e2, e3⟩ := two_ex_total
    have hinv := two_invCap hi twoVals hlen (by rw [e1, e2, e3]; norm_num)
    rw [e1, e2, e3] at hinv
    show Function.Injective fun i => junctionInvCap (twoObjs.withVals twoVals) (twoEls [0] [2] [4]) 2 i i
    rw [hinv]
    intro i j hij
    have key : ∀ a b : Fin 2, twoInvCap 2 3 1 a a = twoInvCap 2 3 1 b b → a = b := by
      intro a b hab
      fin_cases a <;> fin_cases b <;> simp [twoInvCap] at hab ⊢ <;> norm_num at hab
    have := key (Fin.cast hlen i) (Fin.cast hlen j) hij
    exact Fin.cast_injective hlen this
  · intro q hq
    change q ∈ placements (twoEls [0] [2] [4]) at hq
    rw [two_placements] at hq
    simp at hq
    rcases hq with rfl | rfl | rfl <;> simp [twoSpec, twoObjs]

end SQ
