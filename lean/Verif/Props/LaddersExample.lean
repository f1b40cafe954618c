import Verif.Props.Ladders
import Verif.Lemmas.Constructed

/-!
# C136: a junction next to an oscillator
-/

namespace SQ
open Matrix Spec

/-- the circuit under one engine after `set_trunc_nums` -/
theorem rung_session {eigs : EigsFn} {as : List ℂ → List ℕ} {sv : SvdFn} (hsv : SvdSpec sv) {argsort : ArgsortFn}
    (ha : ArgsortSpec argsort) (argmax : ∀ k, ArgmaxFn k) (torch : Bool) (nums : List ℤ) (hn : nums.length = (lcBuild torch).k)
    (hp : ∀ x ∈ nums, 1 ≤ x) :
    ∃ w0 : World (circPhys ((lcSpec false sv argsort argmax).under torch) eigs as),
      construct (circPhys ((lcSpec false sv argsort argmax).under torch) eigs as) lcVals (fun _ => 0) 1 = .ok w0 ∧
      Orderly w0 [.setTruncNums (.list nums)] ∧ (run w0 [.setTruncNums (.list nums)]).circ.bd = lcBuild torch ∧
      (run w0 [.setTruncNums (.list nums)]).vals = lcVals ∧ (run w0 [.setTruncNums (.list nums)]).flux = (fun _ => 0) ∧
      (run w0 [.setTruncNums (.list nums)]).circ.m = (List.range (lcBuild torch).k).map (fun i =>
        if (lcBuild torch).isCharge i then 2 * nums.getD i 0 - 1 else nums.getD i 0) ∧
      (run w0 [.setTruncNums (.list nums)]).circ.islands = fun i =>
        if i < (lcBuild torch).k ∧ (lcBuild torch).isCharge i = true then some (ChargeObj.init 0 1e-4) else none := by
  have hb : (circPhys ((lcSpec false sv argsort argmax).under torch) eigs as).build lcVals = .ok (lcBuild torch) :=
    lc_build_init hsv ha argmax torch
  obtain ⟨w0, hw, hbd, hv, hf, hi⟩ : ∃ w0 : World (circPhys ((lcSpec false sv argsort argmax).under torch) eigs as),
      construct (circPhys ((lcSpec false sv argsort argmax).under torch) eigs as) lcVals (fun _ => 0) 1 = .ok w0 ∧
      w0.circ.bd = lcBuild torch ∧ w0.vals = lcVals ∧ w0.flux = (fun _ => 0) ∧
      w0.circ.islands = fun i =>
        if i < (lcBuild torch).k ∧ (lcBuild torch).isCharge i = true then some (ChargeObj.init 0 1e-4) else none := by
    unfold construct
    rw [hb]
    exact ⟨_, rfl, rfl, rfl, rfl, rfl⟩
  have ht := C42_constructed hw nums (by rw [hbd]; exact hn) hp
  obtain ⟨t1, t2, t3⟩ := truncOne ht.1
  refine ⟨w0, hw, ⟨fun _ => .inl ht.1, trivial⟩, t1.trans hbd, ?_, t2.trans hf, ?_, ?_⟩
  · rw [← hv]
    funext i
    exact (C81_value w0 i).2 _ (by simp)
  · refine t3.trans ?_
    unfold dimsOf
    rw [hbd]
    rfl
  · rw [← hi]
    show (setTruncNums (.list nums) w0).2.circ.islands = _
    rcases setTruncNums_cases (.list nums) w0 with ⟨h, -⟩ | ⟨nums, -, -, ⟨e, -, h⟩ | ⟨mem, -, -, h⟩⟩ <;> (rw [h])

theorem rung_k : (lcBuild true).k = 2 := by
  change (finishModes true lcFinal).keep.length = 2
  rw [((C32_uncoupled_removal lcFinal).2.1).2]
  rfl

theorem rung_charge : (lcBuild true).isCharge 0 = false ∧ (lcBuild true).isCharge 1 = true := by
  have hk : (lcBuild true).M.keep.length = 2 := rung_k
  have hM : (lcBuild true).M = restrict lcFinal (List.finRange 2) := by
    show finishModes true lcFinal = _
    unfold finishModes
    rw [if_neg (by simp)]
  constructor
  · unfold Build.isCharge
    rw [dif_pos (by omega)]
    simp only [decide_eq_false_iff_not]
    show ¬ lcFinal.omega 0 = 0
    exact one_ne_zero
  · unfold Build.isCharge
    rw [dif_pos (by omega)]
    simp only [decide_eq_true_eq]
    show lcFinal.omega 1 = 0
    rfl

/-- the hypotheses of C136 can be met: a junction with its capacitor and, at another node, an inductor with a capacitor.
PyTorch, after `set_trunc_nums([4, 2])`, has the oscillator with 4 states and the charge mode with 3; NumPy, after
`set_trunc_nums([2])`, has the charge mode alone. -/
theorem C136_example : ∃ (eigs : EigsFn) (as : List ℂ → List ℕ) (c : CircSpec)
    (w0 : World (circPhys (c.under true) eigs as)) (w0' : World (circPhys (c.under false) eigs as)),
    EigsLowest eigs ∧ CArgsortSpec as ∧ GoodCircuit (c.under true) lcVals ∧
    construct (circPhys (c.under true) eigs as) lcVals (fun _ => 0) 1 = .ok w0 ∧
    construct (circPhys (c.under false) eigs as) lcVals (fun _ => 0) 1 = .ok w0' ∧
    Orderly w0 [.setTruncNums (.list [4, 2])] ∧ Orderly w0' [.setTruncNums (.list [2])] ∧
    let w := run w0 [.setTruncNums (.list [4, 2])]
    let w' := run w0' [.setTruncNums (.list [2])]
    w.circ.m = [4, 3] ∧ w'.circ.m = [3] ∧ w'.vals = w.vals ∧ w'.flux = w.flux ∧ w.circ.bd.nJ ≠ 0 ∧
    (∀ j, Untouched w.circ.bd j → w.circ.bd.M.omega j ≠ 0) ∧ NoInductorFlux w.circ.bd w.flux ∧
    (∃ j, Untouched w.circ.bd j) ∧ w'.circ.ng 0 = w.circ.ng 1 := by
  obtain ⟨eigs, he⟩ := exists_eigs_lowest
  obtain ⟨as, has⟩ := exists_cargsort
  obtain ⟨sv, hsv⟩ := exists_svdFn
  obtain ⟨argsort, ha⟩ := exists_argsort
  choose argmax ham using exists_argmax
  obtain ⟨w0, hw, ho, hbd, hv, hf, hm, hi⟩ := rung_session (eigs := eigs) (as := as) hsv ha argmax true [4, 2] rung_k.symm (by simp)
  obtain ⟨w0', hw', ho', hbd', hv', hf', hm', hi'⟩ := rung_session (eigs := eigs) (as := as) hsv ha argmax false [2]
    lcBuild_k.symm (by simp)
  have hk : (lcBuild true).M.keep.length = 2 := rung_k
  have c0 : (lcBuild false).isCharge 0 = true := by rw [lc_isCharge]; rfl
  have hw1 : ∀ i, (lcBuild true).M.w i ⟨1, by omega⟩ = 1 := by
    intro i
    fin_cases i
    rfl
  have hw2 : ∀ i, (lcBuild true).M.w i ⟨0, by omega⟩ = 0 := by
    intro i
    fin_cases i
    rfl
  have key : (∀ j, Untouched (lcBuild true) j → (lcBuild true).M.omega j ≠ 0) ∧ NoInductorFlux (lcBuild true) (fun _ => 0) ∧
      (∃ j, Untouched (lcBuild true) j) ∧ (lcBuild true).nJ ≠ 0 := by
    refine ⟨?_, ?_, ⟨⟨0, by omega⟩, hw2⟩, one_ne_zero⟩
    · intro j hj
      have hj2 : (j : ℕ) < 2 := lt_of_lt_of_eq j.isLt hk
      rcases Nat.lt_succ_iff_lt_or_eq.1 hj2 with h | h
      · have : j = ⟨0, by omega⟩ := Fin.ext (Nat.lt_one_iff.1 h)
        rw [this]
        show lcFinal.omega 0 ≠ 0
        exact one_ne_zero
      · have : j = ⟨1, by omega⟩ := Fin.ext h
        rw [this] at hj
        have := hj ⟨0, one_pos⟩
        rw [hw1] at this
        exact absurd this one_ne_zero
    · intro key _
      show extFlux _ _ _ = 0
      simp [extFlux]
  refine ⟨eigs, as, lcSpec false sv argsort argmax, w0, w0', he, has, lc_good true sv argsort ham, hw, hw', ho, ho', ?_, ?_, ?_, ?_, ?_, ?_,
    ?_, ?_, ?_⟩
  · rw [hm, rung_k]
    simp [List.range_succ, rung_charge.1, rung_charge.2]
  · rw [hm', lcBuild_k]
    simp [List.range_succ, c0]
  · exact hv'.trans hv.symm
  · exact hf'.trans hf.symm
  · exact hbd ▸ key.2.2.2
  · exact hbd ▸ key.1
  · rw [hf]
    exact hbd ▸ key.2.1
  · exact hbd ▸ key.2.2.1
  · unfold Circ.ng
    rw [hi, hi', rung_k, lcBuild_k]
    simp [c0, rung_charge.2]

end SQ
