import Verif.Props.Scaling
import Verif.Props.LevelsExample
import Verif.Props.Islands3
import Verif.Lemmas.ScalingValues

/-!
# C125: concrete circuits
-/

namespace SQ
open Matrix Spec

/-- the fluxonium after its construction and one `set_trunc_nums` -/
theorem fx_truncated {eigs as} (torch : Bool) (lo : LoopId → LoopObj) {lib : ∀ n, NumLib n}
    (hlib : ∀ n, ∀ C L : Matrix (Fin n) (Fin n) ℝ, C.PosDef → L.PosSemidef → LibSpec (lib n) C L)
    {sv : SvdFn} (hsv : SvdSpec sv) (argsort : ArgsortFn) {argmax : ∀ k, ArgmaxFn k}
    (hm : ∀ k, ArgmaxSpec (argmax k)) (draws : Draws) {vals : ElemId → ℝ} (hv : FluxoniumValues vals) {flux : LoopId → ℝ} {u : ℝ}
    {w0 : World (circPhys (fluxoniumSpec torch lo lib sv argsort argmax draws) eigs as)}
    (hw : construct (circPhys (fluxoniumSpec torch lo lib sv argsort argmax draws) eigs as) vals flux u = .ok w0)
    (t : ℤ) (ht : 1 ≤ t) :
    Orderly w0 [.setTruncNums (.list [t])] ∧ (run w0 [.setTruncNums (.list [t])]).circ.m = [t] ∧
    (run w0 [.setTruncNums (.list [t])]).vals = vals ∧ (run w0 [.setTruncNums (.list [t])]).flux = flux ∧
    (run w0 [.setTruncNums (.list [t])]).unitFreq = u := by
  obtain ⟨b, hb, hk, -⟩ := C80_fluxonium torch lo lib hlib sv hsv argsort argmax hm draws vals hv.1 hv.2.1 hv.2.2.1 hv.2.2.2
  obtain ⟨-, -, -, -, hom, -⟩ := fx_facts hlib hsv hm hv.1 hv.2.1 hv.2.2.1 hv.2.2.2 hb
  have hbb : w0.circ.bd = b := by
    have h0 : buildCirc _ _ = .ok w0.circ.bd := (construct_build hw).1
    rw [hb] at h0
    exact (Except.ok.inj h0).symm
  subst hbb
  have htr := C42_constructed hw [t] hk.symm (by simpa using ht)
  obtain ⟨t1, t2, t3⟩ := truncOne htr.1
  have hmm : dimsOf (circPhys (fluxoniumSpec torch lo lib sv argsort argmax draws) eigs as) w0.circ.bd [t] = [t] := by
    have hnc : (circPhys (fluxoniumSpec torch lo lib sv argsort argmax draws) eigs as).isCharge w0.circ.bd 0 = false := by
      change Build.isCharge w0.circ.bd 0 = false
      unfold Build.isCharge
      have h0 : 0 < w0.circ.bd.M.keep.length := by rw [hk]; exact Nat.one_pos
      have hne : ¬ (w0.circ.bd.M.omega ⟨0, h0⟩ = 0) := by
        rw [hom ⟨0, h0⟩]
        unfold lcFrequency
        have : 0 < vals 0 * (vals 1 + vals 3) := mul_pos hv.1 (add_pos hv.2.1 hv.2.2.1)
        exact (one_div_pos.2 (Real.sqrt_pos.2 this)).ne'
      rw [dif_pos h0]
      simp [hne]
    have hn1 : (circPhys (fluxoniumSpec torch lo lib sv argsort argmax draws) eigs as).nModes w0.circ.bd = 1 := hk
    unfold dimsOf
    rw [hn1]
    simp [hnc]
  have h0 : w0.vals = vals ∧ w0.flux = flux ∧ w0.unitFreq = u := by
    unfold construct at hw
    split at hw
    · cases hw
    · injection hw with hw
      rw [← hw]
      exact ⟨rfl, rfl, rfl⟩
  have hfr : (setTruncNums (.list [t]) w0).2.vals = w0.vals ∧ (setTruncNums (.list [t]) w0).2.unitFreq = w0.unitFreq := by
    unfold setTruncNums
    simp only
    split_ifs
    · exact ⟨rfl, rfl⟩
    · split <;> exact ⟨rfl, rfl⟩
  refine ⟨⟨fun _ => Or.inl htr.1, trivial⟩, t3.trans hmm, ?_, ?_, ?_⟩
  · exact hfr.1.trans h0.1
  · exact t2.trans h0.2.1
  · exact hfr.2.trans h0.2.2

/-- C125 for freshly constructed fluxonium objects truncated to `t` states. -/
theorem C125_fluxonium_constructed {eigs : EigsFn} {as : List ℂ → List ℕ} (he : EigsLowest eigs) (ha : CArgsortSpec as)
    (torch : Bool) (lo : LoopId → LoopObj) (lib : ∀ n, NumLib n)
    (hlib : ∀ n, ∀ C L : Matrix (Fin n) (Fin n) ℝ, C.PosDef → L.PosSemidef → LibSpec (lib n) C L)
    (sv : SvdFn) (hsv : SvdSpec sv) (argsort : ArgsortFn) (argmax : ∀ k, ArgmaxFn k)
    (hm : ∀ k, ArgmaxSpec (argmax k)) (draws : Draws) (vals vals' : ElemId → ℝ)
    (hv : FluxoniumValues vals) (lam : ℝ) (hlam : 0 < lam) (hsc : ScaledEnergies fluxoniumObjs lam vals vals')
    (flux : LoopId → ℝ) (u : ℝ) (t : ℤ) (num : ℕ) (h1 : 1 ≤ num) (hnum : num + 1 < t) :
    ∃ w0 w0', construct (circPhys (fluxoniumSpec torch lo lib sv argsort argmax draws) eigs as) vals flux u = .ok w0 ∧
      construct (circPhys (fluxoniumSpec torch lo lib sv argsort argmax draws) eigs as) vals' flux u = .ok w0' ∧
      ∃ F v v', (diag (some num) (run w0 [.setTruncNums (.list [t])])).1 = .ok (F, v) ∧
        (diag (some num) (run w0' [.setTruncNums (.list [t])])).1 = .ok (F.map (lam * ·), v') := by
  have hv' := fluxoniumValues_scaled hlam hsc hv
  obtain ⟨w0, hw, -⟩ := C80_session torch lo lib hlib sv hsv argsort argmax hm draws eigs as vals hv flux u
  obtain ⟨w0', hw', -⟩ := C80_session torch lo lib hlib sv hsv argsort argmax hm draws eigs as vals' hv' flux u
  obtain ⟨ho, hmm, hvv, hff, huu⟩ := fx_truncated torch lo hlib hsv argsort hm draws hv hw t (by omega)
  obtain ⟨ho', hmm', hvv', hff', huu'⟩ := fx_truncated torch lo hlib hsv argsort hm draws hv' hw' t (by omega)
  have hnoup : ∀ (h1 h2 : List Act), [Act.setTruncNums (.list [t])] = h1 ++ .update :: h2 → False := by
    intro h1 h2 he
    match h1, he with
    | [], he => simp at he
    | [_], he => simp at he
    | _ :: _ :: _, he => simp at he
  refine ⟨w0, w0', hw, hw', ?_⟩
  refine C125_fluxonium he ha torch torch lo lo lib lib hlib hlib sv hsv argsort argmax hm draws draws vals vals' hv hv'
    flux flux u u w0 hw w0' hw' _ _ ho ho' (fun h1 h2 e => (hnoup h1 h2 e).elim) (fun h1 h2 e => (hnoup h1 h2 e).elim)
    lam hlam ?_ ?_ ?_ ?_ ?_ ?_ ?_ ?_ ?_ ?_ num h1 ?_
  · intro i _; rw [hvv]; rfl
  · intro i _; rw [hvv']; rfl
  · rw [hvv]; exact hv
  · rw [hvv']; exact hv'
  · rw [hvv, hvv']; exact hsc
  · rw [hff, hff']
  · rw [hmm]; exact List.cons_ne_nil _ _
  · rw [hmm']; exact List.cons_ne_nil _ _
  · rw [hmm, hmm']
  · rw [huu, huu']
  · rw [hmm]
    change num + 1 < t.toNat
    omega

/-- the hypotheses can be met: the two coupled islands of `C93_example` with all energies doubled -/
theorem C125_example : ∃ (c : CircSpec) (eigs : EigsFn) (as : List ℂ → List ℕ) (w0 w0' : World (circPhys c eigs as)),
    EigsLowest eigs ∧ CArgsortSpec as ∧ c.els = [((0, 1), [0]), ((0, 2), [2]), ((1, 2), [4])] ∧
    construct (circPhys c eigs as) twoVals (fun _ => 0) 1 = .ok w0 ∧
    construct (circPhys c eigs as) (fun i => if i = 0 then 10 else if i = 1 then 1 else if i = 2 then 14 else
      if i = 3 then 3 / 2 else 1 / 2) (fun _ => 0) 1 = .ok w0' ∧
    ∃ F v v', (diag (some 4) (run w0 [.setTruncNums (.list [2, 2])])).1 = .ok (F, v) ∧
      (diag (some 4) (run w0' [.setTruncNums (.list [2, 2])])).1 = .ok (F.map (2 * ·), v') := by
  choose lib hlib using exists_lib
  choose argmax hm using exists_argmax
  obtain ⟨argsort, hsrt⟩ := exists_argsort
  obtain ⟨eigs, he⟩ := exists_eigs_lowest
  obtain ⟨as, ha⟩ := exists_cargsort
  have hi := two_ex_islands
  have hv := two_ex_values
  have hr : RoutinesOK (twoSpec false .junctions twoObjs [0] [2] [4] (fun _ => LoopObj.init 0 0) lib exSv argsort argmax
      (fun _ _ => 0)) := ⟨hlib, exSv_spec, hsrt, hm, le_refl 3⟩
  have hI : IslandCircuit (twoSpec false .junctions twoObjs [0] [2] [4] (fun _ => LoopObj.init 0 0) lib exSv argsort argmax
      (fun _ _ => 0)) 2 := two_island hi
  have hV : IslandValues (twoSpec false .junctions twoObjs [0] [2] [4] (fun _ => LoopObj.init 0 0) lib exSv argsort argmax
      (fun _ _ => 0)) 2 twoVals := two_values hi hv
  have hcaps : CapsOK twoObjs := by
    intro i
    change (twoObjs.elem (twoObjs.elem i).cap).kind ≠ .jj
    unfold twoObjs
    simp only
    split_ifs <;> simp_all
  have hsc : ScaledEnergies twoObjs 2 twoVals (fun i => if i = 0 then 10 else if i = 1 then 1 else if i = 2 then 14 else
      if i = 3 then 3 / 2 else 1 / 2) := by
    constructor
    · intro i hk
      by_cases h0 : i = 0
      · subst h0; norm_num [twoVals]
      · by_cases h2 : i = 2
        · subst h2; norm_num [twoVals]
        · simp [twoObjs, h0, h2] at hk
    · intro i hk
      have h0 : i ≠ 0 := by rintro rfl; exact hk rfl
      have h2 : i ≠ 2 := by rintro rfl; exact hk rfl
      simp only [twoVals, h0, h2, if_false]
      split_ifs <;> norm_num
  obtain ⟨b1, hb1, -⟩ := C93_constructed _ 2 hI hr twoVals hV
  obtain ⟨-, -, -, -, hP1, -⟩ := isl_built hI hr hV hb1
  have hV' := islandValues_scaled (c := twoSpec false .junctions twoObjs [0] [2] [4] (fun _ => LoopObj.init 0 0) lib exSv argsort
    argmax (fun _ _ => 0)) hcaps (by norm_num : (1 : ℝ) ≤ 2) hsc hP1 hV
  obtain ⟨w0, hw, -⟩ := C93_session _ 2 hI hr hcaps eigs as twoVals hV (fun _ => 0) 1
  obtain ⟨w0', hw', -⟩ := C93_session _ 2 hI hr hcaps eigs as _ hV' (fun _ => 0) 1
  exact ⟨_, eigs, as, w0, w0', he, ha, rfl, hw, hw',
    C125_constructed he ha (by norm_num) hI hr hcaps twoVals _ hV hV' 2 two_pos hsc _ _ 1 w0 hw w0' hw' 2
      (by norm_num) 4 (by norm_num) (by decide)⟩

/-- the hypotheses can be met: the fluxonium of L = 2, C = 1 + 1, E_J = 5, and the one of L = 4, C = 2 + 2, E_J = 5/2, with half
of its frequencies -/
example : ∃ (c : CircSpec) (eigs : EigsFn) (as : List ℂ → List ℕ) (w0 w0' : World (circPhys c eigs as)),
    c.els = [((0, 1), [0, 2])] ∧
    construct (circPhys c eigs as) (fun i => if i = 0 then 2 else if i = 2 then 5 else 1) (fun _ => 1) 1 = .ok w0 ∧
    construct (circPhys c eigs as) (fun i => if i = 0 then 4 else if i = 2 then 5 / 2 else 2) (fun _ => 1) 1 = .ok w0' ∧
    ∃ F v v', (diag (some 3) (run w0 [.setTruncNums (.list [5])])).1 = .ok (F, v) ∧
      (diag (some 3) (run w0' [.setTruncNums (.list [5])])).1 = .ok (F.map (1 / 2 * ·), v') := by
  choose lib hlib using exists_lib
  choose argmax hm using exists_argmax
  obtain ⟨argsort, -⟩ := exists_argsort
  obtain ⟨eigs, he⟩ := exists_eigs_lowest
  obtain ⟨as, ha⟩ := exists_cargsort
  have hsc : ScaledEnergies fluxoniumObjs (1 / 2) (fun i => if i = 0 then 2 else if i = 2 then 5 else 1)
      (fun i => if i = 0 then 4 else if i = 2 then 5 / 2 else 2) := by
    constructor
    · intro i hk
      have h2 : i = 2 := by
        by_contra h2
        by_cases h0 : i = 0 <;> simp [fluxoniumObjs, h0, h2] at hk
      subst h2
      norm_num
    · intro i hk
      have h2 : i ≠ 2 := by rintro rfl; exact hk (by simp [fluxoniumObjs])
      simp only [h2, if_false]
      split_ifs <;> norm_num
  obtain ⟨w0, w0', hw, hw', hF⟩ := C125_fluxonium_constructed he ha false (fun _ => LoopObj.init 0 0) lib hlib exSv exSv_spec argsort
    argmax hm (fun _ _ => 0) _ _ fx_example_values (1 / 2) (by norm_num) hsc (fun _ => 1) 1 5 3 (by norm_num) (by norm_num)
  exact ⟨_, eigs, as, w0, w0', rfl, hw, hw', hF⟩

end SQ
