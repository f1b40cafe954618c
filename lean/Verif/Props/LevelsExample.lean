import Verif.Props.LevelsSession
import Verif.Props.Readers

/-!
# Concrete cases for C45, C89 and C90
-/

namespace SQ
open Matrix Complex SQ.Spec Filter Topology

/-- an eigensolver as assumed exists -/
theorem exists_eigs_lowest : ∃ eigs : EigsFn, EigsLowest eigs := by
  classical
  have h : ∀ (k : ℕ) (d : Fin k → ℕ) (H : Op d), H.IsHermitian →
      ∃ p : List (Idx d → ℂ) × List ℝ, Levels H p.1 p.2 := fun k d H hH => by
    obtain ⟨vs, ws, hl⟩ := levels_exists hH
    exact ⟨(vs, ws), hl⟩
  refine ⟨fun X num => if hX : X.2.2.IsHermitian then
      .ok (((List.zip ((h X.1 X.2.1 X.2.2 hX).choose.2.map (fun r : ℝ => (r : ℂ)))
        (h X.1 X.2.1 X.2.2 hX).choose.1).take num.toNat).map (fun p => (p.1, ⟨X.1, X.2.1, p.2⟩)))
    else .error .runtimeError, ?_⟩
  intro k d H num hH h1 hnum
  set p := (h k d H hH).choose with hp
  have hl : Levels H p.1 p.2 := (h k d H hH).choose_spec
  refine ⟨(List.zip (p.2.map (fun r : ℝ => (r : ℂ))) p.1).take num, ?_, ?_, p.1, p.2, hl, ?_⟩
  · simp only
    rw [dif_pos hH]
    simp [hp]
  · intro q hq
    have hq := List.mem_of_mem_take hq
    obtain ⟨i, hi, rfl⟩ := List.getElem_of_mem hq
    have hi2 : i < p.1.length := by
      rw [List.length_zip] at hi; omega
    simp only [List.getElem_zip, List.getElem_map]
    refine ⟨?_, hl.eigen i hi2⟩
    have := hl.orth ⟨i, hi2⟩ ⟨i, hi2⟩
    simpa [overlap] using this
  · have : ((List.zip (p.2.map (fun r : ℝ => (r : ℂ))) p.1).take num).map (fun q => q.1.re) = p.2.take num := by
      rw [List.map_take]
      congr 1
      have : (fun q : ℂ × (Idx d → ℂ) => q.1.re) = Complex.re ∘ Prod.fst := rfl
      rw [this, ← List.map_map, List.map_fst_zip (by rw [List.length_map, hl.len]), List.map_map]
      simp [Function.comp_def]
    rw [this]

/-- spectrum of an oscillator alone -/
theorem osc_levels : ∀ {k : ℕ} (_ : k = 1) (d : Fin k → ℕ) (i : Fin k) (om : ℝ), 0 ≤ om →
    ∃ vs, Levels ((om : ℂ) • (onMode d i (qCreate (d i)) * onMode d i (qDestroy (d i)))) vs
      ((List.range (d i)).map (fun n : ℕ => om * (n : ℝ))) := by
  rintro k rfl d i om hom
  obtain rfl : i = 0 := Subsingleton.elim _ _
  have e : onMode d 0 (qCreate (d 0)) * onMode d 0 (qDestroy (d 0)) =
      diagonal (fun x : Idx d => (((x 0 : Fin (d 0)) : ℕ) : ℂ)) := by
    have h1 : onMode d 0 (qCreate (d 0)) * onMode d 0 (qDestroy (d 0)) = onMode d 0 (qNum (d 0)) := by
      rw [← create_destroy]
      unfold onMode
      rw [tens_mul]
      congr 1
      funext j
      obtain rfl : j = 0 := Subsingleton.elim _ _
      simp
    rw [h1]
    ext x y
    unfold onMode tens
    simp only [Matrix.of_apply, Fin.prod_univ_one, Function.update_self, qNum, diagonal_apply]
    by_cases hxy : x = y
    · subst hxy; simp
    · rw [if_neg hxy, if_neg]
      intro h0
      apply hxy
      funext j
      obtain rfl : j = 0 := Subsingleton.elim _ _
      exact h0
  let idx : Fin (d 0) → Idx d := fun n j => Fin.cast (by rw [Subsingleton.elim j 0]) n
  have hcard : Fintype.card (Idx d) = d 0 := by
    unfold Idx
    simp
  have hidx0 : ∀ n, (idx n) 0 = n := fun n => by simp [idx]
  have hidx : ∀ n n', idx n = idx n' ↔ n = n' := fun n n' => by
    constructor
    · intro h; have := congrFun h 0; rwa [hidx0, hidx0] at this
    · rintro rfl; rfl
  refine ⟨List.ofFn (fun n : Fin (d 0) => Pi.single (idx n) (1 : ℂ)), ⟨⟨?_, ?_, ?_, ?_⟩, ?_⟩⟩
  · simp [hcard]
  · simp
  · intro a b
    simp only [List.get_ofFn]
    rw [Finset.sum_eq_single (idx (Fin.cast (by simp) b))]
    · by_cases hab : a = b
      · subst hab; simp
      · rw [if_neg hab, Pi.single_apply, if_neg]
        · simp
        · rw [hidx]
          intro h
          apply hab
          have := congrArg Fin.val h
          exact Fin.ext (by simpa using this.symm)
    · intro x _ hx
      rw [Pi.single_apply (idx (Fin.cast _ b)), if_neg hx, mul_zero]
    · intro h; exact absurd (Finset.mem_univ _) h
  · intro a ha
    rw [e, smul_mulVec]
    funext x
    simp only [List.getElem_ofFn, List.getElem_map, List.getElem_range, Pi.smul_apply, smul_eq_mul,
      mulVec_diagonal, Pi.single_apply]
    split_ifs with hx
    · subst hx
      rw [hidx0]
      push_cast
      ring
    · simp
  · rw [List.pairwise_map]
    refine List.pairwise_lt_range.imp ?_
    intro a b hab
    exact mul_le_mul_of_nonneg_left (by exact_mod_cast hab.le) hom

theorem osc_simple {om : ℝ} (hom : 0 < om) (N m : ℕ) (hm : m < N) :
    SimpleLevel ((List.range N).map (fun n : ℕ => om * (n : ℝ))) m := by
  refine ⟨by simpa using hm, ?_⟩
  intro n hn hne he
  have hn : n < N := by simpa using hn
  simp [hn, hm] at he
  rcases he with h | h
  · exact hne h
  · exact hom.ne' h

/-- A fluxonium object truncated to five levels meets the hypotheses of the theorems on sessions; without
Josephson energy its frequencies are those of the oscillator, and level 1 is not degenerate: the slope
of the second frequency with respect to the junction's energy is what `get_partial_omega` returns. -/
theorem C90_example : ∃ (eigs : EigsFn) (as : List ℂ → List ℕ) (c : CircSpec) (vals : ElemId → ℝ)
    (w0 : World (circPhys c eigs as)) (h : List Act),
    EigsLowest eigs ∧ CArgsortSpec as ∧ NoSelfLoops c.els ∧
    construct (circPhys c eigs as) vals (fun _ => 0) 1 = .ok w0 ∧ Orderly w0 h ∧ (run w0 h).circ.m ≠ [] ∧
    3 + 1 < Fintype.card (Idx ((run w0 h).circ.bd.dims (run w0 h).circ.m)) ∧ (c.O.elem 2).kind = .jj ∧
    (run w0 h).circ.bd.loops = [0] ∧
    ∃ F v, (diag (some 3) (run w0 (h ++ [.setValue 2 0]))).1 = .ok (F, v) ∧ SimpleLevel F 1 := by
  choose lib hlib using exists_lib
  choose argmax hm using exists_argmax
  obtain ⟨argsort, -⟩ := exists_argsort
  obtain ⟨eigs, he⟩ := exists_eigs_lowest
  obtain ⟨as, ha⟩ := exists_cargsort
  set vals : ElemId → ℝ := fun i => if i = 0 then 2 else if i = 2 then 5 else 1 with hvals
  have hfv : FluxoniumValues vals := fx_example_values
  obtain ⟨b, hb, hk, -⟩ := C80_fluxonium false (fun _ => LoopObj.init 0 0) lib hlib exSv exSv_spec argsort argmax hm
    (fun _ _ => 0) vals hfv.1 hfv.2.1 hfv.2.2.1 hfv.2.2.2
  obtain ⟨-, -, hlo, hB, hom, -⟩ := fx_facts hlib exSv_spec hm hfv.1 hfv.2.1 hfv.2.2.1 hfv.2.2.2 hb
  have hgood := fx_good false (fun _ => LoopObj.init 0 0) hlib exSv argsort hm (fun _ _ => 0) hfv.1 hfv.2.1 hfv.2.2.1
  set c := fluxoniumSpec false (fun _ => LoopObj.init 0 0) lib exSv argsort argmax (fun _ _ => 0) with hc
  obtain ⟨w0, hw, hses⟩ := C80_session false (fun _ => LoopObj.init 0 0) lib hlib exSv exSv_spec argsort argmax hm
    (fun _ _ => 0) eigs as vals hfv (fun _ => 0) 1
  have hbb : w0.circ.bd = b := by
    have h0 : buildCirc _ _ = .ok w0.circ.bd := (construct_build hw).1
    rw [hb] at h0
    exact (Except.ok.inj h0).symm
  subst hbb
  have ht := C42_constructed hw [5] hk.symm (by simp)
  obtain ⟨t1, t2, t3⟩ := truncOne ht.1
  have ho1 : Orderly w0 [.setTruncNums (.list [5])] := ⟨fun _ => Or.inl ht.1, trivial⟩
  have hr1 : run w0 [.setTruncNums (.list [5])] = (setTruncNums (.list [5]) w0).2 := rfl
  set h2 : List Act := [.setTruncNums (.list [5]), .setValue 2 0] with hh2
  have ho2 : Orderly w0 h2 := ⟨fun _ => Or.inl ht.1, fun h => Or.inl rfl, trivial⟩
  have hmm : dimsOf (circPhys c eigs as) w0.circ.bd [5] = [5] := by
    have hnc : (circPhys c eigs as).isCharge w0.circ.bd 0 = false := by
      change Build.isCharge w0.circ.bd 0 = false
      unfold Build.isCharge
      have h0 : 0 < w0.circ.bd.M.keep.length := by rw [hk]; exact Nat.one_pos
      have hne : ¬ (w0.circ.bd.M.omega ⟨0, h0⟩ = 0) := by
        rw [hom ⟨0, h0⟩]
        unfold lcFrequency
        have : 0 < vals 0 * (vals 1 + vals 3) := mul_pos hfv.1 (add_pos hfv.2.1 hfv.2.2.1)
        exact (one_div_pos.2 (Real.sqrt_pos.2 this)).ne'
      rw [dif_pos h0]
      simp [hne]
    have hn1 : (circPhys c eigs as).nModes w0.circ.bd = 1 := hk
    unfold dimsOf
    rw [hn1]
    simp [hnc]
  have hm1 : (run w0 [.setTruncNums (.list [5])]).circ.m = [5] := t3.trans hmm
  have hm2 : (run w0 h2).circ.m = [5] := t3.trans hmm
  have hbd1 : (run w0 [.setTruncNums (.list [5])]).circ.bd = w0.circ.bd := t1
  have hbd2 : (run w0 h2).circ.bd = w0.circ.bd := t1
  have gen : ∀ (b : Build) (m : List ℤ), b = w0.circ.bd → m = [5] → Fintype.card (Idx (b.dims m)) = 5 ∧
      b.loops = [0] := by
    rintro _ _ rfl rfl
    refine ⟨?_, hlo⟩
    have : ∀ (k : ℕ) (d : Fin k → ℕ), k = 1 → (∀ i : Fin k, d i = ([5] : List ℤ).getD i 0) →
        Fintype.card (Idx d) = 5 := by
      rintro k d rfl hd
      have := hd 0
      unfold Idx
      simp at this ⊢
      exact_mod_cast this
    refine this _ _ hk ?_
    intro i
    have hi : (i : ℕ) = 0 := by have := i.isLt; omega
    simp [Build.dims, hi]
  refine ⟨eigs, as, c, vals, w0, [.setTruncNums (.list [5])], he, ha, hgood.noSelf, hw, ho1, ?_, ?_, rfl,
    (gen _ _ hbd1 hm1).2, ?_⟩
  · rw [hm1]; exact List.cons_ne_nil _ _
  · rw [(gen _ _ hbd1 hm1).1]; norm_num
  · have hne2 : (run w0 h2).circ.m ≠ [] := by rw [hm2]; exact List.cons_ne_nil _ _
    have hv0 : w0.vals = vals ∧ w0.unitFreq = 1 := by
      unfold construct at hw
      split at hw
      · cases hw
      · injection hw with hw
        rw [← hw]
        exact ⟨rfl, rfl⟩
    have hv2 : (run w0 h2).vals 2 = 0 :=
      (C81_value w0 2).1 [.setTruncNums (.list [5])] [] 0 (by simp)
    have hv2' : ∀ i, i ≠ 2 → (run w0 h2).vals i = vals i := by
      intro i hi
      rw [(C81_value w0 i).2 h2 (by simp [hh2, hi]), hv0.1]
    have hfv2 : FluxoniumValues (run w0 h2).vals := by
      unfold FluxoniumValues
      rw [hv2' 0 (by decide), hv2' 1 (by decide), hv2' 3 (by decide)]
      exact hfv
    obtain ⟨k, d, s, hk1, -, hs, hH⟩ := hses h2 ho2 (by
      intro h1 h2' hx
      have : Act.update ∈ h2 := by rw [hx]; simp
      simp [hh2] at this) (fun i hi => hv2' i hi) hfv2 hne2
    obtain ⟨k', d', H', hH', -, hlow⟩ := C45_lowest he ha hgood.noSelf vals (fun _ => 0) 1 w0 hw h2 ho2 hne2 3 (by norm_num)
    obtain ⟨-, -, -, hham⟩ := ham_now (c := c) (eigs := eigs) (as := as) hgood.noSelf hw ho2 hne2
    have hdim : Fintype.card (Idx d') = 5 := by
      have h3 := hham _ rfl
      rw [hH'] at h3
      cases hf : fullHamiltonian (run w0 h2).circ.bd.C (run w0 h2).circ.bd.M
          (Build.dims (run w0 h2).circ.bd (run w0 h2).circ.m)
          (fun i => ((run w0 h2).circ.ng i).getD 0) (run w0 h2).vals (Build.fluxes (run w0 h2).circ.bd (run w0 h2).flux)
          (run w0 h2).circ.bd.inds (run w0 h2).circ.bd.juns with
      | error e => rw [hf] at h3; cases h3
      | ok X =>
        rw [hf] at h3
        injection h3 with h3
        injection h3 with h4 h5
        subst h4
        have h6 := eq_of_heq h5
        injection h6 with h7 h8
        rw [h7]
        exact (gen _ _ hbd2 hm2).1
    have i : Fin k := ⟨0, by omega⟩
    have hsame := hH i
    rw [hH'] at hsame
    injection hsame with h3
    injection h3 with h4 h5
    subst h4
    have h6 := eq_of_heq h5
    injection h6 with h7 h8
    subst h7
    have h8 := eq_of_heq h8
    set om := lcFrequency ((run w0 h2).vals 0) ((run w0 h2).vals 1 + (run w0 h2).vals 3) with homd
    have hompos : 0 < om := by
      rw [homd]
      unfold lcFrequency
      have := mul_pos hfv2.1 (add_pos hfv2.2.1 hfv2.2.2.1)
      exact one_div_pos.2 (Real.sqrt_pos.2 this)
    obtain ⟨vs, hl⟩ := osc_levels hk1 d' i om hompos.le
    have h9 : H' = (om : ℂ) • (onMode d' i (qCreate (d' i)) * onMode d' i (qDestroy (d' i))) := by
      rw [h8]
      unfold fluxoniumHamiltonian
      simp only [hv2, Complex.ofReal_zero, zero_smul, sub_zero]
      rfl
    rw [← h9] at hl
    have hlen5 : d' i = 5 := by
      have := hl.len.trans hl.card
      rw [hdim] at this
      simpa using this
    obtain ⟨ev, w', hdg, -⟩ := hlow vs _ hl (by simp [hlen5])
    refine ⟨_, _, congrArg Prod.fst hdg, ?_⟩
    have hu : (run w0 h2).unitFreq = 1 :=
      ((exec_inputs (.setTruncNums (.list [5])) w0).2.2.1 (by simp)).trans hv0.2
    have hF : (((List.range (d' i)).map (fun n : ℕ => om * (n : ℝ))).take 3).map
        (fun f => f / (2 * Real.pi * (run w0 h2).unitFreq)) =
        (List.range 3).map (fun n : ℕ => om / (2 * Real.pi) * (n : ℝ)) := by
      rw [hu, hlen5, ← List.map_take, List.take_range, List.map_map]
      refine List.map_congr_left fun n _ => ?_
      simp only [Function.comp_apply]
      ring
    have := osc_simple (om := om / (2 * Real.pi)) (div_pos hompos (by positivity)) 3 1 (by norm_num)
    rw [← hF] at this
    exact this

theorem exH_hermitian (t : ℝ) : (exH t).IsHermitian := by
  ext i j; fin_cases i <;> fin_cases j <;> simp [exH, ← Complex.ofReal_cos, ← Complex.ofReal_sin]

theorem exH_spectrum {vs : List (Fin 2 → ℂ)} {ws : List ℝ} (hl : Levels (exH 0) vs ws) :
    ws = [-1, 1] ∧ ∀ m < 2, SimpleLevel ws m := by
  have h0 : ws = [-1, 1] := levels_unique hl ⟨exEvecs_basis, by norm_num⟩
  refine ⟨h0, ?_⟩
  rintro m hm
  rw [h0]
  refine ⟨hm, ?_⟩
  intro n hn hne
  have hn : n < 2 := hn
  interval_cases m <;> interval_cases n <;> simp_all <;> norm_num

/-- the two-level system of C60: its upper level 1 + t, whose slope is 1 -/
example : ∃ (vs : ℝ → List (Fin 2 → ℂ)) (ws : ℝ → List ℝ), (∀ t, Levels (exH t) (vs t) (ws t)) ∧ ws 0 = [-1, 1] ∧
    SimpleLevel (ws 0) 1 ∧ ∃ r, partialOmega exEvecs exdH 1 false = .ok r ∧ HasDerivAt (fun t => (ws t).getD 1 0) r 0 := by
  have hh := exH_hermitian
  choose vs ws hl using fun t => levels_exists (hh t)
  obtain ⟨h0, hsim⟩ := exH_spectrum (hl 0)
  have hs := hsim 1 (by norm_num)
  refine ⟨vs, ws, hl, h0, hs, ?_⟩
  have hm : 1 < exEvecs.length := by decide
  have he := exEvecs_basis.eigen 1 hm
  have ho := exEvecs_basis.orth ⟨1, hm⟩ ⟨1, hm⟩
  refine C90_level (Eventually.of_forall hh) exH_deriv vs ws (Eventually.of_forall hl) 1 hs exEvecs _
    (List.getElem?_eq_getElem hm) (by simpa [overlap] using ho) ?_
  rw [h0]
  exact he

/-- and with one of its two states computed, `get_partial_vec` returns a vector whose error is at most
`‖dH ψ‖ / 2` -/
example : ∃ (vs : ℝ → List (Fin 2 → ℂ)) (ws : ℝ → List ℝ) (dpsi v : Fin 2 → ℂ),
    (∀ t, Levels (exH t) (vs t) (ws t)) ∧ partialVec ((vs 0).take 1) ((ws 0).take 1) exdH 0 0 = .ok v ∧
    ∑ a, ‖dpsi a - v a‖ ^ 2 ≤ (∑ a, ‖(exdH *ᵥ (vs 0).getD 0 0) a‖ ^ 2) / (1 - (-1)) ^ 2 := by
  have hh := exH_hermitian
  choose vs ws hl using fun t => levels_exists (hh t)
  obtain ⟨h0, hsim⟩ := exH_spectrum (hl 0)
  have hlen : (vs 0).length = 2 := (hl 0).card
  obtain ⟨z, dpsi, v, -, -, -, h1, -, -, -, h2⟩ := C89_projection (Eventually.of_forall hh) exH_deriv vs ws
    (Eventually.of_forall hl) 0 1 (hsim 0 (by norm_num)) (by norm_num) (by rw [hlen]; norm_num)
  refine ⟨vs, ws, dpsi, v, hl, h1, ?_⟩
  have := h2 (by rw [hlen]; norm_num)
  rw [h0] at this
  exact this

end SQ
