import Verif.Lemmas.Truncation
import Verif.Spec.Truncation
import Verif.Props.SimpleSpectrum

/-!
# C98: more charge states never raise a level, and the levels converge
-/

namespace SQ
open Matrix Complex SQ.Spec

section
variable {c : CircSpec} {eigs : EigsFn} {as : List ℂ → List ℕ}

theorem dims_widen {w : World (circPhys c eigs as)} {a b : List ℤ} (h : Refines w a b)
    (ha : ∀ i, i < w.circ.bd.M.keep.length → ¬ (dimsOf (circPhys c eigs as) w.circ.bd a).getD i 0 < 1) :
    Widens w.circ.bd.M.data (w.circ.bd.dims (dimsOf (circPhys c eigs as) w.circ.bd a))
      (w.circ.bd.dims (dimsOf (circPhys c eigs as) w.circ.bd b)) := by
  intro i
  have hi : (i : ℕ) < (circPhys c eigs as).nModes w.circ.bd := i.isLt
  have hg : ∀ l : List ℤ, (dimsOf (circPhys c eigs as) w.circ.bd l).getD i 0 =
      if (circPhys c eigs as).isCharge w.circ.bd i = true then 2 * l.getD i 0 - 1 else l.getD i 0 := by
    intro l
    unfold dimsOf
    rw [List.getD_eq_getElem?_getD, List.getElem?_map, List.getElem?_range hi]
    rfl
  have hr := h i hi
  have ha' := ha i i.isLt
  have hch : (circPhys c eigs as).isCharge w.circ.bd i = true ↔ w.circ.bd.M.data.omega i = 0 := by
    show Build.isCharge w.circ.bd i = true ↔ _
    unfold Build.isCharge
    rw [dif_pos i.isLt]
    simp [Modes.data]
  unfold Build.dims
  rw [hg] at ha' ⊢
  rw [hg]
  by_cases hc : (circPhys c eigs as).isCharge w.circ.bd i = true
  · rw [if_pos hc] at hr ha' ⊢
    rw [if_pos hc]
    refine Or.inl ⟨hch.1 hc, (b.getD i 0 - a.getD i 0).toNat, ?_⟩
    omega
  · rw [if_neg hc] at hr ha' ⊢
    rw [if_neg hc]
    refine Or.inr ⟨fun h => hc (hch.2 h), ?_⟩
    rw [hr]

theorem card_dims (w : World (circPhys c eigs as)) (a : List ℤ) :
    Fintype.card (Idx (w.circ.bd.dims (dimsOf (circPhys c eigs as) w.circ.bd a))) = spaceDim w a := by
  rw [Fintype.card_pi]
  simp only [Fintype.card_fin]
  unfold spaceDim Build.dims
  have hlen : ((dimsOf (circPhys c eigs as) w.circ.bd a).map Int.toNat).length = w.circ.bd.M.keep.length := by
    unfold dimsOf
    rw [List.length_map, List.length_map, List.length_range]
    rfl
  rw [← List.prod_ofFn]
  congr 1
  apply List.ext_getElem
  · rw [List.length_ofFn, hlen]
  · intro i h1 h2
    rw [List.getElem_ofFn, List.getElem_map, List.getD_eq_getElem?_getD, List.getElem?_eq_getElem (by
      rwa [List.length_map] at h2)]
    rfl

/-- the Hamiltonian after `set_trunc_nums` -/
theorem trunc_ham (hs : NoSelfLoops c.els) {vals : ElemId → ℝ} {flux : LoopId → ℝ} {u : ℝ}
    {w0 : World (circPhys c eigs as)} (hw : construct (circPhys c eigs as) vals flux u = .ok w0)
    {h : List Act} (hh : Orderly w0 h) {a : List ℤ} (hok : Accepts (run w0 h) a)
    (hne : dimsOf (circPhys c eigs as) (run w0 h).circ.bd a ≠ []) :
    ∃ H : Op ((run w0 h).circ.bd.dims (dimsOf (circPhys c eigs as) (run w0 h).circ.bd a)),
      fullHamiltonian (run w0 h).circ.bd.C (run w0 h).circ.bd.M _ (fun i => ((run w0 h).circ.ng i).getD 0) (run w0 h).vals
        ((run w0 h).circ.bd.fluxes (run w0 h).flux) (run w0 h).circ.bd.inds (run w0 h).circ.bd.juns = .ok H ∧
      H.IsHermitian ∧ (hamiltonian (run w0 (h ++ [.setTruncNums (.list a)]))).1 = .ok ⟨_, _, H⟩ ∧
      (run w0 (h ++ [.setTruncNums (.list a)])).circ.m ≠ [] ∧
      (run w0 (h ++ [.setTruncNums (.list a)])).unitFreq = (run w0 h).unitFreq ∧
      BuildOK (run w0 h).circ.bd ∧
      ∀ i, i < (run w0 h).circ.bd.M.keep.length → ¬ (dimsOf (circPhys c eigs as) (run w0 h).circ.bd a).getD i 0 < 1 := by
  have hok' : (setTruncNums (.list a) (run w0 h)).1 = .ok () := hok
  rcases setTruncNums_cases (.list a) (run w0 h) with ⟨h1, -⟩ | ⟨nums, hn, -, ⟨e, h1, -⟩ | ⟨mem, hmem, -, h2⟩⟩
  · rw [h1] at hok'; cases hok'
  · rw [h1] at hok'; cases hok'
  injection hn with hn
  subst hn
  have ho : Orderly w0 (h ++ [.setTruncNums (.list a)]) := orderly_append hh ⟨fun _ => Or.inl hok', trivial⟩
  have hr : run w0 (h ++ [.setTruncNums (.list a)]) = (setTruncNums (.list a) (run w0 h)).2 := by
    rw [run_append]; rfl
  have hnow := ham_now hs hw ho
  rw [hr, h2] at hnow
  obtain ⟨hbok, -, -, hham⟩ := hnow hne
  have hham := hham _ rfl
  have hpos : ∀ i, i < (run w0 h).circ.bd.M.keep.length →
      ¬ (dimsOf (circPhys c eigs as) (run w0 h).circ.bd a).getD i 0 < 1 := by
    intro i hi hlt
    have hmem' : Build.memOps (run w0 h).circ.bd (dimsOf (circPhys c eigs as) (run w0 h).circ.bd a)
      (run w0 h).circ.ng = .ok mem := hmem
    unfold Build.memOps at hmem'
    split at hmem'
    · cases hmem'
    · rw [if_pos ⟨i, hi, hlt⟩] at hmem'
      cases hmem'
  obtain ⟨H, hH, hherm⟩ := C40_hermitian (run w0 h).circ.bd.C (run w0 h).circ.bd.M hbok.1
    ((run w0 h).circ.bd.dims (dimsOf (circPhys c eigs as) (run w0 h).circ.bd a)) (fun i => ((run w0 h).circ.ng i).getD 0)
    (run w0 h).vals ((run w0 h).circ.bd.fluxes (run w0 h).flux) (run w0 h).circ.bd.inds (run w0 h).circ.bd.juns hbok.2
  refine ⟨H, hH, hherm, ?_, ?_, ?_, hbok, hpos⟩
  · rw [hr, h2]
    refine hham.trans ?_
    exact congrArg (Except.map fun H => (⟨_, _, H⟩ : Σ (k : ℕ) (d : Fin k → ℕ), Op d)) hH
  · rw [hr, h2]; exact hne
  · rw [hr, h2]

theorem dims_ne (w : World (circPhys c eigs as)) (a : List ℤ) {num : ℕ} (h : num + 1 < spaceDim w a) :
    dimsOf (circPhys c eigs as) w.circ.bd a ≠ [] := by
  intro h0
  unfold spaceDim at h
  rw [h0] at h
  simp at h

theorem getD_take_map {ws : List ℝ} {num : ℕ} (hn : num ≤ ws.length) (f : ℝ → ℝ) :
    ((ws.take num).map f).length = num ∧ ∀ i, i < num → ((ws.take num).map f).getD i 0 = f (ws.getD i 0) := by
  refine ⟨by rw [List.length_map, List.length_take]; omega, fun i hi => ?_⟩
  rw [List.getD_eq_getElem?_getD, List.getElem?_map, List.getElem?_take, if_pos hi, List.getD_eq_getElem?_getD,
    List.getElem?_eq_getElem (by omega)]
  rfl

/-- C98: in every reachable state, giving charge modes more states (`set_trunc_nums(b)` instead of
`set_trunc_nums(a)`, all other truncation numbers being equal) does not raise any of the frequencies returned by
`diag`. -/
theorem C98_more_charge_states (he : EigsLowest eigs) (ha : CArgsortSpec as) (hs : NoSelfLoops c.els)
    (vals : ElemId → ℝ) (flux : LoopId → ℝ) (u : ℝ)
    (w0 : World (circPhys c eigs as)) (hw : construct (circPhys c eigs as) vals flux u = .ok w0)
    (h : List Act) (hh : Orderly w0 h) (hu : 0 < (run w0 h).unitFreq) (a b : List ℤ)
    (hA : Accepts (run w0 h) a) (hB : Accepts (run w0 h) b) (hab : Refines (run w0 h) a b)
    (num : ℕ) (h1 : 1 ≤ num) (hnum : num + 1 < spaceDim (run w0 h) a) :
    ∃ F F' v v', (diag (some num) (run w0 (h ++ [.setTruncNums (.list a)]))).1 = .ok (F, v) ∧
      (diag (some num) (run w0 (h ++ [.setTruncNums (.list b)]))).1 = .ok (F', v') ∧
      F.length = num ∧ F'.length = num ∧ ∀ i, i < num → F'.getD i 0 ≤ F.getD i 0 := by
  obtain ⟨H, hH, hherm, hr, hm, hun, hbok, hpos⟩ := trunc_ham hs hw hh hA (dims_ne _ _ hnum)
  have hwid := dims_widen hab hpos
  have hcard : spaceDim (run w0 h) a ≤ spaceDim (run w0 h) b := by
    rw [← card_dims, ← card_dims]
    exact Fintype.card_le_of_injective _ (upIdx_inj hwid)
  obtain ⟨H', hH', hherm', hr', hm', hun', -, -⟩ := trunc_ham hs hw hh hB (dims_ne (num := num) _ _ (by omega))
  obtain ⟨vs, ws, ev, w1, hlev, hd, -⟩ := diag_lowest he ha hm hr hherm num h1 (by rw [card_dims]; exact hnum)
  obtain ⟨vs', ws', ev', w1', hlev', hd', -⟩ := diag_lowest he ha hm' hr' hherm' num h1 (by rw [card_dims]; omega)
  have hl : ws.length = spaceDim (run w0 h) a := by rw [← card_dims]; exact hlev.len.trans hlev.card
  have hl' : ws'.length = spaceDim (run w0 h) b := by rw [← card_dims]; exact hlev'.len.trans hlev'.card
  obtain ⟨g1, g2⟩ := getD_take_map (ws := ws) (num := num) (by omega)
    (fun f => f / (2 * Real.pi * (run w0 h).unitFreq))
  obtain ⟨g1', g2'⟩ := getD_take_map (ws := ws') (num := num) (by omega)
    (fun f => f / (2 * Real.pi * (run w0 h).unitFreq))
  refine ⟨_, _, _, _, by rw [hd, hun], by rw [hd', hun'], g1, g1', fun i hi => ?_⟩
  rw [g2 i hi, g2' i hi]
  have hsub := compress_ham _ _ hbok.1 hwid _ _ _ _ _ hbok.2 hH hH'
  rw [hsub] at hlev
  have := levels_compress (upIdx_inj hwid) hlev' hlev (m := i) (by omega)
  gcongr

theorem good_cInv {vals : ElemId → ℝ} (hc : GoodCircuit c vals) {b : Build} (hb : buildCirc c vals = .ok b) :
    b.M.cInv.PosSemidef := by
  obtain ⟨n, a, B, t, hn, htr, -, ht, rfl⟩ := buildCirc_stages hb
  obtain ⟨-, hC, hL⟩ := good_mats hc hn htr
  obtain ⟨hlib, hgap⟩ := hc.lib n a hn htr
  obtain ⟨-, hcI, -⟩ := C26_canonical_construction (c.lib n) c.sv c.argsort (c.argmax _) (hc.argmax _) c.draws _ _ _ hC
    hL.isHermitian _ hlib hgap c.fuel t ht
  have h1 : t.cInv.PosSemidef := by
    rw [hcI]
    have := hC.inv.posSemidef.conjTranspose_mul_mul_same t.R
    rwa [conjTranspose_eq_transpose_of_trivial] at this
  obtain ⟨-, -, -, h2⟩ := (C32_uncoupled_removal t).2.2 c.torch
  have : (finishModes c.torch t).cInv = t.cInv.submatrix (finishModes c.torch t).keep.get (finishModes c.torch t).keep.get := by
    ext i j
    exact (h2 i j).1
  show (finishModes c.torch t).cInv.PosSemidef
  rw [this]
  exact h1.submatrix _

theorem run_bd {P : Phys} : ∀ (h : List Act) (w : World P), (∀ x ∈ h, x ≠ .update) → (run w h).circ.bd = w.circ.bd
  | [], _, _ => rfl
  | x :: h, w, hx => (run_bd h _ fun y hy => hx y (List.mem_cons_of_mem _ hy)).trans
      (exec_bd x w (hx x (List.mem_cons_self ..)))

theorem list_upper : ∀ l : List ℤ, ∃ N, ∀ i, l.getD i 0 ≤ N
  | [] => ⟨0, fun i => by simp⟩
  | x :: l => by
    obtain ⟨N, hN⟩ := list_upper l
    refine ⟨max x N, fun i => ?_⟩
    cases i with
    | zero => simp
    | succ i => simpa using Or.inr (hN i)

/-- C98, continued: the frequency of every level converges as the truncation numbers of the charge modes grow (the
other truncation numbers being kept at `a0`), and every frequency computed on the way is an upper bound of the
limit. -/
theorem C98_convergence (he : EigsLowest eigs) (ha : CArgsortSpec as) (vals : ElemId → ℝ) (hc : GoodCircuit c vals)
    (flux : LoopId → ℝ) (u : ℝ)
    (w0 : World (circPhys c eigs as)) (hw : construct (circPhys c eigs as) vals flux u = .ok w0)
    (h : List Act) (hh : Orderly w0 h) (hup : ∀ x ∈ h, x ≠ .update) (hu : 0 < (run w0 h).unitFreq) (a0 : List ℤ) (p : ℕ) :
    ∃ E : ℝ, ∀ ε, 0 < ε → ∃ N : ℤ, ∀ N' a, Accepts (run w0 h) a → ChargeAtLeast (run w0 h) a0 N' a →
      ∀ num, p < num → num + 1 < spaceDim (run w0 h) a →
      ∃ F v, (diag (some num) (run w0 (h ++ [.setTruncNums (.list a)]))).1 = .ok (F, v) ∧ F.length = num ∧
        E ≤ F.getD p 0 ∧ (N ≤ N' → F.getD p 0 < E + ε) := by
  have hs := hc.noSelf
  have hb : buildCirc c vals = .ok w0.circ.bd := (construct_build hw).1
  have hbd := run_bd h w0 hup
  have hb' : buildCirc c vals = .ok (run w0 h).circ.bd := by rw [hbd]; exact hb
  have hval := build_valid hs hb'
  obtain ⟨K, hK⟩ := ham_below (run w0 h).circ.bd.C (run w0 h).circ.bd.M hval.1 (good_cInv hc hb')
    (fun i j hij hi => ⟨((C78_circuit c vals hc _ hb').2.1 i j hij hi).1, ((C78_circuit c vals hc _ hb').2.1 i j hij hi).2.1⟩)
    ((run w0 h).circ.bd.dims (dimsOf (circPhys c eigs as) (run w0 h).circ.bd a0)) (fun i => ((run w0 h).circ.ng i).getD 0)
    (run w0 h).vals ((run w0 h).circ.bd.fluxes (run w0 h).flux) (run w0 h).circ.bd.inds (run w0 h).circ.bd.juns hval.2
  -- computed values of level p
  let S : Set ℝ := {x | ∃ N' a, Accepts (run w0 h) a ∧ ChargeAtLeast (run w0 h) a0 N' a ∧
    dimsOf (circPhys c eigs as) (run w0 h).circ.bd a ≠ [] ∧
    ∃ (H : Op ((run w0 h).circ.bd.dims (dimsOf (circPhys c eigs as) (run w0 h).circ.bd a))) (vs : _) (ws : List ℝ),
      fullHamiltonian (run w0 h).circ.bd.C (run w0 h).circ.bd.M _ (fun i => ((run w0 h).circ.ng i).getD 0) (run w0 h).vals
        ((run w0 h).circ.bd.fluxes (run w0 h).flux) (run w0 h).circ.bd.inds (run w0 h).circ.bd.juns = .ok H ∧
      Levels H vs ws ∧ p < ws.length ∧ x = ws.getD p 0}
  have hdim : ∀ {N' a}, ChargeAtLeast (run w0 h) a0 N' a → ∀ j : Fin (run w0 h).circ.bd.M.keep.length,
      (run w0 h).circ.bd.M.omega j ≠ 0 →
      (run w0 h).circ.bd.dims (dimsOf (circPhys c eigs as) (run w0 h).circ.bd a) j =
        (run w0 h).circ.bd.dims (dimsOf (circPhys c eigs as) (run w0 h).circ.bd a0) j := by
    intro N' a hca j hj
    have hi : (j : ℕ) < (circPhys c eigs as).nModes (run w0 h).circ.bd := j.isLt
    have hnc : ¬ (circPhys c eigs as).isCharge (run w0 h).circ.bd j = true := by
      show ¬ Build.isCharge (run w0 h).circ.bd j = true
      unfold Build.isCharge
      rw [dif_pos j.isLt]
      simpa using hj
    have h2 := hca j hi
    rw [if_neg hnc] at h2
    unfold Build.dims dimsOf
    simp only [List.getD_eq_getElem?_getD, List.getElem?_map, List.getElem?_range hi, Option.map_some, Option.getD_some]
    rw [if_neg hnc, if_neg hnc]
    rw [List.getD_eq_getElem?_getD, List.getD_eq_getElem?_getD] at h2
    rw [h2]
  have hbelow : BddBelow S := by
    refine ⟨-K, ?_⟩
    rintro x ⟨N', a, -, hca, -, H, vs, ws, hH, hl, hp, rfl⟩
    exact levels_bounded (hK _ (hdim hca) H hH) hl hp
  have hscale : 0 < 2 * Real.pi * (run w0 h).unitFreq := by positivity
  -- comparison of two computations
  have hcmp : ∀ {N' a N'' b}, Accepts (run w0 h) a → ChargeAtLeast (run w0 h) a0 N' a →
      ChargeAtLeast (run w0 h) a0 N'' b → (∀ i, a.getD i 0 ≤ N'') → Refines (run w0 h) a b := by
    intro N' a N'' b _ h1 h2 h3 i hi
    have e1 := h1 i hi
    have e2 := h2 i hi
    split
    · rename_i hch
      rw [if_pos hch] at e2
      exact (h3 i).trans e2
    · rename_i hch
      rw [if_neg hch] at e1 e2
      rw [e1, e2]
  refine ⟨sInf S / (2 * Real.pi * (run w0 h).unitFreq), fun ε hε => ?_⟩
  obtain ⟨N, hN⟩ : ∃ N : ℤ, ∀ N' a, Accepts (run w0 h) a → ChargeAtLeast (run w0 h) a0 N' a → N ≤ N' →
      dimsOf (circPhys c eigs as) (run w0 h).circ.bd a ≠ [] →
      ∀ (H : Op ((run w0 h).circ.bd.dims (dimsOf (circPhys c eigs as) (run w0 h).circ.bd a))) vs (ws : List ℝ),
      fullHamiltonian (run w0 h).circ.bd.C (run w0 h).circ.bd.M _ (fun i => ((run w0 h).circ.ng i).getD 0) (run w0 h).vals
        ((run w0 h).circ.bd.fluxes (run w0 h).flux) (run w0 h).circ.bd.inds (run w0 h).circ.bd.juns = .ok H →
      Levels H vs ws → p < ws.length → ws.getD p 0 < sInf S + ε * (2 * Real.pi * (run w0 h).unitFreq) := by
    by_cases hS : S.Nonempty
    · obtain ⟨x, hx, hlt⟩ := exists_lt_of_csInf_lt hS (show sInf S < sInf S + ε * (2 * Real.pi * (run w0 h).unitFreq) by
        have := mul_pos hε hscale; linarith)
      obtain ⟨N1, a1, hA1, hca1, hne1, H1, vs1, ws1, hH1, hl1, hp1, rfl⟩ := hx
      obtain ⟨N, hN⟩ := list_upper a1
      refine ⟨N, fun N' a hA hca hNN hne H vs ws hH hl hp => lt_of_le_of_lt ?_ hlt⟩
      obtain ⟨-, -, -, -, -, -, -, hpos⟩ := trunc_ham hs hw hh hA1 hne1
      have hwid := dims_widen (hcmp hA1 hca1 hca fun i => (hN i).trans hNN) hpos
      have hsub := compress_ham _ _ hval.1 hwid _ _ _ _ _ hval.2 hH1 hH
      rw [hsub] at hl1
      exact levels_compress (upIdx_inj hwid) hl hl1 hp1
    · exact ⟨0, fun N' a hA hca _ hne H vs ws hH hl hp => absurd ⟨_, N', a, hA, hca, hne, H, vs, ws, hH, hl, hp, rfl⟩ hS⟩
  refine ⟨N, fun N' a hA hca num hpn hnum => ?_⟩
  have hne := dims_ne _ _ hnum
  obtain ⟨H, hH, hherm, hr, hm, hun, hbok, hpos⟩ := trunc_ham hs hw hh hA hne
  obtain ⟨vs, ws, ev, w1, hlev, hd, -⟩ := diag_lowest he ha hm hr hherm num (by omega) (by rw [card_dims]; exact hnum)
  have hl : ws.length = spaceDim (run w0 h) a := by rw [← card_dims]; exact hlev.len.trans hlev.card
  obtain ⟨g1, g2⟩ := getD_take_map (ws := ws) (num := num) (by omega)
    (fun f => f / (2 * Real.pi * (run w0 h).unitFreq))
  refine ⟨_, _, by rw [hd, hun], g1, ?_, fun hNN => ?_⟩
  · rw [g2 p hpn]
    have : sInf S ≤ ws.getD p 0 := csInf_le hbelow ⟨N', a, hA, hca, hne, H, vs, ws, hH, hlev, by omega, rfl⟩
    gcongr
  · rw [g2 p hpn]
    have := hN N' a hA hca hNN hne H vs ws hH hlev (by omega)
    rw [div_lt_iff₀ hscale, add_mul, div_mul_cancel₀ _ hscale.ne']
    exact this

end

/-- A Cooper pair box meets the hypotheses of C98: truncation numbers 3 and 7 (5 and 13 charge states), three levels. -/
theorem C98_example : ∃ (c : CircSpec) (eigs : EigsFn) (as : List ℂ → List ℕ) (w0 : World (circPhys c eigs as)),
    EigsLowest eigs ∧ CArgsortSpec as ∧ GoodCircuit c (fun _ => 1) ∧
    construct (circPhys c eigs as) (fun _ => 1) (fun _ => 0) 1 = .ok w0 ∧ 0 < w0.unitFreq ∧
    (∀ N : ℤ, 1 ≤ N → Accepts w0 [N] ∧ ChargeAtLeast w0 [] N [N] ∧ spaceDim w0 [N] = (2 * N - 1).toNat) ∧
    Refines w0 [3] [7] ∧
    ∃ F F' v v', (diag (some 3) (run w0 [.setTruncNums (.list [3])])).1 = .ok (F, v) ∧
      (diag (some 3) (run w0 [.setTruncNums (.list [7])])).1 = .ok (F', v') ∧
      F.length = 3 ∧ F'.length = 3 ∧ ∀ i, i < 3 → F'.getD i 0 ≤ F.getD i 0 := by
  choose lib hlib using exists_lib
  choose argmax hm using exists_argmax
  obtain ⟨argsort, hsrt⟩ := exists_argsort
  obtain ⟨eigs, he⟩ := exists_eigs_lowest
  obtain ⟨as, ha⟩ := exists_cargsort
  obtain ⟨w0, hw, -⟩ := C97_transmon false .junctions boxObjs [0] box_junctions box_caps (by simp [boxObjs])
    (fun _ => LoopObj.init 0 0) lib hlib exSv exSv_spec argsort hsrt argmax hm (fun _ _ => 0) eigs as he ha (fun _ => 1)
    box_values (fun _ => 0) 1
  have hgood := oe_good (vals := fun _ => 1) (torch := false) (fd := .junctions) (h := fun _ => LoopObj.init 0 0)
    (sv := exSv) (argsort := argsort) (draws := fun _ _ => 0) box_junctions hlib hm box_values
  have hb : buildCirc _ _ = .ok w0.circ.bd := (construct_build hw).1
  obtain ⟨hk, -, -, hom, -⟩ := oe_facts (fd := .junctions) (torch := false) box_junctions hlib exSv_spec hsrt hm box_values hb
  have hn1 : (circPhys _ eigs as).nModes w0.circ.bd = 1 := hk
  have hnc : (circPhys _ eigs as).isCharge w0.circ.bd 0 = true := by
    show Build.isCharge w0.circ.bd 0 = true
    unfold Build.isCharge
    rw [dif_pos (by omega)]
    simp [hom]
  have hu : w0.unitFreq = 1 := by
    have hw' := hw
    unfold construct at hw'
    split at hw'
    · cases hw'
    · injection hw' with hw'
      rw [← hw']
  have hall : ∀ N : ℤ, 1 ≤ N → Accepts w0 [N] ∧ ChargeAtLeast w0 [] N [N] ∧ spaceDim w0 [N] = (2 * N - 1).toNat := by
    intro N hN
    refine ⟨(C42_constructed hw [N] hk.symm (by simpa using hN)).1, ?_, ?_⟩
    · intro i hi
      rw [hn1] at hi
      obtain rfl : i = 0 := by omega
      rw [if_pos hnc]
      simp
    · unfold spaceDim dimsOf
      rw [hn1]
      simp [hnc]
  have href : Refines w0 [3] [7] := by
    intro i hi
    rw [hn1] at hi
    obtain rfl : i = 0 := by omega
    rw [if_pos hnc]
    simp
  refine ⟨_, eigs, as, w0, he, ha, hgood, hw, by rw [hu]; norm_num, hall, href, ?_⟩
  exact C98_more_charge_states he ha hgood.noSelf (fun _ => 1) (fun _ => 0) 1 w0 hw [] trivial (by
    show 0 < w0.unitFreq
    rw [hu]; norm_num) [3] [7] (hall 3 (by norm_num)).1 (hall 7 (by norm_num)).1 href 3 (by norm_num) (by
    show 3 + 1 < spaceDim w0 [3]
    rw [(hall 3 (by norm_num)).2.2]; decide)

end SQ
