import Verif.Props.ResonatorSlope
import Verif.Props.LinearExample

/-!
# C115: concrete resonators
-/

namespace SQ
open Matrix Spec

theorem res_sum (f : ElemId → ℝ) {n : ℕ} (hn : n = 1) (x y : Fin n) :
    ((placements resEls).map fun q => f q.2 • edgeMat n q.1).sum x y = ((placements resEls).map fun q => f q.2).sum :=
  edge_sum (els := resEls) (by intro p hp; simp [resEls] at hp; rw [hp]) hn f x y

/-- the resonator of `LinearExample` with any positive values -/
theorem res_good {lib : ∀ n, NumLib n} {argsort : ArgsortFn} {argmax : ∀ k, ArgmaxFn k}
    (hlib : ∀ n, ∀ C L : Matrix (Fin n) (Fin n) ℝ, C.PosDef → L.PosSemidef → LibSpec (lib n) C L)
    (hm : ∀ k, ArgmaxSpec (argmax k)) (v : ElemId → ℝ) (hv0 : ∀ i, 0 < v i) :
    GoodCircuit (pairSpec resEls lib argsort argmax) v ∧ ∃ b, buildCirc (pairSpec resEls lib argsort argmax) v = .ok b := by
  have hn : numNodes resEls = .ok 1 := rfl
  have hv : ValidElements 1 resEls := by
    intro p hp
    simp [resEls] at hp
    subst hp
    simp [ValidEdge]
  have hg : GroundConnected 1 resEls := by
    intro k hk
    interval_cases k
    · exact .refl
    · exact .single ⟨((0, 1), [0, 1]), by simp [resEls], by simp, by simp⟩
  have hL : nodeInvInd 1 (pairObjs.withVals v) resEls = diagonal fun _ => 1 / v 0 := by
    ext i j
    fin_cases i; fin_cases j
    simp [nodeInvInd, placements, resEls, placedInvInd, Objs.withVals, pairObjs, edgeMat, incidence]
  have hcp : ∀ i, 0 < placedCap (pairObjs.withVals v) i := by
    intro i
    unfold placedCap
    split <;> exact hv0 _
  have hgood : GoodCircuit (pairSpec resEls lib argsort argmax) v :=
    { noSelf := fun p hp => (hv p hp).1
      caps := fun q _ => hcp q.2
      inds := fun q _ _ => hv0 _
      ground := by
        intro n' hn'
        obtain rfl : n' = 1 := Except.ok.inj (hn'.symm.trans hn)
        exact hg
      argmax := hm
      lib := by
        intro n' a hn' htr
        obtain rfl : n' = 1 := Except.ok.inj (hn'.symm.trans hn)
        obtain ⟨-, h2⟩ := traverse_mats hv htr
        have hl : a.lMat = diagonal fun _ => 1 / v 0 := h2.trans hL
        have hc : a.cMat.PosDef := (C16_cap_posdef _ _ _ _ _ _ hv (fun q _ => hcp q.2) hg a htr).1
        have hlb := hlib 1 a.cMat a.lMat hc (by
          rw [hl]
          exact PosSemidef.diagonal fun _ => (one_div_pos.2 (hv0 0)).le)
        refine ⟨hlb, ?_⟩
        rw [hl] at hlb ⊢
        exact gap_diagonal (one_div_pos.2 (hv0 0)) (fun _ => .inr rfl) hlb }
  refine ⟨hgood, linear_exists hgood (pair_linear _) hn hv ?_⟩
  intro q _
  show (pairObjs.elem q.2).loops = []
  unfold pairObjs
  simp only
  split <;> rfl

theorem res_update_pos (e : ElemId) (x : ℝ) (hx : 0 < x) (i : ElemId) : 0 < Function.update (fun _ : ElemId => (1 : ℝ)) e x i := by
  by_cases h : i = e
  · rw [h, Function.update_self]; exact hx
  · rw [Function.update_of_ne h]; exact one_pos

theorem res_ind : allInd pairObjs resEls (fun _ => 1) = 1 := by
  rw [allInd, show inductorsOf pairObjs resEls = [0] from rfl]
  simp

theorem res_cap : allCap pairObjs resEls (fun _ => 1) = 2 := by
  rw [allCap, show placements resEls = [((0, 1), 0), ((0, 1), 1)] from rfl]
  norm_num

/-- a session of the resonator with the slopes of its frequencies, given the recorded sensitivity -/
theorem res_slopes (e : ElemId) (ρ : ℝ)
    (hρ : ∀ (n : ℕ) (a : Acc n), n = 1 →
      traverse false .junctions (pairObjs.withVals fun _ => 1) n (fun _ => LoopObj.init 0 0) resEls = .ok a →
      ∀ x, a.st.partialMats e x x = ρ * resSens pairObjs resEls (fun _ => 1) e) :
    ∃ (c : CircSpec) (eigs : EigsFn) (as : List ℂ → List ℕ) (w0 : World (circPhys c eigs as))
    (F : ℝ → List ℝ) (f : List ℝ)
    (ev : List (Idx ((run w0 [.setTruncNums (.list [6])]).circ.bd.dims (run w0 [.setTruncNums (.list [6])]).circ.m) → ℂ))
    (a : Acc (run w0 [.setTruncNums (.list [6])]).circ.bd.n),
    c.O = pairObjs ∧ c.els = resEls ∧ c.torch = false ∧ EigsLowest eigs ∧ CArgsortSpec as ∧
    construct (circPhys c eigs as) (fun _ => 1) (fun _ => 0) 1 = .ok w0 ∧
    Orderly w0 [.setTruncNums (.list [6])] ∧
    (∀ x, 0 < x → ∃ v, (diag (some 3) (run w0 [.setTruncNums (.list [6]), .setValue e x, .update])).1 = .ok (F x, v)) ∧
    (diag (some 3) (run w0 [.setTruncNums (.list [6])])).1 = .ok (f, ev.map fun v => ⟨_, _, v⟩) ∧
    traverse c.torch c.fd (c.O.withVals (run w0 [.setTruncNums (.list [6])]).vals)
      (run w0 [.setTruncNums (.list [6])]).circ.bd.n c.h c.els = .ok a ∧
    ∀ p : ℕ, p < 3 →
      (∀ g, partialOmega ev (partialH (run w0 [.setTruncNums (.list [6])]).circ.bd.C (run w0 [.setTruncNums (.list [6])]).circ.bd.M
        (buildMem (run w0 [.setTruncNums (.list [6])]).circ.bd.M.data
          ((run w0 [.setTruncNums (.list [6])]).circ.bd.dims (run w0 [.setTruncNums (.list [6])]).circ.m)
          (fun i => ((run w0 [.setTruncNums (.list [6])]).circ.ng i).getD 0)) (run w0 [.setTruncNums (.list [6])]).vals
        (run w0 [.setTruncNums (.list [6])]).circ.bd.B
        (fun j => (run w0 [.setTruncNums (.list [6])]).flux ((run w0 [.setTruncNums (.list [6])]).circ.bd.loops.get j))
        a.st.partialMats (run w0 [.setTruncNums (.list [6])]).circ.bd.inds (run w0 [.setTruncNums (.list [6])]).circ.bd.juns none
        (gradElOf c.O _ e)) p g =
          .ok (ρ * (if g then p * resSlope pairObjs resEls (fun _ => 1) e else resSlope pairObjs resEls (fun _ => 1) e / 2 * (2 * p + 1)))) ∧
      HasDerivAt (fun x => (F x).getD p 0) (p * resSlope pairObjs resEls (fun _ => 1) e / (2 * Real.pi)) 1 := by
  choose lib hlib using exists_lib
  choose argmax hm using exists_argmax
  obtain ⟨argsort, hsrt⟩ := exists_argsort
  obtain ⟨eigs, he⟩ := exists_eigs_lowest
  obtain ⟨as, ha⟩ := exists_cargsort
  have hn : numNodes resEls = .ok 1 := rfl
  have hv : ValidElements 1 resEls := by
    intro p hp
    simp [resEls] at hp
    subst hp
    simp [ValidEdge]
  have hg : GroundConnected 1 resEls := by
    intro k hk
    interval_cases k
    · exact .refl
    · exact .single ⟨((0, 1), [0, 1]), by simp [resEls], by simp, by simp⟩
  have hL : nodeInvInd 1 (pairObjs.withVals fun _ => 1) resEls = 1 := by
    ext i j
    fin_cases i; fin_cases j
    simp [nodeInvInd, placements, resEls, placedInvInd, Objs.withVals, pairObjs, edgeMat, incidence]
  have hi : InductivelyGrounded 1 pairObjs resEls := by
    intro k hk
    interval_cases k
    · exact .refl
    · exact .single ⟨((0, 1), 0), by simp [placements, resEls], by simp [pairObjs], by simp⟩
  obtain ⟨w0, hw, ho, hlast, hvals, hfl, hmm, hu⟩ := pair_session (argsort := argsort) hlib hm hn hv hg hL hi eigs as [6] rfl
    (by simp)
  have hedge : ∀ p ∈ (pairSpec resEls lib argsort argmax).els, p.1 = (0, 1) := by
    intro p hp
    simp [pairSpec, resEls] at hp
    rw [hp]
  have hind : ∃ q ∈ placements (pairSpec resEls lib argsort argmax).els,
      ((pairSpec resEls lib argsort argmax).O.elem q.2).kind = .ind :=
    ⟨((0, 1), 0), by simp [pairSpec, placements, resEls], by simp [pairSpec, pairObjs]⟩
  have hwt : WellTyped (pairSpec resEls lib argsort argmax).O := by
    intro i hi
    show (pairObjs.elem (pairObjs.elem i).cap).kind = .cap
    have : (pairObjs.elem i).cap = 1 := by
      unfold pairObjs
      simp only
      split <;> rfl
    rw [this]
    rfl
  have hel : ((pairSpec resEls lib argsort argmax).O.elem e).kind ≠ .jj := by
    show (pairObjs.elem e).kind ≠ .jj
    rcases pair_kind e with h | h <;> rw [h] <;> decide
  obtain ⟨F, f, ev, a, h1, h2, h3, h4⟩ := resonator_session (c := pairSpec resEls lib argsort argmax) he ha pair_caps hwt
    (pair_linear _) hedge hind _ _ _ w0 hw _ ho e hel ρ (by rw [hvals]; exact hρ) hlast
    (by rw [hvals]; exact (res_good hlib hm _ fun _ => one_pos).1) hfl (by rw [hmm]; simp) (by rw [hvals]; exact one_pos)
    (fun x hx => by rw [hvals]; exact res_good hlib hm _ (res_update_pos e x hx)) 3 (by norm_num) (by rw [hmm]; decide)
  refine ⟨_, eigs, as, w0, F, f, ev, a, rfl, rfl, rfl, he, ha, hw, ho, h1, h2, h3, fun p hp => ?_⟩
  obtain ⟨h5, h6, h7⟩ := h4 p hp
  have e1 : resSlope (pairSpec resEls lib argsort argmax).O (pairSpec resEls lib argsort argmax).els
      (run w0 [.setTruncNums (.list [6])]).vals e = resSlope pairObjs resEls (fun _ => 1) e := by rw [hvals]; rfl
  rw [e1] at h5 h6 h7
  refine ⟨fun g => ?_, ?_⟩
  · cases g
    · simpa using h6
    · simpa using h5
  · have : (run w0 [.setTruncNums (.list [6])]).vals e = 1 := by rw [hvals]
    rw [hu, this, mul_one] at h7
    exact h7

theorem res_slope_ind : resSlope pairObjs resEls (fun _ => 1) 0 = -(1 / √2 / 2) := by
  rw [resSlope, res_ind, res_cap, if_neg (by decide), one_mul, indCount, show placements resEls = [((0, 1), 0), ((0, 1), 1)] from rfl]
  norm_num

theorem res_slope_cap : resSlope pairObjs resEls (fun _ => 1) 1 = -(1 / √2 / 2) := by
  rw [resSlope, res_ind, res_cap, if_pos (by decide), one_mul, capCount, show placements resEls = [((0, 1), 0), ((0, 1), 1)] from rfl]
  have h0 : capacitorOf pairObjs 0 = 1 := rfl
  have h1 : capacitorOf pairObjs 1 = 1 := rfl
  simp only [List.map_cons, List.map_nil, h0, h1, if_true, List.sum_cons, List.sum_nil]
  norm_num

theorem res_recorded : ∀ (n : ℕ) (a : Acc n), n = 1 →
    traverse false .junctions (pairObjs.withVals fun _ => 1) n (fun _ => LoopObj.init 0 0) resEls = .ok a →
    (∀ x, a.st.partialMats 0 x x = 1 * resSens pairObjs resEls (fun _ => 1) 0) ∧
    ∀ x, a.st.partialMats 1 x x = 1 / 2 * resSens pairObjs resEls (fun _ => 1) 1 := by
  rintro n a hn htr
  have hv : ValidElements n resEls := by
    intro p hp
    simp [resEls] at hp
    subst hp
    subst hn
    simp [ValidEdge]
  have hp : placements resEls = [((0, 1), 0), ((0, 1), 1)] := rfl
  constructor
  · intro x
    rw [(C20_sensitivity_numpy _ _ n _ _ hv a htr 0).2 rfl, Matrix.smul_apply, hp]
    subst hn
    fin_cases x
    simp [resSens, pairObjs, indCount, hp, edgeMat, incidence, Objs.withVals]
  · intro x
    rw [(C20_sensitivity_numpy _ _ n _ _ hv a htr 1).1 rfl, hp]
    subst hn
    fin_cases x
    simp [resSens, pairObjs, capCount, hp, edgeMat, incidence, capacitorOf]
    norm_num

/-- The resonator with L = 1, C = 1 + 1 under NumPy: the number `get_partial_omega` returns for the inductor and state 2
is the slope of the transition frequency, `-1/√2` in units of 2π. -/
theorem C115_example : ∃ (c : CircSpec) (eigs : EigsFn) (as : List ℂ → List ℕ) (w0 : World (circPhys c eigs as))
    (F : ℝ → List ℝ) (f : List ℝ),
    let w := run w0 [.setTruncNums (.list [6])]
    ∃ (ev : List (Idx (w.circ.bd.dims w.circ.m) → ℂ)) (a : Acc w.circ.bd.n),
    EigsLowest eigs ∧ CArgsortSpec as ∧ c.els = [((0, 1), [0, 1])] ∧ (c.O.elem 0).kind = .ind ∧
    construct (circPhys c eigs as) (fun _ => 1) (fun _ => 0) 1 = .ok w0 ∧
    (∀ x, 0 < x → ∃ v, (diag (some 3) (run w0 [.setTruncNums (.list [6]), .setValue 0 x, .update])).1 = .ok (F x, v)) ∧
    (diag (some 3) w).1 = .ok (f, ev.map fun v => ⟨_, _, v⟩) ∧
    traverse c.torch c.fd (c.O.withVals w.vals) w.circ.bd.n c.h c.els = .ok a ∧
    partialOmega ev (partialH w.circ.bd.C w.circ.bd.M
        (buildMem w.circ.bd.M.data (w.circ.bd.dims w.circ.m) (fun i => (w.circ.ng i).getD 0)) w.vals w.circ.bd.B
        (fun j => w.flux (w.circ.bd.loops.get j)) a.st.partialMats w.circ.bd.inds w.circ.bd.juns none
        (gradElOf c.O _ 0)) (2 : ℕ) true = .ok (-(1 / √2)) ∧
    HasDerivAt (fun x => (F x).getD 2 0 - (F x).getD 0 0) (-(1 / √2) / (2 * Real.pi)) 1 := by
  obtain ⟨c, eigs, as, w0, F, f, ev, a, hO, hels, -, he, ha, hw, -, h1, h2, h3, h4⟩ := res_slopes 0 1 (fun n a hn h => (res_recorded n a hn h).1)
  refine ⟨c, eigs, as, w0, F, f, ev, a, he, ha, hels, by rw [hO]; rfl, hw, h1, h2, h3, ?_, ?_⟩
  · rw [((h4 2 (by norm_num)).1 true), res_slope_ind]
    refine congrArg Except.ok ?_
    push_cast
    rw [if_pos rfl]
    ring
  · refine ((h4 2 (by norm_num)).2.sub (h4 0 (by norm_num)).2).congr_deriv ?_
    rw [res_slope_ind]
    push_cast
    ring

/-- C115, refuted for the frequencies themselves: the ground-state frequency of the same resonator is reported as zero for
every value of its inductor, while `get_partial_omega` without `subtract_ground`, from which `EigenSolver.backward`
takes the gradients of the eigenfrequencies, returns `-1/(4√2)` for it, and for state 1 one and a half times the slope of
the reported frequency. -/
theorem C115_refuted : ∃ (c : CircSpec) (eigs : EigsFn) (as : List ℂ → List ℕ) (w0 : World (circPhys c eigs as))
    (F : ℝ → List ℝ) (f : List ℝ),
    let w := run w0 [.setTruncNums (.list [6])]
    ∃ (ev : List (Idx (w.circ.bd.dims w.circ.m) → ℂ)) (a : Acc w.circ.bd.n) (D : ℝ),
    EigsLowest eigs ∧ CArgsortSpec as ∧ c.els = [((0, 1), [0, 1])] ∧ (c.O.elem 0).kind = .ind ∧
    construct (circPhys c eigs as) (fun _ => 1) (fun _ => 0) 1 = .ok w0 ∧
    (∀ x, 0 < x → ∃ v, (diag (some 3) (run w0 [.setTruncNums (.list [6]), .setValue 0 x, .update])).1 = .ok (F x, v)) ∧
    (diag (some 3) w).1 = .ok (f, ev.map fun v => ⟨_, _, v⟩) ∧
    traverse c.torch c.fd (c.O.withVals w.vals) w.circ.bd.n c.h c.els = .ok a ∧
    HasDerivAt (fun x => (F x).getD 0 0) 0 1 ∧ HasDerivAt (fun x => (F x).getD 1 0) D 1 ∧ D < 0 ∧
    partialOmega ev (partialH w.circ.bd.C w.circ.bd.M
        (buildMem w.circ.bd.M.data (w.circ.bd.dims w.circ.m) (fun i => (w.circ.ng i).getD 0)) w.vals w.circ.bd.B
        (fun j => w.flux (w.circ.bd.loops.get j)) a.st.partialMats w.circ.bd.inds w.circ.bd.juns none
        (gradElOf c.O _ 0)) (0 : ℕ) false = .ok (-(1 / √2 / 4)) ∧
    partialOmega ev (partialH w.circ.bd.C w.circ.bd.M
        (buildMem w.circ.bd.M.data (w.circ.bd.dims w.circ.m) (fun i => (w.circ.ng i).getD 0)) w.vals w.circ.bd.B
        (fun j => w.flux (w.circ.bd.loops.get j)) a.st.partialMats w.circ.bd.inds w.circ.bd.juns none
        (gradElOf c.O _ 0)) (1 : ℕ) false = .ok (3 / 2 * (D * (2 * Real.pi))) := by
  obtain ⟨c, eigs, as, w0, F, f, ev, a, hO, hels, -, he, ha, hw, -, h1, h2, h3, h4⟩ := res_slopes 0 1 (fun n a hn h => (res_recorded n a hn h).1)
  refine ⟨c, eigs, as, w0, F, f, ev, a, _, he, ha, hels, by rw [hO]; rfl, hw, h1, h2, h3, ?_, (h4 1 (by norm_num)).2, ?_, ?_, ?_⟩
  · refine (h4 0 (by norm_num)).2.congr_deriv ?_
    simp
  · rw [res_slope_ind]
    have : 0 < 1 / √2 / 2 / (2 * Real.pi) := by positivity
    push_cast
    linarith [show (1 : ℝ) * -(1 / √2 / 2) / (2 * Real.pi) = -(1 / √2 / 2 / (2 * Real.pi)) by ring]
  · rw [((h4 0 (by norm_num)).1 false), res_slope_ind]
    refine congrArg Except.ok ?_
    push_cast
    ring
  · rw [((h4 1 (by norm_num)).1 false), res_slope_ind]
    refine congrArg Except.ok ?_
    have : Real.pi ≠ 0 := Real.pi_ne_zero
    push_cast
    field_simp
    ring

/-- C115, refuted for attached capacitors under NumPy: the same resonator, whose inductor was given the placed capacitor as
its capacitor; for the capacitor `get_partial_omega` returns half the slope of the transition frequency. -/
theorem C115_attached_refuted : ∃ (c : CircSpec) (eigs : EigsFn) (as : List ℂ → List ℕ) (w0 : World (circPhys c eigs as))
    (F : ℝ → List ℝ) (f : List ℝ),
    let w := run w0 [.setTruncNums (.list [6])]
    ∃ (ev : List (Idx (w.circ.bd.dims w.circ.m) → ℂ)) (a : Acc w.circ.bd.n) (D : ℝ),
    EigsLowest eigs ∧ CArgsortSpec as ∧ c.torch = false ∧ c.els = [((0, 1), [0, 1])] ∧ (c.O.elem 1).kind = .cap ∧
    (c.O.elem 0).kind = .ind ∧ (c.O.elem 0).cap = 1 ∧
    construct (circPhys c eigs as) (fun _ => 1) (fun _ => 0) 1 = .ok w0 ∧
    (∀ x, 0 < x → ∃ v, (diag (some 3) (run w0 [.setTruncNums (.list [6]), .setValue 1 x, .update])).1 = .ok (F x, v)) ∧
    (diag (some 3) w).1 = .ok (f, ev.map fun v => ⟨_, _, v⟩) ∧
    traverse c.torch c.fd (c.O.withVals w.vals) w.circ.bd.n c.h c.els = .ok a ∧
    HasDerivAt (fun x => (F x).getD 1 0 - (F x).getD 0 0) D 1 ∧ D < 0 ∧
    partialOmega ev (partialH w.circ.bd.C w.circ.bd.M
        (buildMem w.circ.bd.M.data (w.circ.bd.dims w.circ.m) (fun i => (w.circ.ng i).getD 0)) w.vals w.circ.bd.B
        (fun j => w.flux (w.circ.bd.loops.get j)) a.st.partialMats w.circ.bd.inds w.circ.bd.juns none
        (gradElOf c.O _ 1)) (1 : ℕ) true = .ok (1 / 2 * (D * (2 * Real.pi))) := by
  obtain ⟨c, eigs, as, w0, F, f, ev, a, hO, hels, ht, he, ha, hw, -, h1, h2, h3, h4⟩ := res_slopes 1 (1 / 2) (fun n a hn h => (res_recorded n a hn h).2)
  refine ⟨c, eigs, as, w0, F, f, ev, a, _, he, ha, ht, hels, by rw [hO]; rfl, by rw [hO]; rfl, by rw [hO]; rfl, hw, h1, h2, h3,
    (h4 1 (by norm_num)).2.sub (h4 0 (by norm_num)).2, ?_, ?_⟩
  · rw [res_slope_cap]
    have : 0 < 1 / √2 / 2 / (2 * Real.pi) := by positivity
    push_cast
    linarith [show (1 : ℝ) * -(1 / √2 / 2) / (2 * Real.pi) - 0 * -(1 / √2 / 2) / (2 * Real.pi) = -(1 / √2 / 2 / (2 * Real.pi)) by ring]
  · rw [((h4 1 (by norm_num)).1 true), res_slope_cap]
    refine congrArg Except.ok ?_
    have : Real.pi ≠ 0 := Real.pi_ne_zero
    push_cast
    rw [if_pos rfl]
    field_simp
    ring

end SQ
