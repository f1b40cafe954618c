import Verif.Props.IslandSlope
import Verif.Props.SimpleSpectrum
import Verif.Props.MergeCircuit

/-!
# C116: the frequencies of an island circuit as a function of a capacitance
-/

namespace SQ
open Matrix Spec Filter
open scoped Topology

variable {c : CircSpec} {eigs : EigsFn} {as : List ℂ → List ℕ}

/-- the Hamiltonian `C93_session` finds -/
noncomputable def islandHam (c : CircSpec) (n : ℕ) {k : ℕ} (σ : Fin (junctionEdges c.O c.els).length ≃ Fin k)
    (d : Fin k → ℕ) (ng : Fin k → ℝ) (v : ElemId → ℝ) : Op d :=
  islandHamiltonian σ (junctionInvCap (c.O.withVals v) c.els n)
    (fun i => edgeEJ c.O c.els v ((junctionEdges c.O c.els).get i)) d ng

theorem edgeEJ_update (O : Objs) (els : Elements) (v : ElemId → ℝ) (e : ElemId) (he : (O.elem e).kind ≠ .jj) (x : ℝ)
    (ed : Edge) : edgeEJ O els (Function.update v e x) ed = edgeEJ O els v ed := by
  unfold edgeEJ
  refine congrArg List.sum (List.map_congr_left fun q hq => ?_)
  have := (List.mem_filter.1 hq).2
  simp only [decide_eq_true_eq] at this
  refine Function.update_of_ne ?_ _ _
  rintro h
  rw [h] at this
  exact he this.1

theorem islandHam_deriv {n : ℕ} {k : ℕ} (σ : Fin (junctionEdges c.O c.els).length ≃ Fin k)
    (d : Fin k → ℕ) (ng : Fin k → ℝ) (v : ElemId → ℝ) (e : ElemId) (he : (c.O.elem e).kind ≠ .jj)
    (hC : (capacitances (c.O.withVals v) c.els n).det ≠ 0) :
    HasDerivOp (fun t => islandHam c n σ d ng (Function.update v e t))
      (pairEnergy d ((-(junctionIncidence c.O c.els n * ((capacitances (c.O.withVals v) c.els n)⁻¹ *
              capSens c.O c.els n e * (capacitances (c.O.withVals v) c.els n)⁻¹) *
                (junctionIncidence c.O c.els n)ᵀ)).submatrix σ.symm σ.symm) ng) (v e) := by
  have hd := invCap_deriv c.O c.els n v e (v e) (by rw [Function.update_eq_self]; exact hC)
  rw [Function.update_eq_self] at hd
  have hs : HasDerivMat (fun t => (junctionInvCap (c.O.withVals (Function.update v e t)) c.els n).submatrix σ.symm σ.symm)
      ((-(junctionIncidence c.O c.els n * ((capacitances (c.O.withVals v) c.els n)⁻¹ *
              capSens c.O c.els n e * (capacitances (c.O.withVals v) c.els n)⁻¹) *
                (junctionIncidence c.O c.els n)ᵀ)).submatrix σ.symm σ.symm) (v e) := fun i j => hd _ _
  intro a b
  have h1 := (pairEnergy_deriv d ng hs) a b
  unfold islandHam islandHamiltonian
  simp only [edgeEJ_update c.O c.els v e he]
  exact h1.sub_const _

theorem island_ham_herm {n : ℕ} (hi : IslandCircuit c n) (vals : ElemId → ℝ) (flux : LoopId → ℝ) (u : ℝ)
    (w0 : World (circPhys c eigs as)) (hw : construct (circPhys c eigs as) vals flux u = .ok w0)
    (h : List Act) (hh : Orderly w0 h) (hm : (run w0 h).circ.m ≠ []) {k : ℕ} {d : Fin k → ℕ} {H : Op d}
    (hH : (hamiltonian (run w0 h)).1 = .ok ⟨k, d, H⟩) : H.IsHermitian := by
  obtain ⟨H', h1, h2⟩ := C40_circuit hi.noSelf vals flux u w0 hw h hh hm
  rw [hH] at h1
  have := Except.ok.inj h1
  subst this
  exact h2

/-- frequencies of an island circuit as a function of a capacitance, and their derivatives -/
theorem island_slope (he : EigsLowest eigs) (ha : CArgsortSpec as) (hcaps : CapsOK c.O) (hwt : WellTyped c.O)
    (n : ℕ) (hi : IslandCircuit c n) (hr : RoutinesOK c) (vals : ElemId → ℝ) (hv0 : IslandValues c n vals)
    (flux : LoopId → ℝ) (u : ℝ)
    (w0 : World (circPhys c eigs as)) (hw : construct (circPhys c eigs as) vals flux u = .ok w0)
    (h : List Act) (hh : Orderly w0 h)
    (hupd : ∀ h1 h2, h = h1 ++ .update :: h2 → IslandValues c n (run w0 h1).vals)
    (e : ElemId) (hel : (c.O.elem e).kind = .cap) :
    let w := run w0 h
    let bd : Build := w.circ.bd
    (∀ i, w.vals i = lastBuilt vals w0 h i) → IslandValues c n w.vals → w.circ.m ≠ [] →
    (Function.Injective fun i => junctionInvCap (c.O.withVals w.vals) c.els n i i) →
    ∀ num, 1 ≤ num → num + 1 < Fintype.card (Idx (bd.dims w.circ.m)) →
    ∃ (F : ℝ → List ℝ) (ev : List (Idx (bd.dims w.circ.m) → ℂ)) (a : Acc bd.n)
      (σ : Fin (junctionEdges c.O c.els).length ≃ Fin bd.M.keep.length) (X : Op (bd.dims w.circ.m)),
      (∀ᶠ x in 𝓝 (w.vals e), ∃ v, (diag (some num) (run w0 (h ++ [.setValue e x, .update]))).1 = .ok (F x, v)) ∧
      (diag (some num) w).1 = .ok (F (w.vals e), ev.map fun v => ⟨_, _, v⟩) ∧
      traverse c.torch c.fd (c.O.withVals w.vals) bd.n c.h c.els = .ok a ∧
      ((c.torch = true ∨ ∀ q ∈ placements c.els, (c.O.elem q.2).kind ≠ .cap → (c.O.elem q.2).cap ≠ e) →
        partialH bd.C bd.M (buildMem bd.M.data (bd.dims w.circ.m) (fun i => (w.circ.ng i).getD 0)) w.vals bd.B
          (fun j => w.flux (bd.loops.get j)) a.st.partialMats bd.inds bd.juns none (gradElOf c.O _ e) = X) ∧
      X = pairEnergy (bd.dims w.circ.m) ((-(junctionIncidence c.O c.els n * ((capacitances (c.O.withVals w.vals) c.els n)⁻¹ *
              capSens c.O c.els n e * (capacitances (c.O.withVals w.vals) c.els n)⁻¹) *
                (junctionIncidence c.O c.els n)ᵀ)).submatrix σ.symm σ.symm) (fun i => (w.circ.ng i).getD 0) ∧
      ev.length = num ∧ (∀ v ∈ ev, overlap v v = 1) ∧
      ∀ p : ℕ, p + 1 < num → SimpleLevel (F (w.vals e)) p → ∃ hp : p < ev.length,
        HasDerivAt (fun x => (F x).getD p 0) ((innerOp ev[p] X ev[p]).re / (2 * Real.pi * w.unitFreq)) (w.vals e) := by
  classical
  intro w bd hlast hval hm hinj num h1 hnum
  obtain ⟨hb, -⟩ := island_bd_now hi hr vals hv0 flux u w0 hw h hh hupd hlast hm
  obtain ⟨hk, hbn, -, hdC, hdG, σ, hord, a, htr, hpart⟩ := island_partial hi hr hwt hval hb
  have hP := fun hatt => hpart e hel hatt (bd.dims w.circ.m) (fun i => (w.circ.ng i).getD 0) (fun j => w.flux (bd.loops.get j))
  obtain ⟨w0', hw', hsess⟩ := C93_session c n hi hr hcaps eigs as vals hv0 flux u
  have : w0' = w0 := by rw [hw] at hw'; exact (Except.ok.inj hw').symm
  subst this
  -- the Hamiltonian after any admissible change
  have hchain : ∀ hist : List Act, Orderly w0' hist →
      (∀ h1 h2, hist = h1 ++ .update :: h2 → IslandValues c n (run w0' h1).vals) →
      (∀ i, (run w0' hist).vals i = lastBuilt vals w0' hist i) → IslandValues c n (run w0' hist).vals →
      (run w0' hist).circ.m = w.circ.m → (run w0' hist).circ.ng = w.circ.ng →
      (∀ i j, junctionInvCap (c.O.withVals w.vals) c.els n j j < junctionInvCap (c.O.withVals w.vals) c.els n i i →
        junctionInvCap (c.O.withVals (run w0' hist).vals) c.els n j j <
          junctionInvCap (c.O.withVals (run w0' hist).vals) c.els n i i) →
      (hamiltonian (run w0' hist)).1 = .ok ⟨_, bd.dims w.circ.m, islandHam c n σ (bd.dims w.circ.m)
        (fun i => (w.circ.ng i).getD 0) (run w0' hist).vals⟩ := by
    intro hist o1 o2 o3 o4 o5 o6 o7
    obtain ⟨k, d, τ, hkk, hd, hτ, hH⟩ := hsess hist o1 o2 (fun i _ => o3 i) o4 (by rw [o5]; exact hm)
    have hkk' : k = bd.M.keep.length := hkk.trans hk.symm
    subst hkk'
    have hdd : d = bd.dims w.circ.m := by
      funext i
      rw [hd, o5]
      rfl
    subst hdd
    have hτσ : τ = σ := by
      refine order_unique (fun i => junctionInvCap (c.O.withVals w.vals) c.els n i i) hinj τ σ ?_ hord
      intro i j hij
      exact hτ i j (o7 i j hij)
    subst hτσ
    rw [hH, o6]
    rfl
  have hHw : (hamiltonian w).1 = .ok ⟨_, bd.dims w.circ.m, islandHam c n σ (bd.dims w.circ.m)
      (fun i => (w.circ.ng i).getD 0) w.vals⟩ :=
    hchain h hh hupd hlast hval rfl rfl (fun i j hij => hij)
  have hnear := island_near hval hdC hdG e
  let good : ℝ → Prop := fun x => IslandValues c n (Function.update w.vals e x) ∧
      ∀ i j, junctionInvCap (c.O.withVals w.vals) c.els n j j < junctionInvCap (c.O.withVals w.vals) c.els n i i →
        junctionInvCap (c.O.withVals (Function.update w.vals e x)) c.els n j j <
          junctionInvCap (c.O.withVals (Function.update w.vals e x)) c.els n i i
  have hgood : ∀ x, good x → (hamiltonian (run w0' (h ++ [.setValue e x, .update]))).1 = .ok ⟨_, bd.dims w.circ.m,
      islandHam c n σ (bd.dims w.circ.m) (fun i => (w.circ.ng i).getD 0) (Function.update w.vals e x)⟩ ∧
      (run w0' (h ++ [.setValue e x, .update])).circ.m ≠ [] ∧
      (run w0' (h ++ [.setValue e x, .update])).unitFreq = w.unitFreq := by
    intro x hx
    obtain ⟨u1, u2, u3, u4, u5, u6, u7⟩ := island_updated hi hr hwt vals hv0 flux u w0' hw h hh hupd hlast hval hm e x hx.1
    refine ⟨?_, by rw [u5]; exact hm, u7⟩
    have := hchain _ u1 u2 u3 (by rw [u4]; exact hx.1) u5 u6 (by rw [u4]; exact hx.2)
    rw [this, u4]
  have hwself : good (w.vals e) := by
    show _ ∧ _
    rw [Function.update_eq_self]
    exact ⟨hval, fun i j hij => hij⟩
  let wt : ℝ → World (circPhys c eigs as) := fun x =>
    if good x ∧ x ≠ w.vals e then run w0' (h ++ [.setValue e x, .update]) else w
  let H : ℝ → Op (bd.dims w.circ.m) := fun x => if good x then islandHam c n σ (bd.dims w.circ.m)
    (fun i => (w.circ.ng i).getD 0) (Function.update w.vals e x) else
      islandHam c n σ (bd.dims w.circ.m) (fun i => (w.circ.ng i).getD 0) w.vals
  have hwm : ∀ x, (wt x).circ.m ≠ [] := by
    intro x
    by_cases hx : good x ∧ x ≠ w.vals e
    · simp only [wt, if_pos hx]; exact (hgood x hx.1).2.1
    · simp only [wt, if_neg hx]; exact hm
  have hwH : ∀ x, (hamiltonian (wt x)).1 = .ok ⟨_, _, H x⟩ := by
    intro x
    by_cases hx : good x
    · by_cases hxe : x = w.vals e
      · simp only [wt, if_neg (show ¬ (good x ∧ x ≠ w.vals e) from fun h => h.2 hxe), H, if_pos hx]
        rw [hHw, hxe, Function.update_eq_self]
      · simp only [wt, if_pos (show good x ∧ x ≠ w.vals e from ⟨hx, hxe⟩), H, if_pos hx]
        exact (hgood x hx).1
    · simp only [wt, if_neg (show ¬ (good x ∧ x ≠ w.vals e) from fun h => hx h.1), H, if_neg hx]
      exact hHw
  have hwU : ∀ x, (wt x).unitFreq = w.unitFreq := by
    intro x
    by_cases hx : good x ∧ x ≠ w.vals e
    · simp only [wt, if_pos hx]; exact (hgood x hx.1).2.2
    · simp only [wt, if_neg hx]
  have hherm : ∀ x, (H x).IsHermitian := by
    intro x
    by_cases hx : good x
    · obtain ⟨u1, -⟩ := island_updated hi hr hwt vals hv0 flux u w0' hw h hh hupd hlast hval hm e x hx.1
      simp only [H, if_pos hx]
      exact island_ham_herm hi vals flux u w0' hw _ u1 (hgood x hx).2.1 (hgood x hx).1
    · simp only [H, if_neg hx]
      exact island_ham_herm hi vals flux u w0' hw h hh hm hHw
  obtain ⟨F, ev, hF, hF2, hev, hsl⟩ := diag_slopes he ha wt hwm H hwH hherm w.unitFreq hwU num h1 hnum
  have hdH : HasDerivOp H (pairEnergy (bd.dims w.circ.m) ((-(junctionIncidence c.O c.els n *
      ((capacitances (c.O.withVals w.vals) c.els n)⁻¹ * capSens c.O c.els n e * (capacitances (c.O.withVals w.vals) c.els n)⁻¹) *
        (junctionIncidence c.O c.els n)ᵀ)).submatrix σ.symm σ.symm) (fun i => (w.circ.ng i).getD 0)) (w.vals e) := by
    intro x y
    refine ((islandHam_deriv (n := n) σ (bd.dims w.circ.m) (fun i => (w.circ.ng i).getD 0) w.vals e
      (by rw [hel]; decide) hdC) x y).congr_of_eventuallyEq ?_
    filter_upwards [hnear] with t ht
    have hgt : good t := ht
    simp only [H, if_pos hgt]
  have hwe : wt (w.vals e) = w := by
    simp only [wt, if_neg (show ¬ (good (w.vals e) ∧ w.vals e ≠ w.vals e) from fun h => h.2 rfl)]
  refine ⟨F, ev (w.vals e), a, σ, _, ?_, ?_, htr, hP, rfl, (hev (w.vals e)).1, (hev (w.vals e)).2, ?_⟩
  · filter_upwards [hnear] with x hx
    have hgx : good x := hx
    refine hF2 x _ (hgood x hgx).2.1 ?_ (hgood x hgx).2.2
    simp only [H, if_pos hgx]
    exact (hgood x hgx).1
  · exact (congrArg (fun z => (diag (some (num : ℤ)) z).1) hwe).symm.trans (hF _)
  · intro p hp hsim
    exact hsl p hp _ _ hdH hsim

/-- C116: the derivatives `get_partial_omega` returns for a capacitor of an island circuit (junctions and capacitors, as
many independent junction edges as nodes: transmons, Cooper pair boxes, any network of them coupled by capacitors) are
the derivatives of the frequencies the user sees.  After any orderly history whose last `update` saw the current values,
let `F(x)` be the frequencies `diag(num)` returns once the capacitor is set to `x` and `update` is called.  For every
level `p` that is not degenerate, the number returned for state `p` from the states `diag(num)` finds and the recorded
sensitivities, divided by 2π and the unit of frequency, is the derivative of `F_p` at the current value; with
`subtract_ground=True` it is that of `F_p - F_0`.  The charging energies of the junction edges must differ (the code
numbers the modes by them).  Under NumPy the capacitor must not be attached to a junction (see
`C116_attached_refuted`). -/
theorem C116_slope_partial (he : EigsLowest eigs) (ha : CArgsortSpec as) (hcaps : CapsOK c.O) (hwt : WellTyped c.O)
    (n : ℕ) (hi : IslandCircuit c n) (hr : RoutinesOK c) (vals : ElemId → ℝ) (hv0 : IslandValues c n vals)
    (flux : LoopId → ℝ) (u : ℝ)
    (w0 : World (circPhys c eigs as)) (hw : construct (circPhys c eigs as) vals flux u = .ok w0)
    (h : List Act) (hh : Orderly w0 h)
    (hupd : ∀ h1 h2, h = h1 ++ .update :: h2 → IslandValues c n (run w0 h1).vals)
    (e : ElemId) (hel : (c.O.elem e).kind = .cap)
    (hatt : c.torch = true ∨ ∀ q ∈ placements c.els, (c.O.elem q.2).kind ≠ .cap → (c.O.elem q.2).cap ≠ e) :
    let w := run w0 h
    let bd : Build := w.circ.bd
    (∀ i, w.vals i = lastBuilt vals w0 h i) → IslandValues c n w.vals → w.circ.m ≠ [] →
    (Function.Injective fun i => junctionInvCap (c.O.withVals w.vals) c.els n i i) →
    ∀ num, 1 ≤ num → num + 1 < Fintype.card (Idx (bd.dims w.circ.m)) →
    ∃ (F : ℝ → List ℝ) (ev : List (Idx (bd.dims w.circ.m) → ℂ)) (a : Acc bd.n) (dH : Op (bd.dims w.circ.m)),
      (∀ᶠ x in 𝓝 (w.vals e), ∃ v, (diag (some num) (run w0 (h ++ [.setValue e x, .update]))).1 = .ok (F x, v)) ∧
      (diag (some num) w).1 = .ok (F (w.vals e), ev.map fun v => ⟨_, _, v⟩) ∧
      traverse c.torch c.fd (c.O.withVals w.vals) bd.n c.h c.els = .ok a ∧
      dH = partialH bd.C bd.M (buildMem bd.M.data (bd.dims w.circ.m) (fun i => (w.circ.ng i).getD 0)) w.vals bd.B
        (fun j => w.flux (bd.loops.get j)) a.st.partialMats bd.inds bd.juns none (gradElOf c.O _ e) ∧
      ∀ p : ℕ, p + 1 < num → SimpleLevel (F (w.vals e)) p →
        (∃ r, partialOmega ev dH p false = .ok r ∧
          HasDerivAt (fun x => (F x).getD p 0) (r / (2 * Real.pi * w.unitFreq)) (w.vals e)) ∧
        (SimpleLevel (F (w.vals e)) 0 → ∃ r, partialOmega ev dH p true = .ok r ∧
          HasDerivAt (fun x => (F x).getD p 0 - (F x).getD 0 0) (r / (2 * Real.pi * w.unitFreq)) (w.vals e)) := by
  intro w bd hlast hval hm hinj num h1 hnum
  obtain ⟨F, ev, a, σ, X, f1, f2, f3, f4, -, -, -, f5⟩ := island_slope he ha hcaps hwt n hi hr vals hv0 flux u w0 hw h hh hupd
    e hel hlast hval hm hinj num h1 hnum
  refine ⟨F, ev, a, X, f1, f2, f3, (f4 hatt).symm, ?_⟩
  intro p hp hsim
  obtain ⟨hpl, hder⟩ := f5 p hp hsim
  have h0 : ¬ ev.length = 0 := by omega
  refine ⟨⟨_, ?_, hder⟩, ?_⟩
  · unfold partialOmega
    rw [if_neg h0, pyGet_nat hpl]
    simp only [Bool.false_eq_true, if_false]
  · intro hs0
    obtain ⟨hpl0, hder0⟩ := f5 0 (by omega) hs0
    refine ⟨_, ?_, (hder.sub hder0).congr_deriv (sub_div _ _ _).symm⟩
    unfold partialOmega
    rw [if_neg h0, pyGet_nat hpl, show (0 : ℤ) = ((0 : ℕ) : ℤ) from rfl, pyGet_nat hpl0]
    simp only [if_true, Complex.sub_re]

theorem simple_of_strict {F : List ℝ} (hF : F.Pairwise (· < ·)) {p : ℕ} (hp : p < F.length) : SimpleLevel F p := by
  refine ⟨hp, fun q hq hne he => ?_⟩
  rw [List.getElem?_eq_getElem hq, List.getElem?_eq_getElem hp] at he
  have he := Option.some.inj he
  rcases lt_or_gt_of_ne hne with h | h
  · exact absurd he (ne_of_lt (List.pairwise_iff_getElem.1 hF _ _ hq hp h))
  · exact absurd he (ne_of_gt (List.pairwise_iff_getElem.1 hF _ _ hp hq h))

/-- C116 for transmons and Cooper pair boxes (any number of junctions and capacitors in parallel, no loops): no level is
degenerate (C97), so the derivatives are right for every level and every charge offset. -/
theorem C116_transmon (torch : Bool) (fd : FluxDist) (O : Objs) (ids : List ElemId) (hj : OnlyJunctions O ids)
    (hcaps : CapsOK O) (hwt : WellTyped O) (hnl : ∀ i ∈ ids, (O.elem i).loops = [])
    (lh : LoopId → LoopObj) (lib : ∀ n, NumLib n)
    (hlib : ∀ n, ∀ C L : Matrix (Fin n) (Fin n) ℝ, C.PosDef → L.PosSemidef → LibSpec (lib n) C L)
    (sv : SvdFn) (hsv : SvdSpec sv) (argsort : ArgsortFn) (hsrt : ArgsortSpec argsort) (argmax : ∀ k, ArgmaxFn k)
    (ham : ∀ k, ArgmaxSpec (argmax k)) (draws : Draws) (eigs as) (he : EigsLowest eigs) (ha : CArgsortSpec as)
    (vals : ElemId → ℝ) (hv : ParallelValues O ids vals) (flux : LoopId → ℝ) (u : ℝ)
    (w0 : World (circPhys (parallelSpec torch fd O ids lh lib sv argsort argmax draws) eigs as))
    (hw : construct (circPhys (parallelSpec torch fd O ids lh lib sv argsort argmax draws) eigs as) vals flux u = .ok w0)
    (h : List Act) (hh : Orderly w0 h)
    (hupd : ∀ h1 h2, h = h1 ++ .update :: h2 → ParallelValues O ids (run w0 h1).vals)
    (e : ElemId) (hel : (O.elem e).kind = .cap)
    (hatt : torch = true ∨ ∀ i ∈ ids, (O.elem i).kind ≠ .cap → (O.elem i).cap ≠ e) :
    let w := run w0 h
    let bd : Build := w.circ.bd
    (∀ i, w.vals i = lastBuilt vals w0 h i) → ParallelValues O ids w.vals →
    ((ids.filter (fun i => decide ((O.elem i).kind = .jj))).map w.vals).sum ≠ 0 → 0 < w.unitFreq →
    ∀ N num : ℕ, w.circ.m = [(N : ℤ)] → 1 ≤ num → num + 1 < N →
    ∃ (F : ℝ → List ℝ) (ev : List (Idx (bd.dims w.circ.m) → ℂ)) (a : Acc bd.n) (dH : Op (bd.dims w.circ.m)),
      (∀ᶠ x in 𝓝 (w.vals e), ∃ v, (diag (some num) (run w0 (h ++ [.setValue e x, .update]))).1 = .ok (F x, v)) ∧
      (diag (some num) w).1 = .ok (F (w.vals e), ev.map fun v => ⟨_, _, v⟩) ∧
      traverse torch fd (O.withVals w.vals) bd.n lh (oneEdge ids) = .ok a ∧
      dH = partialH bd.C bd.M (buildMem bd.M.data (bd.dims w.circ.m) (fun i => (w.circ.ng i).getD 0)) w.vals bd.B
        (fun j => w.flux (bd.loops.get j)) a.st.partialMats bd.inds bd.juns none (gradElOf O _ e) ∧
      ∀ p : ℕ, p + 1 < num →
        ∃ r r', partialOmega ev dH p false = .ok r ∧ partialOmega ev dH p true = .ok r' ∧
          HasDerivAt (fun x => (F x).getD p 0) (r / (2 * Real.pi * w.unitFreq)) (w.vals e) ∧
          HasDerivAt (fun x => (F x).getD p 0 - (F x).getD 0 0) (r' / (2 * Real.pi * w.unitFreq)) (w.vals e) := by
  intro w bd hlast hval hE hu N num hmN h1 hN
  have hne : w.circ.m ≠ [] := by rw [hmN]; exact List.cons_ne_nil _ _
  obtain ⟨hI, hV0⟩ := oe_island_circuit (torch := torch) (fd := fd) (h := lh) (lib := lib) (sv := sv) (argsort := argsort)
    (argmax := argmax) (draws := draws) hj hnl hv
  have hIV : ∀ v, ParallelValues O ids v → IslandValues (parallelSpec torch fd O ids lh lib sv argsort argmax draws) 1 v :=
    fun v hv => (oe_island_circuit hj hnl hv).2
  have hr : RoutinesOK (parallelSpec torch fd O ids lh lib sv argsort argmax draws) := ⟨hlib, hsv, hsrt, ham, le_refl 3⟩
  have hlen : (junctionEdges O (oneEdge ids)).length = 1 := hI.square
  have hb := (island_bd_now hI hr vals hV0 flux u w0 hw h hh (fun h1 h2 he => hIV _ (hupd h1 h2 he)) hlast hne).1
  obtain ⟨hk, -⟩ := island_partial hI hr hwt (hIV _ hval) hb
  obtain ⟨H, hH, -⟩ := C40_circuit hI.noSelf vals flux u w0 hw h hh hne
  have hcard : Fintype.card (Idx (bd.dims w.circ.m)) = N := by
    have hd : ∀ i, bd.dims w.circ.m i = N := by
      intro i
      have hi0 : (i : ℕ) = 0 := by have := i.2; have hk' : bd.M.keep.length = 1 := hk; omega
      show (w.circ.m.getD i 0).toNat = N
      rw [hmN, hi0]
      rfl
    have : Fintype.card (Idx (bd.dims w.circ.m)) = ∏ i, bd.dims w.circ.m i := by
      unfold Idx
      simp
    rw [this, Finset.prod_congr rfl fun i _ => hd i, Finset.prod_const, Finset.card_fin]
    have hk' : bd.M.keep.length = 1 := hk
    rw [hk', pow_one]
  obtain ⟨F, ev, a, dH, f1, f2, f3, f4, f5⟩ := C116_slope_partial he ha hcaps hwt 1 hI hr vals hV0 flux u w0 hw h hh
    (fun h1 h2 he => hIV _ (hupd h1 h2 he)) e hel (hatt.imp id (by
      intro h q hq
      change q ∈ placements (oneEdge ids) at hq
      simp [placements, oneEdge] at hq
      obtain ⟨i, hi, rfl⟩ := hq
      exact h i hi)) hlast (hIV _ hval) hne (by
      intro i j _
      have hi := i.2
      have hj := j.2
      change (i : ℕ) < (junctionEdges O (oneEdge ids)).length at hi
      change (j : ℕ) < (junctionEdges O (oneEdge ids)).length at hj
      exact Fin.ext (by omega)) num h1 (by rw [hcard]; exact hN)
  refine ⟨F, ev, a, dH, f1, f2, f3, f4, ?_⟩
  intro p hp
  obtain ⟨w0', hw', hall⟩ := C97_transmon torch fd O ids hj hcaps hnl lh lib hlib sv hsv argsort hsrt argmax ham draws eigs as
    he ha vals hv flux u
  have : w0' = w0 := by rw [hw] at hw'; exact (Except.ok.inj hw').symm
  subst this
  obtain ⟨F', v', hd', hl', hs'⟩ := hall h hh hupd (fun i _ => hlast i) hval hE hu N num hmN h1 hN
  have hFF : F' = F (w.vals e) := by
    have := hd'.symm.trans f2
    exact (Prod.mk.inj (Except.ok.inj this)).1
  rw [hFF] at hs' hl'
  obtain ⟨⟨r, r1, r2⟩, hg⟩ := f5 p hp (simple_of_strict hs' (by omega))
  obtain ⟨r', r3, r4⟩ := hg (simple_of_strict hs' (by omega))
  exact ⟨r, r', r1, r3, r2, r4⟩

end SQ
