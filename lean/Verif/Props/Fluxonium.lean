import Verif.Lemmas.Fluxonium
import Verif.Props.Constructed
import Verif.Props.Describe
import Verif.Props.CircuitState

/-! # C80: the fluxonium from dictionary to Hamiltonian -/

namespace SQ
open Matrix Spec Real

theorem arrayOf_one : ∀ l : List (List ℤ), l = [[1]] → ∀ i j, arrayOf 1 l i j = 1 := by
  rintro _ rfl i j
  fin_cases i; fin_cases j
  simp [arrayOf, rowVec]

/-- a product of 4th roots: φ_zp·w does not depend on the scale of the mode -/
theorem zp_scale {x L C : ℝ} (hx : x ≠ 0) (hL : 0 < L) (hC : 0 < C) :
    2 * π / Phi0 * √(hbar / 2 * √(x⁻¹ * C⁻¹ * x⁻¹ / (x * (1 / L) * x))) * x =
      (if 0 < x then 1 else -1) * lcPhaseZp L C := by
  have e : x⁻¹ * C⁻¹ * x⁻¹ / (x * (1 / L) * x) = (L / C) * ((x ^ 2)⁻¹) ^ 2 := by
    field_simp
  have hx2 : 0 < x ^ 2 := by positivity
  have hh := hbar_pos
  have hr : √(L / C * ((x ^ 2)⁻¹) ^ 2) = √(L / C) * (x ^ 2)⁻¹ := by
    rw [Real.sqrt_mul (by positivity), Real.sqrt_sq (by positivity)]
  rw [e, hr, ← mul_assoc, Real.sqrt_mul (x := hbar / 2 * √(L / C)) (by positivity), Real.sqrt_inv,
    Real.sqrt_sq_eq_abs]
  unfold lcPhaseZp
  have hax : |x| ≠ 0 := abs_ne_zero.2 hx
  split
  · rename_i h
    rw [abs_of_pos h]
    field_simp
  · rename_i h
    rw [abs_of_neg (lt_of_le_of_ne (not_lt.1 h) hx)]
    field_simp

theorem fx_facts {torch : Bool} {h : LoopId → LoopObj} {lib : ∀ n, NumLib n}
    (hlib : ∀ n, ∀ C L : Matrix (Fin n) (Fin n) ℝ, C.PosDef → L.PosSemidef → LibSpec (lib n) C L)
    {sv : SvdFn} (hsv : SvdSpec sv) {argsort : ArgsortFn} {argmax : ∀ k, ArgmaxFn k}
    (hm : ∀ k, ArgmaxSpec (argmax k)) {draws : Draws} {vals : ElemId → ℝ}
    (hL : 0 < vals 0) (h1 : 0 < vals 1) (h3 : 0 < vals 3)
    (hz : 1e-11 ≤ lcPhaseZp (vals 0) (vals 1 + vals 3)) {b : Build}
    (hb : buildCirc (fluxoniumSpec torch h lib sv argsort argmax draws) vals = .ok b) :
    b.M.keep.length = 1 ∧ Aligned b.M ∧ b.loops = [0] ∧
    (∀ q l, b.B q l = if (q : ℕ) = 0 then 0 else -1) ∧
    (∀ i, b.M.omega i = lcFrequency (vals 0) (vals 1 + vals 3)) ∧
    ∃ s : ℝ, (s = 1 ∨ s = -1) ∧ ∀ q i, b.M.w q i * b.M.data.phiZp i =
      s * lcPhaseZp (vals 0) (vals 1 + vals 3) := by
  have hgood := fx_good torch h hlib sv argsort hm draws hL h1 h3
  have h78 := C78_circuit _ _ hgood b hb
  obtain ⟨n, a, B, t, hn, htr, hB, ht, rfl⟩ := buildCirc_stages hb
  obtain ⟨hn', a', ha', hC, hLm, hW, hJ⟩ := fx_traverse torch h hL
  have hn1 : n = 1 := by
    have h' : numNodes fluxoniumEls = .ok n := hn
    rw [hn'] at h'
    exact (Except.ok.inj h').symm
  subst hn1
  have haa : a = a' := by
    have h' : traverse torch .junctions (fluxoniumObjs.withVals vals) 1 h fluxoniumEls = .ok a := htr
    rw [ha'] at h'
    exact (Except.ok.inj h').symm
  subst haa
  have hCpos : 0 < vals 1 + vals 3 := by positivity
  obtain ⟨hls, hgs⟩ := hgood.lib 1 a hn htr
  have hlen : a.wMat.length = 1 := by rw [hW]; rfl
  have hWe := arrayOf_one a.wMat hW
  obtain ⟨hcan, hcI, hl, -, -, hw⟩ := C26_canonical_construction _ _ _ _ (hm _) _ _ _ _
    (by rw [hC]; exact fx_posdef hCpos) (by rw [hLm]; exact (fx_posdef (by positivity)).isHermitian)
    (arrayOf 1 a.wMat) hls hgs _ t ht
  -- entries of the 1×1 matrices
  set x := t.S 0 0 with hx
  have hsr : x * t.R 0 0 = 1 := by
    have := congrFun (congrFun hcan 0) 0
    simpa [mul_apply] using this
  have hx0 : x ≠ 0 := left_ne_zero_of_mul_eq_one hsr
  have hr : t.R 0 0 = x⁻¹ := eq_inv_of_mul_eq_one_right hsr
  have hCinv : a.cMat⁻¹ 0 0 = (vals 1 + vals 3)⁻¹ := by
    rw [hC]
    have : (Matrix.of (fun _ _ => vals 1 + vals 3) : Matrix (Fin 1) (Fin 1) ℝ) =
        diagonal (fun _ => vals 1 + vals 3) := by
      ext i j; fin_cases i; fin_cases j; simp
    rw [this, inv_eq_right_inv (B := diagonal (fun _ => (vals 1 + vals 3)⁻¹))]
    · simp
    · rw [diagonal_mul_diagonal, ← diagonal_one]
      congr 1
      funext _
      exact mul_inv_cancel₀ hCpos.ne'
  have hcI0 : t.cInv 0 0 = x⁻¹ * (vals 1 + vals 3)⁻¹ * x⁻¹ := by
    rw [hcI]; simp only [mul_apply, Fin.sum_univ_one, transpose_apply, hr, hCinv]
  have hl0 : t.l 0 0 = x * (1 / vals 0) * x := by
    rw [hl, hLm]; simp only [mul_apply, Fin.sum_univ_one, transpose_apply, of_apply, ← hx]
  have hlpos : 0 < t.l 0 0 := by
    rw [hl0]
    have : 0 < x * x := mul_self_pos.2 hx0
    have : x * (1 / vals 0) * x = (x * x) * (1 / vals 0) := by ring
    rw [this]; positivity
  have hWS : ∀ q, (arrayOf 1 a.wMat * t.S) q 0 = x := by
    intro q; simp only [mul_apply, Fin.sum_univ_one, hWe, one_mul, ← hx]
  have hzp : t.phiZp 0 * x = (if 0 < x then 1 else -1) * lcPhaseZp (vals 0) (vals 1 + vals 3) := by
    unfold Trans.phiZp Trans.impedance
    rw [hcI0, hl0]
    exact zp_scale hx0 hL hCpos
  have hzabs : |t.phiZp 0 * x| = lcPhaseZp (vals 0) (vals 1 + vals 3) := by
    have hp : 0 ≤ lcPhaseZp (vals 0) (vals 1 + vals 3) := le_trans (by norm_num) hz
    rw [hzp]
    split
    · rw [one_mul, abs_of_nonneg hp]
    · rw [neg_one_mul, abs_neg, abs_of_nonneg hp]
  have h32 := (C32_uncoupled_removal t).2.2 torch
  have hget : ∀ i, (finishModes torch t).keep.get i = 0 := fun i => Subsingleton.elim _ _
  have hne : ∀ i, (finishModes torch t).omega i ≠ 0 := by
    intro i h0
    have := (h78.2.2.2 i i h0).1
    have e : (finishModes torch t).l i i = t.l 0 0 := by
      rw [(h32.2.2.2 i i).2, hget]
    rw [← e] at hlpos
    exact hlpos.ne' this
  have hwne : ∀ q, t.w q 0 = x := by
    intro q
    have hom : t.omega 0 ≠ 0 := by
      intro h0
      -- the mode would be a charge mode without inductive energy
      have hk := C78_modes (lib 1) sv argsort (argmax _) (hm _) draws _ _ _ (by rw [hC]; exact fx_posdef hCpos)
        (by rw [hLm]; exact (fx_posdef (by positivity)).posSemidef) _ hls _ t ht true
      have h32' := (C32_uncoupled_removal t).2.2 true
      have hkl : (finishModes true t).keep.length = 1 := by
        rw [(C32_uncoupled_removal t).2.1.2]; simp
      let i0 : Fin (finishModes true t).keep.length := ⟨0, by omega⟩
      have hg0 : (finishModes true t).keep.get i0 = 0 := Subsingleton.elim _ _
      have := (hk.2.2.2 i0 i0 (by rw [h32'.2.1 i0, hg0, h0])).1
      rw [(h32'.2.2.2 i0 i0).2, hg0] at this
      exact hlpos.ne' this
    rcases hw 0 q hom with h' | ⟨-, h'⟩
    · rw [h', hWS]
    · rw [hWS, hzabs] at h'
      exact absurd h' (not_lt.2 hz)
  have E1 : ∀ i, (finishModes torch t).data.cInv i i = t.cInv 0 0 := by
    intro i
    change (finishModes torch t).cInv i i = _
    rw [(h32.2.2.2 i i).1, hget]
  have E2 : ∀ i, (finishModes torch t).data.l i i = t.l 0 0 := by
    intro i
    change (finishModes torch t).l i i = _
    rw [(h32.2.2.2 i i).2, hget]
  have E3 : ∀ q i, (finishModes torch t).w q i = x := by
    intro q i
    rw [h32.2.2.1, hget, hwne]
  have hkeep : (finishModes torch t).keep.length = 1 := by
    cases torch with
    | true => rw [(C32_uncoupled_removal t).2.1.2]; simp
    | false =>
      have hmem : (0 : Fin 1) ∈ (finishModes false t).keep := by
        rw [(C32_uncoupled_removal t).1 (by omega)]
        exact ⟨⟨0, by omega⟩, by rw [hwne]; exact hx0⟩
      have hpw := h32.1
      have hnd : (finishModes false t).keep.Nodup := hpw.imp (fun h => ne_of_lt h)
      have h1 := hnd.length_le_card
      have h2 := List.length_pos_of_mem hmem
      simp at h1
      omega
  refine ⟨hkeep, ?_, ?_, ?_, ?_, (if 0 < x then 1 else -1), ?_, ?_⟩
  · intro i
    have : (i : ℕ) < (finishModes torch t).keep.length := i.2
    have h2 := ((finishModes torch t).keep.get i).2
    have h2' : (((finishModes torch t).keep.get i : Fin 1) : ℕ) = 0 := by omega
    have hi0 : (i : ℕ) = 0 := by omega
    exact h2'.trans hi0.symm
  · obtain ⟨a'', B'', e1, -, e3, -⟩ := fx_flux (vals := vals) sv hsv torch h hL
    unfold getLCWB at e1
    rw [ha'] at e1
    simp only at e1
    split at e1
    · cases e1
    · simp only [Except.ok.injEq, Sigma.mk.injEq] at e1
      obtain ⟨rfl, -⟩ := e1
      exact e3
  · obtain ⟨a'', B'', e1, -, e3, e4⟩ := fx_flux (vals := vals) sv hsv torch h hL
    unfold getLCWB at e1
    rw [ha'] at e1
    simp only at e1
    split at e1
    · cases e1
    · rename_i B0 hB0
      simp only [Except.ok.injEq, Sigma.mk.injEq] at e1
      obtain ⟨rfl, e1⟩ := e1
      have e1 := eq_of_heq e1
      subst e1
      have hB' : fluxMatrix sv 1 a.st.kMat a.st.cEdge (a.st.loops.map a.st.loopHeap) = .ok B := hB
      rw [hB0] at hB'
      have := Except.ok.inj hB'
      subst this
      intro q l
      exact e4 q _
  · intro i
    have hh := (h78.2.2.1 i (hne i)).2.2
    have e1 := E1 i
    have e2 := E2 i
    have hh' : (finishModes torch t).omega i =
      √((finishModes torch t).data.cInv i i * (finishModes torch t).data.l i i) := hh
    change (finishModes torch t).omega i = _
    rw [hh', e1, e2, hcI0, hl0]
    unfold lcFrequency
    rw [one_div (√_), ← Real.sqrt_inv]
    congr 1
    field_simp
  · split <;> simp
  · intro q i
    have e1 := E1 i
    have e2 := E2 i
    have e3 := E3 q i
    change (finishModes torch t).w q i * (finishModes torch t).data.phiZp i = _
    have e4 : (finishModes torch t).data.phiZp i = t.phiZp 0 := by
      unfold ModeData.phiZp ModeData.impedance Trans.phiZp Trans.impedance
      rw [e1, e2]
    rw [e3, e4, mul_comm, hzp]

theorem finRange_one : ∀ k, k = 1 → ∀ i : Fin k, List.finRange k = [i] := by
  rintro _ rfl i
  fin_cases i
  rfl

theorem tens_single {k : ℕ} (hk : k = 1) (m : Fin k → ℕ) (f : ∀ i, Matrix (Fin (m i)) (Fin (m i)) ℂ) (i : Fin k) :
    tens f = onMode m i (f i) := by
  unfold onMode
  congr 1
  funext j
  have : j = i := by
    apply Fin.ext
    omega
  subst this
  simp

theorem singleton_keys {K : Type*} {l : List K} {f : K → ℕ × ElemId} {p : ℕ × ElemId} (h : l.map f = [p]) :
    ∃ k, l = [k] ∧ f k = p := by
  match l, h with
  | [k], h => exact ⟨k, rfl, by simpa using h⟩

/-- C80: For every inductance, capacitances and Josephson energy, the constructor accepts the fluxonium
circuit (with exact numerical routines); the circuit has one harmonic mode and one loop, and its
Hamiltonian in any truncation and at any external flux is ω a†a - E_J cos(±φ - φ_ext), with
ω = 1/√(LC) and φ_zp = (2π/Φ₀)√(ħ√(L/C)/2). (Zero-point fluctuations below 1e-11 are treated as zero by the
code; L and C are the inductance and the sum of the two capacitances.) -/
theorem C80_fluxonium (torch : Bool) (h : LoopId → LoopObj) (lib : ∀ n, NumLib n)
    (hlib : ∀ n, ∀ C L : Matrix (Fin n) (Fin n) ℝ, C.PosDef → L.PosSemidef → LibSpec (lib n) C L)
    (sv : SvdFn) (hsv : SvdSpec sv) (argsort : ArgsortFn) (argmax : ∀ k, ArgmaxFn k)
    (hm : ∀ k, ArgmaxSpec (argmax k)) (draws : Draws) (vals : ElemId → ℝ)
    (hL : 0 < vals 0) (h1 : 0 < vals 1) (h3 : 0 < vals 3)
    (hz : 1e-11 ≤ lcPhaseZp (vals 0) (vals 1 + vals 3)) :
    ∃ b, buildCirc (fluxoniumSpec torch h lib sv argsort argmax draws) vals = .ok b ∧
      b.M.keep.length = 1 ∧ b.loops = [0] ∧
      ∃ s : ℝ, (s = 1 ∨ s = -1) ∧
        ∀ (flux : LoopId → ℝ) (m : Fin b.M.keep.length → ℕ) (ng : Fin b.M.keep.length → ℝ)
          (i : Fin b.M.keep.length),
          fullHamiltonian b.C b.M m ng vals (b.fluxes flux) b.inds b.juns =
            .ok (fluxoniumHamiltonian m i (vals 0) (vals 1 + vals 3) (vals 2) s (- flux 0)) := by
  have hgood := fx_good torch h hlib sv argsort hm draws hL h1 h3
  have hex : ∃ b, buildCirc (fluxoniumSpec torch h lib sv argsort argmax draws) vals = .ok b := by
    obtain ⟨hn, a, ha, -, -, -, hJ⟩ := fx_traverse torch h hL
    obtain ⟨a'', B'', e1, -⟩ := fx_flux (vals := vals) sv hsv torch h hL
    unfold getLCWB at e1
    rw [ha] at e1
    simp only at e1
    split at e1
    · cases e1
    · rename_i B0 hB0
      exact buildCirc_ok hgood hn ha hB0 (.inl hJ) (le_refl 3)
  obtain ⟨b, hb⟩ := hex
  obtain ⟨hk, hal, hlo, hB, hom, s, hs, hw⟩ := fx_facts hlib hsv hm hL h1 h3 hz hb
  refine ⟨b, hb, hk, hlo, s, hs, ?_⟩
  intro flux m ng i
  have hi0 : ∀ j : Fin b.M.keep.length, j = i := fun j => Fin.ext (by omega)
  have hom0 : ∀ j, b.M.omega j ≠ 0 := by
    intro j
    rw [hom]
    unfold lcFrequency
    positivity
  have h70 := C70_circuit_partial _ _ hgood b hb hal 1 one_ne_zero flux ng m
    (fun i _ _ h0 => absurd h0 (hom0 i))
  rw [h70]
  congr 1
  obtain ⟨-, hin, hju, -⟩ := build_pairs hgood.noSelf hb
  obtain ⟨ki, hki, hki'⟩ := singleton_keys (p := (0, 0)) (hin.trans rfl)
  obtain ⟨kj, hkj, hkj'⟩ := singleton_keys (p := (1, 2)) (hju.trans rfl)
  rw [hki, hkj]
  have hhd : (b.descrip 1 vals flux ng).harDim = 1 := by
    change (Finset.univ.filter (fun i => b.M.omega i ≠ 0)).card = 1
    rw [Finset.filter_true_of_mem (fun j _ => hom0 j), Finset.card_fin, hk]
  have hsum0 : ∑ l, |(b.descrip 1 vals flux ng).B ki.bId l| = 0 := by
    apply Finset.sum_eq_zero
    intro l _
    change |b.B ki.bId l| = 0
    rw [hB, if_pos (Prod.ext_iff.1 hki').1, abs_zero]
  have hi : (i : ℕ) = 0 := by omega
  have hext : extPhase (b.descrip 1 vals flux ng) (b.B kj.bId) = - flux 0 := by
    rw [extPhase_eq]
    unfold Build.fluxes
    rw [extFlux_sum]
    have : ∀ l, b.B kj.bId l = -1 := by
      intro l
      rw [hB, if_neg]
      have := (Prod.ext_iff.1 hkj').1
      simp only at this
      omega
    simp only [this]
    have key : ∀ ls : List LoopId, ls = [0] → ∑ l : Fin ls.length, flux (ls.get l) * -1 = - flux 0 := by
      rintro _ rfl
      simp
    exact key _ hlo
  unfold constructHamiltonian harModeTerms chargeModeTerms inductiveTerms jjTerms
  rw [finRange_one _ hk i, hhd]
  have hf1 : List.filter (fun i : Fin b.M.keep.length => decide ((i : ℕ) < 1)) [i] = [i] := by simp [hi]
  have hf2 : List.filter (fun i : Fin b.M.keep.length => decide (1 ≤ (i : ℕ))) [i] = [] := by simp [hi]
  rw [hf1, hf2]
  simp only [List.zipIdx_cons, List.zipIdx_nil, List.filterMap_cons, List.filterMap_nil, hsum0, if_true,
    List.map_cons, List.map_nil, List.flatMap_nil, List.append_nil, List.singleton_append, evalSum,
    List.sum_cons, List.sum_nil, add_zero]
  have hzi := hw kj.wId i
  simp only [evalSym]
  have hlist : listed (b.descrip 1 vals flux ng).EJ 0 = vals 2 / (2 * π * 1) := by
    change listed (b.juns.map _) 0 = _
    rw [hkj]
    refine listed_map [kj] _ (x := kj) rfl ?_
    have : kj.el = 2 := (Prod.ext_iff.1 hkj').2
    simp only [this, jjHz]
  have hmp : modePhase (b.descrip 1 vals flux ng) m ((b.descrip 1 vals flux ng).W kj.wId) i =
      NormedSpace.exp ((Complex.I * (s * lcPhaseZp (vals 0) (vals 1 + vals 3) : ℝ)) •
        (qDestroy (m i) + qCreate (m i))) := by
    unfold modePhase
    rw [if_pos (by rw [hhd, hi]; exact one_pos)]
    rw [← hzi]
    rfl
  have hB2 : (b.descrip 1 vals flux ng).B kj.bId = b.B kj.bId := rfl
  have hpi := Real.pi_pos
  have hom2 : 2 * π * 1 * (b.descrip 1 vals flux ng).omega i = lcFrequency (vals 0) (vals 1 + vals 3) := by
    change 2 * π * 1 * (b.M.omega i / (2 * π * 1)) = _
    rw [hom]
    field_simp
  rw [tens_single hk m _ i, hmp, hB2, hext, hlist, hom2,
    show 2 * π * 1 * (vals 2 / (2 * π * 1)) = vals 2 by field_simp]
  unfold fluxoniumHamiltonian
  simp only [smul_mul_assoc, one_mul, neg_mul, ← sub_eq_add_neg]

/-- admissible values of the fluxonium: positive inductance and capacitances, and zero-point fluctuations
above the threshold of the code -/
def FluxoniumValues (v : ElemId → ℝ) : Prop :=
  0 < v 0 ∧ 0 < v 1 ∧ 0 < v 3 ∧ 1e-11 ≤ lcPhaseZp (v 0) (v 1 + v 3)

theorem fx_caps : CapsOK fluxoniumObjs := by
  intro i
  simp only [fluxoniumObjs]
  by_cases h0 : i = 0
  · simp [h0]
  · by_cases h2 : i = 2
    · simp [h2]
    · simp [h0, h2]

/-- C80 for sessions: after any orderly sequence of calls (value, flux and charge changes, truncations,
updates, diagonalisations, …) in which the values of inductor and capacitors were admissible at
each `update` and not changed since, `hamiltonian()` is the fluxonium Hamiltonian for the current inductance,
capacitance, Josephson energy and external flux. -/
theorem C80_session (torch : Bool) (h : LoopId → LoopObj) (lib : ∀ n, NumLib n)
    (hlib : ∀ n, ∀ C L : Matrix (Fin n) (Fin n) ℝ, C.PosDef → L.PosSemidef → LibSpec (lib n) C L)
    (sv : SvdFn) (hsv : SvdSpec sv) (argsort : ArgsortFn) (argmax : ∀ k, ArgmaxFn k)
    (hm : ∀ k, ArgmaxSpec (argmax k)) (draws : Draws) (eigs as) (vals : ElemId → ℝ)
    (hv : FluxoniumValues vals) (flux : LoopId → ℝ) (u : ℝ) :
    ∃ w0, construct (circPhys (fluxoniumSpec torch h lib sv argsort argmax draws) eigs as) vals flux u = .ok w0 ∧
      ∀ hist : List Act, Orderly w0 hist →
        (∀ h1 h2, hist = h1 ++ .update :: h2 → FluxoniumValues (run w0 h1).vals) →
        let w := run w0 hist
        (∀ i, i ≠ 2 → w.vals i = lastBuilt vals w0 hist i) → FluxoniumValues w.vals → w.circ.m ≠ [] →
        ∃ (k : ℕ) (d : Fin k → ℕ) (s : ℝ), k = 1 ∧ (∀ i, d i = (w.circ.m.getD i 0).toNat) ∧ (s = 1 ∨ s = -1) ∧
          ∀ i : Fin k, (hamiltonian w).1 = .ok ⟨k, d, fluxoniumHamiltonian d i (w.vals 0) (w.vals 1 + w.vals 3)
            (w.vals 2) s (- w.flux 0)⟩ := by
  obtain ⟨b, hb, hk, -⟩ := C80_fluxonium torch h lib hlib sv hsv argsort argmax hm draws vals hv.1 hv.2.1
    hv.2.2.1 hv.2.2.2
  have hcon : ∃ w0, construct (circPhys (fluxoniumSpec torch h lib sv argsort argmax draws) eigs as) vals flux u =
      .ok w0 := by
    have hb' : (circPhys (fluxoniumSpec torch h lib sv argsort argmax draws) eigs as).build vals = .ok b := hb
    unfold construct
    rw [hb']
    exact ⟨_, rfl⟩
  obtain ⟨w0, hw⟩ := hcon
  refine ⟨w0, hw, ?_⟩
  intro hist hord hupd w hlast hval hm0
  have hrem : NoRemoval (fluxoniumSpec torch h lib sv argsort argmax draws) w0 hist := by
    intro h1 h2 he
    right
    have hb0 := (construct_build hw).1
    have hbb : w0.circ.bd = b := by
      have : buildCirc (fluxoniumSpec torch h lib sv argsort argmax draws) vals = .ok w0.circ.bd := hb0
      rw [hb] at this
      exact (Except.ok.inj this).symm
    refine ⟨?_, ?_⟩
    · have : w0.circ.bd.k = 1 := by rw [hbb]; exact hk
      rw [this]
      exact (fx_traverse (vals := vals) torch h hv.1).1
    · intro b' hb'
      have hva := hupd h1 h2 he
      have h1' := (fx_facts hlib hsv hm hva.1 hva.2.1 hva.2.2.1 hva.2.2.2 hb').1
      obtain ⟨n, a, B, t, hn, -, -, -, rfl⟩ := buildCirc_stages hb'
      have hn1 : n = 1 := by
        have h' : numNodes fluxoniumEls = .ok n := hn
        rw [(fx_traverse (vals := vals) torch h hv.1).1] at h'
        exact (Except.ok.inj h').symm
      exact h1'.trans hn1.symm
  obtain ⟨b', hb', hham⟩ := C48_circuit (c := fluxoniumSpec torch h lib sv argsort argmax draws) (eigs := eigs)
    (as := as) fx_caps vals flux u w0 hw hist hord hrem (by
      intro i hi
      refine hlast i ?_
      rintro rfl
      exact hi rfl) hm0
  obtain ⟨b'', hb'', hk', -, s, hs, hH⟩ := C80_fluxonium torch h lib hlib sv hsv argsort argmax hm draws w.vals
    hval.1 hval.2.1 hval.2.2.1 hval.2.2.2
  have : b' = b'' := by
    have hb3 : buildCirc (fluxoniumSpec torch h lib sv argsort argmax draws) w.vals = .ok b' := hb'
    rw [hb''] at hb3
    exact (Except.ok.inj hb3).symm
  subst this
  refine ⟨_, b'.dims w.circ.m, s, hk', fun _ => rfl, hs, ?_⟩
  intro i
  rw [hham, hH w.flux _ _ i]
  rfl

/-- admissible values: L = 2, C = 1 + 1 (SI units), E_J/ħ = 5 -/
theorem fx_example_values : FluxoniumValues (fun i => if i = 0 then 2 else if i = 2 then 5 else 1) := by
  refine ⟨by norm_num, by norm_num, by norm_num, ?_⟩
  unfold lcPhaseZp
  have e : ((fun i : ElemId => if i = 0 then (2 : ℝ) else if i = 2 then 5 else 1) 0 /
      ((fun i : ElemId => if i = 0 then (2 : ℝ) else if i = 2 then 5 else 1) 1 +
        (fun i : ElemId => if i = 0 then (2 : ℝ) else if i = 2 then 5 else 1) 3)) = 1 := by
    norm_num
  rw [e, Real.sqrt_one, mul_one]
  have h1 : (1e-18 : ℝ) ≤ √(hbar / 2) := by
    apply Real.le_sqrt_of_sq_le
    unfold hbar
    norm_num
  have h2 : (4 : ℝ) ≤ 2 * π := by have := Real.two_le_pi; linarith
  have h3 : (1e15 : ℝ) ≤ 2 * π / Phi0 := by
    rw [le_div_iff₀ Phi0_pos]
    refine le_trans ?_ h2
    unfold Phi0
    norm_num
  calc (1e-11 : ℝ) ≤ 1e15 * 1e-18 := by norm_num
    _ ≤ _ := mul_le_mul h3 h1 (by norm_num) (le_trans (by norm_num) h3)

/-- routines and values meeting all hypotheses exist: a fluxonium with a session in which the flux is set -/
example (eigs as) : ∃ (lib : ∀ n, NumLib n) (sv : SvdFn) (argsort : ArgsortFn) (argmax : ∀ k, ArgmaxFn k) (w0 : _),
    construct (circPhys (fluxoniumSpec false (fun _ => LoopObj.init 0 0) lib sv argsort argmax (fun _ _ => 0))
      eigs as) (fun i => if i = 0 then 2 else if i = 2 then 5 else 1) (fun _ => 0) 1 = .ok w0 := by
  choose lib hlib using exists_lib
  choose argmax hm using exists_argmax
  obtain ⟨argsort, -⟩ := exists_argsort
  obtain ⟨w0, hw, -⟩ := C80_session false (fun _ => LoopObj.init 0 0) lib hlib exSv exSv_spec argsort argmax hm
    (fun _ _ => 0) eigs as _ fx_example_values (fun _ => 0) 1
  exact ⟨lib, exSv, argsort, argmax, w0, hw⟩

/-- and its loop description is printed (C72) -/
example : ∃ (c : CircSpec) (vals : ElemId → ℝ) (b : Build), NoSelfLoops c.els ∧ buildCirc c vals = .ok b ∧
    b.loops ≠ [] := by
  choose lib hlib using exists_lib
  choose argmax hm using exists_argmax
  obtain ⟨argsort, -⟩ := exists_argsort
  have hv := fx_example_values
  obtain ⟨b, hb, -, hl, -⟩ := C80_fluxonium true (fun _ => LoopObj.init 0 0) lib hlib exSv exSv_spec argsort
    argmax hm (fun _ _ => 0) (fun i => if i = 0 then 2 else if i = 2 then 5 else 1) hv.1 hv.2.1 hv.2.2.1 hv.2.2.2
  exact ⟨_, _, b, (fx_good (vals := fun i => if i = 0 then 2 else if i = 2 then 5 else 1) true _ hlib exSv argsort hm _ hv.1
    hv.2.1 hv.2.2.1).noSelf, hb, by rw [hl]; simp⟩

end SQ
