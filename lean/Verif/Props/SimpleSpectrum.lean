import Verif.Props.Transmon
import Verif.Props.LevelsSession
import Verif.Props.DephasingExample
import Verif.Props.Reversal

/-!
# C97: transmons and asymmetric SQUIDs have no degenerate levels; C94-C96: circuits that meet the hypotheses
-/

namespace SQ
open Matrix Complex SQ.Spec Filter Topology

section
variable {ι : Type*} [Fintype ι] [DecidableEq ι]

/-- an eigenvector of a chain is determined by its first component -/
theorem chain_zero {r : ι → ℕ} (hr : Function.Injective r) (hc : ∀ y, ∀ n < r y, ∃ x, r x = n) {H : Matrix ι ι ℂ}
    (h0 : ∀ x y, r x + 1 < r y → H x y = 0) (h1 : ∀ x y, r x + 1 = r y → H x y ≠ 0) {v : ι → ℂ} {w : ℂ}
    (he : H *ᵥ v = w • v) (hv : ∀ x, r x = 0 → v x = 0) : v = 0 := by
  have key : ∀ n y, r y ≤ n → v y = 0 := by
    intro n
    induction n with
    | zero => intro y hy; exact hv y (by omega)
    | succ n ih =>
      intro y hy
      rcases Nat.lt_or_ge n (r y) with h | h
      · obtain ⟨x, hx⟩ := hc y n h
        have hrow := congrFun he x
        rw [Pi.smul_apply, ih x (by omega), smul_zero] at hrow
        have hsum : (H *ᵥ v) x = H x y * v y := by
          show ∑ z, H x z * v z = _
          refine Finset.sum_eq_single y (fun z _ hz => ?_) (fun h => absurd (Finset.mem_univ y) h)
          rcases Nat.lt_or_ge (r z) (n + 1) with h' | h'
          · rw [ih z (by omega), mul_zero]
          · rw [h0 x z, zero_mul]
            have : r z ≠ r y := fun h => hz (hr h)
            omega
        rw [hsum] at hrow
        exact (mul_eq_zero.1 hrow).resolve_left (h1 x y (by omega))
      · exact ih y h
  funext y
  exact key _ y le_rfl

/-- the levels of a chain are not degenerate -/
theorem chain_nodup {r : ι → ℕ} (hr : Function.Injective r) (hc : ∀ y, ∀ n < r y, ∃ x, r x = n) {H : Matrix ι ι ℂ}
    (h0 : ∀ x y, r x + 1 < r y → H x y = 0) (h1 : ∀ x y, r x + 1 = r y → H x y ≠ 0)
    {vs : List (ι → ℂ)} {ws : List ℝ} (hl : Levels H vs ws) : ws.Nodup := by
  rw [List.nodup_iff_injective_get]
  intro i j hij
  by_contra hne
  have hi : (i : ℕ) < vs.length := hl.len ▸ i.isLt
  have hj : (j : ℕ) < vs.length := hl.len ▸ j.isLt
  have e1 := hl.eigen i hi
  have e2 := hl.eigen j hj
  have hij' : ws[(i : ℕ)] = ws[(j : ℕ)] := hij
  have n1 := hl.orth ⟨i, hi⟩ ⟨i, hi⟩
  have n2 := hl.orth ⟨j, hj⟩ ⟨j, hj⟩
  have n3 := hl.orth ⟨i, hi⟩ ⟨j, hj⟩
  rw [if_pos rfl] at n1 n2
  rw [if_neg (by simpa [Fin.ext_iff] using hne)] at n3
  simp only [List.get_eq_getElem] at n1 n2 n3
  rw [← hij'] at e2
  generalize vs[(i : ℕ)] = a at *
  generalize vs[(j : ℕ)] = b at *
  by_cases hx : ∃ x, r x = 0
  · obtain ⟨x, hx⟩ := hx
    have hz : b x • a - a x • b = 0 := by
      refine chain_zero hr hc h0 h1 (w := ((ws[(i : ℕ)] : ℝ) : ℂ)) ?_ ?_
      · rw [mulVec_sub, mulVec_smul, mulVec_smul, e1, e2]
        rw [smul_sub, smul_comm (b x), smul_comm (a x)]
      · intro y hy
        rw [hr (hy.trans hx.symm)]
        simp [mul_comm]
    have hb : b x = 0 := by
      have h2 : ∑ z, (starRingEnd ℂ) (a z) * (b x • a - a x • b) z = 0 := by rw [hz]; simp
      have h3 : ∑ z, (starRingEnd ℂ) (a z) * (b x • a - a x • b) z =
          b x * (∑ z, (starRingEnd ℂ) (a z) * a z) - a x * ∑ z, (starRingEnd ℂ) (a z) * b z := by
        rw [Finset.mul_sum, Finset.mul_sum, ← Finset.sum_sub_distrib]
        refine Finset.sum_congr rfl fun z _ => ?_
        simp only [Pi.sub_apply, Pi.smul_apply, smul_eq_mul]
        ring
      rw [h3, n1, n3] at h2
      simpa using h2
    have : b = 0 := chain_zero hr hc h0 h1 e2 fun y hy => by rw [hr (hy.trans hx.symm)]; exact hb
    rw [this] at n2
    simp at n2
  · have : b = 0 := by
      funext y
      exfalso
      rcases Nat.eq_zero_or_pos (r y) with h | h
      · exact hx ⟨y, h⟩
      · exact hx (hc y 0 h)
    rw [this] at n2
    simp at n2

end

/-- charge states with nearest-neighbour coupling have no degenerate levels -/
theorem charge_nodup : ∀ {k : ℕ} (_ : k = 1) (d : Fin k → ℕ) (i : Fin k) (C ng : ℝ) (z : ℂ), z ≠ 0 →
    ∀ {vs : List (Idx d → ℂ)} {ws : List ℝ},
    Levels (charging d i C ng - (z • onMode d i (chargeRaise (d i)) + (z • onMode d i (chargeRaise (d i)))ᴴ)) vs ws →
    ws.Nodup := by
  rintro k rfl d i C ng z hz vs ws hl
  obtain rfl : i = 0 := Subsingleton.elim _ _
  have hinj : Function.Injective fun x : Idx d => ((x 0 : Fin (d 0)) : ℕ) := by
    intro x y h
    funext j
    obtain rfl : j = 0 := Subsingleton.elim _ _
    exact Fin.ext h
  have hdiag : ∀ x y : Idx d, x ≠ y → charging d 0 C ng x y = 0 := by
    intro x y hxy
    unfold charging
    rw [onMode_eq]
    unfold qCharge
    rw [single_diagonal]
    have : ((ng : ℂ) • (1 : Op d)) = diagonal fun _ => (ng : ℂ) := by
      rw [← Matrix.diagonal_one, ← Matrix.diagonal_smul]
      congr 1; funext; simp
    rw [this, Matrix.diagonal_sub, diagonal_mul_diagonal, ← Matrix.diagonal_smul, diagonal_apply_ne _ hxy]
  have hraise : ∀ x y : Idx d, onMode d 0 (chargeRaise (d 0)) x y =
      if ((x 0 : Fin (d 0)) : ℕ) = (y 0 : Fin (d 0)) + 1 then 1 else 0 := by
    intro x y
    unfold onMode tens
    simp [Matrix.of_apply, chargeRaise]
  refine chain_nodup hinj ?_ ?_ ?_ hl
  · intro y n hn
    exact ⟨fun j => Fin.cast (by rw [Subsingleton.elim j 0]) (⟨n, hn.trans (y 0).isLt⟩ : Fin (d 0)), by simp⟩
  · intro x y hxy
    have hxy' : ((x 0 : Fin (d 0)) : ℕ) + 1 < (y 0 : Fin (d 0)) := hxy
    have hne : x ≠ y := by rintro rfl; omega
    rw [Matrix.sub_apply, hdiag x y hne, Matrix.add_apply, conjTranspose_apply, Matrix.smul_apply, Matrix.smul_apply,
      hraise, hraise, if_neg (by omega), if_neg (by omega)]
    simp
  · intro x y hxy
    have hxy' : ((x 0 : Fin (d 0)) : ℕ) + 1 = (y 0 : Fin (d 0)) := hxy
    have hne : x ≠ y := by rintro rfl; omega
    rw [Matrix.sub_apply, hdiag x y hne, Matrix.add_apply, conjTranspose_apply, Matrix.smul_apply, Matrix.smul_apply,
      hraise, hraise, if_neg (by omega), if_pos (by omega)]
    simpa using hz

section
variable {c : CircSpec} {eigs : EigsFn} {as : List ℂ → List ℕ}

/-- the number of states of a one-mode Hamiltonian is the truncation number -/
theorem ham_card (hs : NoSelfLoops c.els) {vals : ElemId → ℝ} {flux : LoopId → ℝ} {u : ℝ}
    {w0 : World (circPhys c eigs as)} (hw : construct (circPhys c eigs as) vals flux u = .ok w0)
    {h : List Act} (hh : Orderly w0 h) {N : ℕ} (hm : (run w0 h).circ.m = [(N : ℤ)]) {k : ℕ} {d : Fin k → ℕ} {H : Op d}
    (hk : k = 1) (hH : (hamiltonian (run w0 h)).1 = .ok ⟨k, d, H⟩) : Fintype.card (Idx d) = N := by
  obtain ⟨-, -, -, hham⟩ := ham_now hs hw hh (by rw [hm]; exact List.cons_ne_nil _ _)
  have h3 := hham _ rfl
  rw [hH] at h3
  cases hf : fullHamiltonian (run w0 h).circ.bd.C (run w0 h).circ.bd.M
      (Build.dims (run w0 h).circ.bd (run w0 h).circ.m)
      (fun i => ((run w0 h).circ.ng i).getD 0) (run w0 h).vals (Build.fluxes (run w0 h).circ.bd (run w0 h).flux)
      (run w0 h).circ.bd.inds (run w0 h).circ.bd.juns with
  | error e => rw [hf] at h3; cases h3
  | ok X =>
    rw [hf] at h3
    injection h3 with h3
    injection h3 with h4 h5
    have gen : ∀ (k' : ℕ) (d' : Fin k' → ℕ) (X : Op d'), k = k' → (∀ i, d' i = ([(N : ℤ)].getD i 0).toNat) →
        HEq (⟨d, H⟩ : Σ d : Fin k → ℕ, Op d) (⟨d', X⟩ : Σ d : Fin k' → ℕ, Op d) → Fintype.card (Idx d) = N := by
      rintro k' d' X rfl hd' hq
      have h6 := eq_of_heq hq
      injection h6 with h7 h8
      subst hk
      subst h7
      unfold Idx
      have h9 := hd' 0
      simp at h9 ⊢
      exact h9
    refine gen _ _ X h4 ?_ h5
    intro i
    show ((run w0 h).circ.m.getD i 0).toNat = _
    rw [hm]

/-- frequencies of a session whose Hamiltonian is a chain of charge states -/
theorem strict_of_chain (he : EigsLowest eigs) (ha : CArgsortSpec as) (hs : NoSelfLoops c.els)
    {vals : ElemId → ℝ} {flux : LoopId → ℝ} {u : ℝ}
    {w0 : World (circPhys c eigs as)} (hw : construct (circPhys c eigs as) vals flux u = .ok w0)
    {h : List Act} (hh : Orderly w0 h) {N : ℕ} (hm : (run w0 h).circ.m = [(N : ℤ)]) {k : ℕ} {d : Fin k → ℕ}
    (hk : k = 1) (i : Fin k) {C ng : ℝ} {z : ℂ} (hz : z ≠ 0)
    (hH : (hamiltonian (run w0 h)).1 = .ok ⟨k, d,
      charging d i C ng - (z • onMode d i (chargeRaise (d i)) + (z • onMode d i (chargeRaise (d i)))ᴴ)⟩)
    (hu : 0 < (run w0 h).unitFreq) (num : ℕ) (h1 : 1 ≤ num) (hnum : num + 1 < N) :
    ∃ F v, (diag (some num) (run w0 h)).1 = .ok (F, v) ∧ F.length = num ∧ F.Pairwise (· < ·) := by
  have hne : (run w0 h).circ.m ≠ [] := by rw [hm]; exact List.cons_ne_nil _ _
  obtain ⟨k', d', H', hH', ⟨vs, ws, hl⟩, hlow⟩ := C45_lowest he ha hs vals flux u w0 hw h hh hne num h1
  rw [hH] at hH'
  injection hH' with hH'
  injection hH' with h4 h5
  subst h4
  have h6 := eq_of_heq h5
  injection h6 with h7 h8
  subst h7
  have h9 := eq_of_heq h8
  subst h9
  have hn := charge_nodup hk d i C ng z hz hl
  have hcard : ws.length = N := (hl.len.trans hl.card).trans (ham_card hs hw hh hm hk hH)
  obtain ⟨ev, w', hd, -⟩ := hlow vs ws hl (by rw [hcard]; exact hnum)
  refine ⟨_, _, by rw [hd], ?_, ?_⟩
  · rw [List.length_map, List.length_take, hcard]; omega
  · rw [List.pairwise_map]
    have hp : (ws.take num).Pairwise (· < ·) :=
      ((hl.sorted.and hn).imp fun {a b} hab => lt_of_le_of_ne hab.1 hab.2).sublist (List.take_sublist _ _)
    refine hp.imp fun {a b} hab => ?_
    exact div_lt_div_of_pos_right hab (by positivity)

end

/-- the Josephson terms of a charge mode, as one coupling -/
theorem chargeCos_coupling {k : ℕ} (d : Fin k → ℕ) (i : Fin k) (E x : ℝ) :
    (E : ℂ) • chargeCos d i x = ((E / 2 : ℂ) * Complex.exp (Complex.I * x)) • onMode d i (chargeRaise (d i)) +
      (((E / 2 : ℂ) * Complex.exp (Complex.I * x)) • onMode d i (chargeRaise (d i)))ᴴ := by
  unfold chargeCos
  simp only
  rw [smul_smul, smul_add, conjTranspose_smul, conjTranspose_smul, smul_smul, smul_smul]
  congr 2
  · ring
  · simp only [Complex.star_def, map_mul, map_div₀, Complex.conj_ofReal, map_ofNat]
    ring

/-- C97, transmon: in every session of a transmon (as in C92) whose total Josephson energy is not zero, at every
charge offset the frequencies returned by `diag` are strictly increasing: no level is degenerate. -/
theorem C97_transmon (torch : Bool) (fd : FluxDist) (O : Objs) (ids : List ElemId) (hj : OnlyJunctions O ids)
    (hcaps : CapsOK O) (hnl : ∀ i ∈ ids, (O.elem i).loops = [])
    (h : LoopId → LoopObj) (lib : ∀ n, NumLib n)
    (hlib : ∀ n, ∀ C L : Matrix (Fin n) (Fin n) ℝ, C.PosDef → L.PosSemidef → LibSpec (lib n) C L)
    (sv : SvdFn) (hsv : SvdSpec sv) (argsort : ArgsortFn) (ha : ArgsortSpec argsort) (argmax : ∀ k, ArgmaxFn k)
    (hm : ∀ k, ArgmaxSpec (argmax k)) (draws : Draws) (eigs as) (he : EigsLowest eigs) (hca : CArgsortSpec as)
    (vals : ElemId → ℝ) (hv : ParallelValues O ids vals) (flux : LoopId → ℝ) (u : ℝ) :
    ∃ w0, construct (circPhys (parallelSpec torch fd O ids h lib sv argsort argmax draws) eigs as) vals flux u = .ok w0 ∧
      ∀ hist : List Act, Orderly w0 hist →
        (∀ h1 h2, hist = h1 ++ .update :: h2 → ParallelValues O ids (run w0 h1).vals) →
        let w := run w0 hist
        (∀ i, (O.elem i).kind ≠ .jj → w.vals i = lastBuilt vals w0 hist i) → ParallelValues O ids w.vals →
        ((ids.filter (fun i => decide ((O.elem i).kind = .jj))).map w.vals).sum ≠ 0 → 0 < w.unitFreq →
        ∀ N num : ℕ, w.circ.m = [(N : ℤ)] → 1 ≤ num → num + 1 < N →
        ∃ F v, (diag (some num) w).1 = .ok (F, v) ∧ F.length = num ∧ F.Pairwise (· < ·) := by
  obtain ⟨w0, hw, hall⟩ := C92_session torch fd O ids hj hcaps hnl h lib hlib sv hsv argsort ha argmax hm draws eigs as
    vals hv flux u
  refine ⟨w0, hw, ?_⟩
  intro hist hord hupd w hlast hval hE hu N num hmN h1 hN
  have hne : w.circ.m ≠ [] := by rw [hmN]; exact List.cons_ne_nil _ _
  obtain ⟨k, d, hk, -, hH⟩ := hall hist hord hupd hlast hval hne
  have hs : NoSelfLoops (parallelSpec torch fd O ids h lib sv argsort argmax draws).els :=
    (oe_good (vals := vals) hj hlib hm hv).noSelf
  have hH' := hH ⟨0, by omega⟩
  rw [chargeCos_coupling] at hH'
  exact strict_of_chain he hca hs hw hord hmN hk ⟨0, by omega⟩ (by
    simpa using hE) hH' hu num h1 hN

/-- C97, SQUID: the same for two junctions in a loop, at every flux, if their Josephson energies differ. -/
theorem C97_squid (torch : Bool) (fd : FluxDist) (O : Objs) (ids : List ElemId) (i j : ElemId) (l : LoopId)
    (hij : ids.filter (fun i => decide ((O.elem i).kind ≠ .cap)) = [i, j])
    (hki : (O.elem i).kind = .jj) (hkj : (O.elem j).kind = .jj)
    (hli : (O.elem i).loops = [l]) (hlj : (O.elem j).loops = [l]) (hcaps : CapsOK O)
    (h : LoopId → LoopObj) (lib : ∀ n, NumLib n)
    (hlib : ∀ n, ∀ C L : Matrix (Fin n) (Fin n) ℝ, C.PosDef → L.PosSemidef → LibSpec (lib n) C L)
    (sv : SvdFn) (hsv : SvdSpec sv) (argsort : ArgsortFn) (ha : ArgsortSpec argsort) (argmax : ∀ k, ArgmaxFn k)
    (hm : ∀ k, ArgmaxSpec (argmax k)) (draws : Draws) (eigs as) (he : EigsLowest eigs) (hca : CArgsortSpec as)
    (vals : ElemId → ℝ) (hv : ParallelValues O ids vals) (flux : LoopId → ℝ) (u : ℝ) :
    ∃ w0, construct (circPhys (parallelSpec torch fd O ids h lib sv argsort argmax draws) eigs as) vals flux u = .ok w0 ∧
      ∀ hist : List Act, Orderly w0 hist →
        (∀ h1 h2, hist = h1 ++ .update :: h2 → ParallelValues O ids (run w0 h1).vals) →
        let w := run w0 hist
        (∀ i, (O.elem i).kind ≠ .jj → w.vals i = lastBuilt vals w0 hist i) → ParallelValues O ids w.vals →
        |w.vals i| ≠ |w.vals j| → 0 < w.unitFreq →
        ∀ N num : ℕ, w.circ.m = [(N : ℤ)] → 1 ≤ num → num + 1 < N →
        ∃ F v, (diag (some num) w).1 = .ok (F, v) ∧ F.length = num ∧ F.Pairwise (· < ·) := by
  obtain ⟨w0, hw, hall⟩ := C92_squid_session torch fd O ids i j l hij hki hkj hli hlj hcaps h lib hlib sv hsv argsort ha
    argmax hm draws eigs as vals hv flux u
  refine ⟨w0, hw, ?_⟩
  intro hist hord hupd w hlast hval hE hu N num hmN h1 hN
  have hne : w.circ.m ≠ [] := by rw [hmN]; exact List.cons_ne_nil _ _
  obtain ⟨k, d, hk, -, hH⟩ := hall hist hord hupd hlast hval hne
  have hj : OnlyJunctions O ids := by
    refine ⟨?_, i, List.mem_of_mem_filter (p := fun i => decide ((O.elem i).kind ≠ .cap)) (by rw [hij]; simp), hki⟩
    intro x hx hk
    have : x ∈ ids.filter (fun i => decide ((O.elem i).kind ≠ .cap)) := by
      rw [List.mem_filter]
      exact ⟨hx, by simp [hk]⟩
    rw [hij] at this
    simp at this
    rcases this with rfl | rfl
    · rw [hki] at hk; cases hk
    · rw [hkj] at hk; cases hk
  have hs : NoSelfLoops (parallelSpec torch fd O ids h lib sv argsort argmax draws).els :=
    (oe_good (vals := vals) hj hlib hm hv).noSelf
  have hH' := hH ⟨0, by omega⟩
  have hsum : ∀ (x y : ℝ), (w.vals i : ℂ) • chargeCos d ⟨0, by omega⟩ x + (w.vals j : ℂ) • chargeCos d ⟨0, by omega⟩ y =
      ((w.vals i / 2 : ℂ) * Complex.exp (Complex.I * x) + (w.vals j / 2 : ℂ) * Complex.exp (Complex.I * y)) •
        onMode d ⟨0, by omega⟩ (chargeRaise (d ⟨0, by omega⟩)) +
      (((w.vals i / 2 : ℂ) * Complex.exp (Complex.I * x) + (w.vals j / 2 : ℂ) * Complex.exp (Complex.I * y)) •
        onMode d ⟨0, by omega⟩ (chargeRaise (d ⟨0, by omega⟩)))ᴴ := by
    intro x y
    rw [chargeCos_coupling, chargeCos_coupling, add_smul, conjTranspose_add]
    abel
  rw [hsum] at hH'
  refine strict_of_chain he hca hs hw hord hmN hk ⟨0, by omega⟩ ?_ hH' hu num h1 hN
  intro h0
  apply hE
  have h2 := congrArg (fun z : ℂ => ‖z‖) (eq_neg_of_add_eq_zero_left h0)
  have hn : ∀ x : ℝ, ‖Complex.exp (Complex.I * x)‖ = 1 := fun x => by
    rw [mul_comm]; exact Complex.norm_exp_ofReal_mul_I x
  simp only [norm_neg, norm_mul, hn, mul_one, norm_div, Complex.norm_real, Real.norm_eq_abs] at h2
  have : ‖(2 : ℂ)‖ = 2 := by simp
  rw [this] at h2
  linarith

/-- C96 for every transmon: with the charge offset at zero, `dec_rate("charge", (p, q))` is zero for all levels, at
every truncation (no level being degenerate, the hypothesis of `C96_charge_sweet_spot` is always met). -/
theorem C96_transmon (torch : Bool) (fd : FluxDist) (O : Objs) (ids : List ElemId) (hj : OnlyJunctions O ids)
    (hnl : ∀ i ∈ ids, (O.elem i).loops = [])
    (h : LoopId → LoopObj) (lib : ∀ n, NumLib n)
    (hlib : ∀ n, ∀ C L : Matrix (Fin n) (Fin n) ℝ, C.PosDef → L.PosSemidef → LibSpec (lib n) C L)
    (sv : SvdFn) (hsv : SvdSpec sv) (argsort : ArgsortFn) (ha : ArgsortSpec argsort) (argmax : ∀ k, ArgmaxFn k)
    (hm : ∀ k, ArgmaxSpec (argmax k)) (draws : Draws) (vals : ElemId → ℝ) (hv : ParallelValues O ids vals)
    (hE : ((ids.filter (fun i => decide ((O.elem i).kind = .jj))).map vals).sum ≠ 0) :
    ∃ b, buildCirc (parallelSpec torch fd O ids h lib sv argsort argmax draws) vals = .ok b ∧
      ∀ (flux : LoopId → ℝ) (m : Fin b.M.keep.length → ℕ),
      ∃ (H : Op m) (vs : List (Idx m → ℂ)) (ws : List ℝ),
        fullHamiltonian b.C b.M m (fun _ => 0) vals (b.fluxes flux) b.inds b.juns = .ok H ∧ Levels H vs ws ∧ ws.Nodup ∧
        ∀ (P : ElemId → Matrix (Fin b.n) (Fin b.n) ℝ) (noise : NoiseSpec b.loops.length) (env : NoiseEnv)
          (ev : List (Idx m → ℂ)) (p q : ℕ), ev.length = ws.length →
          (∀ i v, ev[i]? = some v → overlap v v = 1 ∧ H *ᵥ v = ((ws.getD i 0 : ℝ) : ℂ) • v) →
          p < ws.length → q < ws.length → ∀ total,
          (b.noise (parallelSpec torch fd O ids h lib sv argsort argmax draws) m (fun _ => 0) vals
            (fun l => flux (b.loops.get l)) P noise env ws ev).decRate "charge" (p, q) total = .ok (.val 0) := by
  obtain ⟨b, hb, hk, -, hH⟩ := C92_transmon torch fd O ids hj hnl h lib hlib sv hsv argsort ha argmax hm draws vals hv
  have hgood := oe_good (vals := vals) (torch := torch) (fd := fd) (h := h) (sv := sv) (argsort := argsort)
    (draws := draws) hj hlib hm hv
  obtain ⟨hb1, hb2⟩ := build_valid hgood.noSelf hb
  refine ⟨b, hb, fun flux m => ?_⟩
  obtain ⟨H, hHam, hherm⟩ := C40_hermitian b.C b.M hb1 m (fun _ => 0) vals (b.fluxes flux) b.inds b.juns hb2
  obtain ⟨vs, ws, hl⟩ := levels_exists hherm
  have hn : ws.Nodup := by
    have h2 := hH flux m (fun _ => 0) ⟨0, by omega⟩
    rw [hHam] at h2
    rw [Except.ok.inj h2, chargeCos_coupling] at hl
    exact charge_nodup hk m _ _ _ _ (by simpa using hE) hl
  refine ⟨H, vs, ws, hHam, hl, hn, ?_⟩
  intro P noise env ev p q hlen hev hp hq total
  have hlev : ∀ i (hi : i < ws.length), IsLevel H i (ev[i]'(by omega)) := by
    intro i hi
    obtain ⟨h1, h2⟩ := hev i _ (List.getElem?_eq_getElem (by omega))
    exact ⟨h1, vs, ws, hl, simple_of_nodup hn hi, h2⟩
  exact C96_charge_sweet_spot _ vals b m (fun _ => 0) vals (fun l => flux (b.loops.get l)) P noise env ws ev p q _ _ H
    hgood hb hHam (List.getElem?_eq_getElem (by omega)) (List.getElem?_eq_getElem (by omega)) hp hq (hlev p hp) (hlev q hq)
    total (fun _ _ => rfl)

/-- one junction (0, with capacitor 1) -/
def boxObjs : Objs where
  elem := fun i => if i = 0 then ⟨.jj, 1, 1, [], true, true⟩ else ⟨.cap, 1, 1, [], false, true⟩
  loopValue := fun _ => 0
  loopReqGrad := fun _ => false
  loopIsLeaf := fun _ => true

theorem box_values : ParallelValues boxObjs [0] (fun _ => 1) := by
  constructor
  · intro i hi
    simp at hi
    subst hi
    simp [placedCap, boxObjs, Objs.withVals]
  · simp [totalCap, placedCap, boxObjs, Objs.withVals]
    norm_num

theorem box_junctions : OnlyJunctions boxObjs [0] := by
  refine ⟨?_, 0, by simp, rfl⟩
  intro i hi
  simp at hi
  subst hi
  simp [boxObjs]

theorem box_caps : CapsOK boxObjs := by
  intro i
  unfold boxObjs
  by_cases h : i = 0 <;> simp [h]

/-- A Cooper pair box session (5 charge states) meets the hypotheses of C97 and C95. -/
theorem C97_example : ∃ (c : CircSpec) (eigs : EigsFn) (as : List ℂ → List ℕ) (w0 : World (circPhys c eigs as)) (h : List Act),
    EigsLowest eigs ∧ CArgsortSpec as ∧ NoSelfLoops c.els ∧
    construct (circPhys c eigs as) (fun _ => 1) (fun _ => 0) 1 = .ok w0 ∧ Orderly w0 h ∧ (run w0 h).circ.m = [5] ∧
    (∀ i, (run w0 h).circ.bd.isCharge i = true ↔ i = 0) ∧
    3 + 1 < Fintype.card (Idx ((run w0 h).circ.bd.dims (run w0 h).circ.m)) ∧
    ∃ F v, (diag (some 3) (run w0 h)).1 = .ok (F, v) ∧ F.length = 3 ∧ F.Pairwise (· < ·) := by
  choose lib hlib using exists_lib
  choose argmax hm using exists_argmax
  obtain ⟨argsort, hsrt⟩ := exists_argsort
  obtain ⟨eigs, he⟩ := exists_eigs_lowest
  obtain ⟨as, ha⟩ := exists_cargsort
  obtain ⟨w0, hw, hall⟩ := C97_transmon false .junctions boxObjs [0] box_junctions box_caps (by simp [boxObjs])
    (fun _ => LoopObj.init 0 0) lib hlib exSv exSv_spec argsort hsrt argmax hm (fun _ _ => 0) eigs as he ha (fun _ => 1)
    box_values (fun _ => 0) 1
  have hgood := oe_good (vals := fun _ => 1) (torch := false) (fd := .junctions) (h := fun _ => LoopObj.init 0 0)
    (sv := exSv) (argsort := argsort) (draws := fun _ _ => 0) box_junctions hlib hm box_values
  have hb : buildCirc _ _ = .ok w0.circ.bd := (construct_build hw).1
  obtain ⟨hk, -, -, hom, -⟩ := oe_facts (fd := .junctions) (torch := false) box_junctions hlib exSv_spec hsrt hm box_values hb
  have ht := C42_constructed hw [3] hk.symm (by simp)
  obtain ⟨t1, t2, t3⟩ := truncOne ht.1
  have ho1 : Orderly w0 [.setTruncNums (.list [3])] := ⟨fun _ => Or.inl ht.1, trivial⟩
  have hch : ∀ i, Build.isCharge w0.circ.bd i = true ↔ i = 0 := by
    intro i
    unfold Build.isCharge
    by_cases hi : i < w0.circ.bd.M.keep.length
    · rw [dif_pos hi]
      have : i = 0 := by omega
      simp [hom, this]
    · rw [dif_neg hi]
      have : i ≠ 0 := by omega
      simp [this]
  have hmm : dimsOf (circPhys _ eigs as) w0.circ.bd [3] = [5] := by
    have hnc : (circPhys _ eigs as).isCharge w0.circ.bd 0 = true := (hch 0).2 rfl
    have hn1 : (circPhys _ eigs as).nModes w0.circ.bd = 1 := hk
    unfold dimsOf
    rw [hn1]
    simp [hnc]
  have hm1 : (run w0 [.setTruncNums (.list [3])]).circ.m = [5] := t3.trans hmm
  have hbd1 : (run w0 [.setTruncNums (.list [3])]).circ.bd = w0.circ.bd := t1
  have hv0 : w0.vals = (fun _ => 1) ∧ w0.unitFreq = 1 := by
    have hw' := hw
    unfold construct at hw'
    split at hw'
    · cases hw'
    · injection hw' with hw'
      rw [← hw']
      exact ⟨rfl, rfl⟩
  have hv1 : (run w0 [.setTruncNums (.list [3])]).vals = fun _ => 1 := by
    funext i
    rw [(C81_value w0 i).2 _ (by simp), hv0.1]
  have hu1 : (run w0 [.setTruncNums (.list [3])]).unitFreq = 1 :=
    ((exec_inputs (.setTruncNums (.list [3])) w0).2.2.1 (by simp)).trans hv0.2
  refine ⟨_, eigs, as, w0, [.setTruncNums (.list [3])], he, ha, hgood.noSelf, hw, ho1, hm1, ?_, ?_, ?_⟩
  · intro i; rw [hbd1]; exact hch i
  · have gen : ∀ (b : Build) (m : List ℤ), b = w0.circ.bd → m = [5] → Fintype.card (Idx (b.dims m)) = 5 := by
      rintro _ _ rfl rfl
      have : ∀ (k : ℕ) (d : Fin k → ℕ), k = 1 → (∀ i : Fin k, d i = ([5] : List ℤ).getD i 0) →
          Fintype.card (Idx d) = 5 := by
        rintro k d rfl hd
        have := hd 0
        unfold Idx
        simp at this ⊢
        exact_mod_cast this
      refine this _ _ hk ?_
      intro i
      have hi : (i : ℕ) = 0 := by have := i.isLt; omega
      simp [Build.dims, hi]
    rw [gen _ _ hbd1 hm1]; norm_num
  · refine hall [.setTruncNums (.list [3])] ho1 ?_ ?_ ?_ ?_ ?_ 5 3 hm1 (by norm_num) (by norm_num)
    · intro h1 h2 hx
      have : Act.update ∈ [Act.setTruncNums (.list [3])] := by rw [hx]; simp
      simp at this
    · intro i _
      rw [hv1]; rfl
    · rw [hv1]; exact box_values
    · rw [hv1]; simp [boxObjs]
    · rw [hu1]; norm_num

/-- C95 applies to the box: offset 1/4 and offset -1/4 give the same three frequencies. -/
theorem C95_example : ∃ (c : CircSpec) (eigs : EigsFn) (as : List ℂ → List ℕ) (w0 : World (circPhys c eigs as)) (h : List Act),
    construct (circPhys c eigs as) (fun _ => 1) (fun _ => 0) 1 = .ok w0 ∧ Orderly w0 h ∧
    ∃ F v v', (diag (some 3) (run w0 (h ++ [.setChargeOffset (some 1) (1 / 4)]))).1 = .ok (F, v) ∧
      (diag (some 3) (run w0 (h ++ [.setChargeOffset (some 1) (-(1 / 4))]))).1 = .ok (F, v') := by
  obtain ⟨c, eigs, as, w0, h, he, ha, hs, hw, hh, hm, hch, hcard, -⟩ := C97_example
  refine ⟨c, eigs, as, w0, h, hw, hh, ?_⟩
  have := C95_charge_reversal he ha hs _ _ _ w0 hw h hh (by rw [hm]; exact List.cons_ne_nil _ _) [0] (fun _ => 1 / 4) 3
    (by norm_num) (fun i hi => by rw [(hch i).1 hi]; simp) hcard
  simpa [offsetCalls] using this

/-- C94 applies to a fluxonium session: flux 0.3 and flux -0.3 give the same transition frequencies. -/
theorem C94_example : ∃ (c : CircSpec) (eigs : EigsFn) (as : List ℂ → List ℕ) (vals : ElemId → ℝ)
    (w0 : World (circPhys c eigs as)) (h : List Act),
    construct (circPhys c eigs as) vals (fun _ => 0) 1 = .ok w0 ∧ Orderly w0 h ∧ (run w0 h).circ.bd.loops = [0] ∧
    ∃ F v v' s, (diag (some 3) (run w0 (h ++ [.setFlux 0 (3 / 10)]))).1 = .ok (F, v) ∧
      (diag (some 3) (run w0 (h ++ [.setFlux 0 (-(3 / 10))]))).1 = .ok (F.map (· + s), v') := by
  obtain ⟨eigs, as, c, vals, w0, h, he, ha, hs, hw, hh, hm, hcard, -, hlo, -⟩ := C90_example
  refine ⟨c, eigs, as, vals, w0, h, hw, hh, hlo, ?_⟩
  obtain ⟨F, v, v', s, h1, h2, -⟩ := C94_flux_reversal he ha hs _ _ _ w0 hw h hh hm (fun _ => 3 / 10) 3 (by norm_num) hcard
  rw [hlo] at h1 h2
  exact ⟨F, v, v', s, h1, h2⟩

/-- C96 applies to the fluxonium at half a flux quantum. -/
theorem C96_example : ∃ (c : CircSpec) (v0 : ElemId → ℝ) (bd : Build) (val : ElemId → ℝ)
    (ev : List (Idx (fun _ : Fin bd.M.keep.length => 5) → ℂ)),
    buildCirc c v0 = .ok bd ∧ 0 < val 2 ∧ bd.loops.length = 1 ∧
    ∀ (P : ElemId → Matrix (Fin bd.n) (Fin bd.n) ℝ) (noise : NoiseSpec bd.loops.length) (env : NoiseEnv),
      (bd.noise c _ (fun _ => 0) val (fun _ => Real.pi) P noise env [0, 1] ev).decRate "flux" (0, 1) true =
        .ok (.val 0) := by
  obtain ⟨c, v0, bd, val, e, H, ev, psi, psi', hgood, hb, hv, hlo, -, hB, -, -, hH, hp, hq, hlp, hlq⟩ :=
    C88_example fun _ => Real.pi
  refine ⟨c, v0, bd, val, ev, hb, hv, hlo, fun P noise env => ?_⟩
  refine C96_flux_sweet_spot c v0 bd _ (fun _ => 0) val (fun _ => Real.pi) P noise env [0, 1] ev 0 1 psi psi' H
    hgood.noSelf hb hH hp hq (by simp) (by simp) hlp hlq true ?_
  intro l
  exact ⟨1, by simp, Or.inr ⟨(hB l).1, fun k hk => ⟨-1, by rw [(hB l).2 k hk]; simp⟩⟩⟩

end SQ
