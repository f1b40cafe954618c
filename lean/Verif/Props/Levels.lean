import Verif.Lemmas.Perturb
import Verif.Spec.Levels
import Verif.Props.Eigen
import Verif.Props.Torch
import Verif.Props.Dephasing
import Verif.Props.Readers

/-!
# C45 (lowest levels), C90 (levels as functions of parameters), C89 (truncated gradients)
-/

namespace SQ
open Matrix Complex SQ.Spec Filter Topology

variable {ι : Type*} [Fintype ι]

/-! ## Levels near a non-degenerate one -/

theorem simple_fin {H : Matrix ι ι ℂ} {vs : List (ι → ℂ)} {ws : List ℝ} (hl : Levels H vs ws) {m : ℕ}
    (hs : SimpleLevel ws m) : ∃ hm : m < Fintype.card ι, ∀ n : Fin (Fintype.card ι), n ≠ ⟨m, hm⟩ →
      ws.getD n 0 ≠ ws.getD m 0 := by
  have hlen : ws.length = Fintype.card ι := hl.len.trans hl.card
  refine ⟨hlen ▸ hs.1, fun n hn he => ?_⟩
  have hn' : (n : ℕ) < ws.length := by rw [hlen]; exact n.isLt
  refine hs.2 n hn' (fun h => hn (Fin.ext h)) ?_
  rw [List.getD_eq_getElem?_getD, List.getD_eq_getElem?_getD, List.getElem?_eq_getElem hn',
    List.getElem?_eq_getElem hs.1] at he
  rw [List.getElem?_eq_getElem hn', List.getElem?_eq_getElem hs.1]
  exact congrArg some he

/-- an eigenvector of a non-degenerate level is fixed up to its phase -/
theorem simple_phase {H : Matrix ι ι ℂ} (hH : H.IsHermitian) {vs : List (ι → ℂ)} {ws : List ℝ}
    (hl : Levels H vs ws) {m : ℕ} (hs : SimpleLevel ws m) {psi : ι → ℂ} (hn : overlap psi psi = 1)
    (he : H *ᵥ psi = ((ws.getD m 0 : ℝ) : ℂ) • psi) : ∃ z : ℂ, ‖z‖ = 1 ∧ psi = z • vs.getD m 0 := by
  obtain ⟨hm, hsim⟩ := simple_fin hl hs
  obtain ⟨hsys, -⟩ := levels_sys hl
  refine ⟨overlap (vs.getD m 0) psi, ?_, ?_⟩
  all_goals
    have h0 : ∀ n : Fin (Fintype.card ι), n ≠ ⟨m, hm⟩ → overlap (vs.getD n 0) psi = 0 := by
      intro n hne
      have h1 := braket_eigen_left hH (hsys.eigen n) psi
      have h2 := braket_eigen_right he (vs.getD n 0)
      have h3 : ((ws.getD n 0 - ws.getD m 0 : ℝ) : ℂ) * overlap (vs.getD n 0) psi = 0 := by
        push_cast
        rw [sub_mul, ← h1, ← h2, sub_self]
      rcases mul_eq_zero.1 h3 with h | h
      · exact absurd (sub_eq_zero.1 (by exact_mod_cast h)) (hsim n hne)
      · exact h
  · have h1 : nsq psi = 1 := by rw [overlap_self] at hn; exact_mod_cast hn
    rw [hsys.nsq_eq, Finset.sum_eq_single ⟨m, hm⟩] at h1
    · have := norm_nonneg (overlap (vs.getD m 0) psi)
      nlinarith
    · intro n _ hne
      rw [h0 n hne]; simp
    · intro h; exact absurd (Finset.mem_univ _) h
  · conv_lhs => rw [← hsys.compl psi]
    rw [Finset.sum_eq_single ⟨m, hm⟩]
    · intro n _ hne
      rw [h0 n hne, zero_smul]
    · intro h; exact absurd (Finset.mem_univ _) h

theorem braket_phase (z : ℂ) (hz : ‖z‖ = 1) (v : ι → ℂ) (A : Matrix ι ι ℂ) :
    braket (z • v) A (z • v) = braket v A v := by
  have h : (starRingEnd ℂ) z * z = 1 := by
    rw [mul_comm, mul_conj, normSq_eq_norm_sq, hz]; simp
  rw [braket_right, Matrix.mulVec_smul, overlap_smul, overlap_smul_left, ← mul_assoc, mul_comm z, h, one_mul,
    braket_right]

/-- the branch through a non-degenerate level -/
theorem level_branch {H : ℝ → Matrix ι ι ℂ} {dH : Matrix ι ι ℂ} {x : ℝ}
    (hherm : ∀ᶠ t in 𝓝 x, (H t).IsHermitian) (hd : HasDerivOp H dH x)
    {vs : ℝ → List (ι → ℂ)} {ws : ℝ → List ℝ} (hl : ∀ᶠ t in 𝓝 x, Levels (H t) (vs t) (ws t)) {m : ℕ}
    (hs : SimpleLevel (ws x) m) :
    ∃ (z : ℝ → ℂ) (dpsi : ι → ℂ), (∀ t, ‖z t‖ = 1) ∧ z x = 1 ∧ overlap ((vs x).getD m 0) dpsi = 0 ∧
      EigenBranch H (fun t => (ws t).getD m 0) (fun t => z t • (vs t).getD m 0) dpsi x := by
  obtain ⟨hm, hsim⟩ := simple_fin hl.self_of_nhds hs
  obtain ⟨z, h1, h2, h3⟩ := branch_exists (N := Fintype.card ι) hherm hd
    (u := fun t i => (vs t).getD i 0) (lam := fun t i => (ws t).getD i 0)
    (hl.mono fun t ht => levels_sys ht) ⟨m, hm⟩ hsim
  refine ⟨z, _, h1, h2, ?_, h3⟩
  obtain ⟨hsys, -⟩ := levels_sys hl.self_of_nhds
  have : (fun a => ∑ n : Fin (Fintype.card ι), (if n = ⟨m, hm⟩ then 0 else
      braket ((vs x).getD n 0) dH ((vs x).getD m 0) * (((ws x).getD m 0 - (ws x).getD n 0 : ℝ) : ℂ)⁻¹) *
        ((vs x).getD n 0) a) = ∑ n : Fin (Fintype.card ι), (if n = ⟨m, hm⟩ then 0 else
      braket ((vs x).getD n 0) dH ((vs x).getD m 0) * (((ws x).getD m 0 - (ws x).getD n 0 : ℝ) : ℂ)⁻¹) •
        (vs x).getD n 0 := by
    funext a
    rw [Finset.sum_apply]
    rfl
  rw [this, overlap_sum]
  refine Finset.sum_eq_zero fun n _ => ?_
  rw [overlap_smul]
  have h4 := hsys.orth ⟨m, hm⟩ n
  simp only at h4
  rw [h4]
  by_cases hn : n = ⟨m, hm⟩
  · rw [if_pos hn, zero_mul]
  · rw [if_neg (Ne.symm hn), mul_zero]

/-! ## C90 -/

/-- Wherever level `m` of a Hermitian operator depending differentiably on a parameter is not degenerate, the
`m`-th lowest eigenvalue is a differentiable function of the parameter and `get_partial_omega` returns
its derivative, whatever normalised eigenvector the eigensolver happened to return. -/
theorem C90_level {H : ℝ → Matrix ι ι ℂ} {dH : Matrix ι ι ℂ} {x : ℝ}
    (hherm : ∀ᶠ t in 𝓝 x, (H t).IsHermitian) (hd : HasDerivOp H dH x)
    (vs : ℝ → List (ι → ℂ)) (ws : ℝ → List ℝ) (hl : ∀ᶠ t in 𝓝 x, Levels (H t) (vs t) (ws t)) (m : ℕ)
    (hs : SimpleLevel (ws x) m) (evecs : List (ι → ℂ)) (psi : ι → ℂ) (hev : evecs[m]? = some psi)
    (hn : overlap psi psi = 1) (he : H x *ᵥ psi = (((ws x).getD m 0 : ℝ) : ℂ) • psi) :
    ∃ r, partialOmega evecs dH m false = .ok r ∧ HasDerivAt (fun t => (ws t).getD m 0) r x := by
  obtain ⟨z, dpsi, h1, h2, -, h3⟩ := level_branch hherm hd hl hs
  obtain ⟨z', hz', rfl⟩ := simple_phase hherm.self_of_nhds hl.self_of_nhds hs hn he
  have hlt : m < evecs.length := by
    by_contra h
    rw [List.getElem?_eq_none (Nat.le_of_not_lt h)] at hev
    cases hev
  have hd' := hasDerivAt_re (hellmann h3 hherm.self_of_nhds hd)
  rw [h2, one_smul] at hd'
  refine ⟨_, ?_, hd'⟩
  unfold partialOmega
  rw [if_neg (by omega), pyGet_nat hlt]
  have : evecs[m] = z' • (vs x).getD m 0 := by
    rw [List.getElem?_eq_getElem hlt] at hev
    exact Option.some.inj hev
  rw [this]
  simp only [innerOp_eq]
  rw [braket_phase z' hz']
  simp

/-- The same for transition frequencies: `get_partial_omega` with the ground state subtracted, and
`get_partial_omega_mn`. -/
theorem C90_transition {H : ℝ → Matrix ι ι ℂ} {dH : Matrix ι ι ℂ} {x : ℝ}
    (hherm : ∀ᶠ t in 𝓝 x, (H t).IsHermitian) (hd : HasDerivOp H dH x)
    (vs : ℝ → List (ι → ℂ)) (ws : ℝ → List ℝ) (hl : ∀ᶠ t in 𝓝 x, Levels (H t) (vs t) (ws t)) (m n : ℕ)
    (hs : SimpleLevel (ws x) m) (hs' : SimpleLevel (ws x) n) (evecs : List (ι → ℂ)) (psi psi' : ι → ℂ)
    (hev : evecs[m]? = some psi) (hev' : evecs[n]? = some psi')
    (hn : overlap psi psi = 1) (he : H x *ᵥ psi = (((ws x).getD m 0 : ℝ) : ℂ) • psi)
    (hn' : overlap psi' psi' = 1) (he' : H x *ᵥ psi' = (((ws x).getD n 0 : ℝ) : ℂ) • psi') :
    (∃ r, partialOmegaMN evecs dH (m, n) = .ok r ∧
      HasDerivAt (fun t => (ws t).getD m 0 - (ws t).getD n 0) r x) ∧
    (n = 0 → ∃ r, partialOmega evecs dH m true = .ok r ∧
      HasDerivAt (fun t => (ws t).getD m 0 - (ws t).getD 0 0) r x) := by
  obtain ⟨r, h1, h2⟩ := C90_level hherm hd vs ws hl m hs evecs psi hev hn he
  obtain ⟨r', h1', h2'⟩ := C90_level hherm hd vs ws hl n hs' evecs psi' hev' hn' he'
  have hget : ∀ {i : ℕ} {v : ι → ℂ}, evecs[i]? = some v → pyGet evecs (i : ℤ) = .ok v := by
    intro i v hv
    have hlt : i < evecs.length := by
      by_contra h
      rw [List.getElem?_eq_none (Nat.le_of_not_lt h)] at hv
      cases hv
    rw [pyGet_nat hlt]
    rw [List.getElem?_eq_getElem hlt] at hv
    exact congrArg Except.ok (Option.some.inj hv)
  have e1 := hget hev
  have e2 := hget hev'
  have f1 : r = (braket psi dH psi).re := by
    unfold partialOmega at h1
    rw [if_neg (pyGet_mem e1), e1] at h1
    simp only [innerOp_eq] at h1
    exact (Except.ok.inj h1).symm
  have f2 : r' = (braket psi' dH psi').re := by
    unfold partialOmega at h1'
    rw [if_neg (pyGet_mem e2), e2] at h1'
    simp only [innerOp_eq] at h1'
    exact (Except.ok.inj h1').symm
  constructor
  · refine ⟨r - r', ?_, h2.sub h2'⟩
    unfold partialOmegaMN
    simp only [e1, e2, innerOp_eq]
    rw [f1, f2, sub_re]
  · rintro rfl
    refine ⟨r - r', ?_, h2.sub h2'⟩
    unfold partialOmega
    have e2' : pyGet evecs 0 = .ok psi' := e2
    rw [if_neg (pyGet_mem e1), e1, e2']
    simp only [innerOp_eq, if_true]
    rw [f1, f2, sub_re]

/-! ## C89 eigenvector gradients with a truncated set of states -/

/-- `get_partial_vec` as a sum over the computed states -/
theorem partialVec_take {H dH : Matrix ι ι ℂ} {vs : List (ι → ℂ)} {ws : List ℝ} (hl : Levels H vs ws)
    (q m : ℕ) (hq : q ≤ vs.length) (hm : m < q) :
    partialVec (vs.take q) (ws.take q) dH m 0 = .ok (∑ n ∈ Finset.range q, if n = m then 0 else
      (braket (vs.getD n 0) dH (vs.getD m 0) * ((ws.getD m 0 - ws.getD n 0 : ℝ) : ℂ)⁻¹) • vs.getD n 0) := by
  have hlv : (vs.take q).length = q := by rw [List.length_take]; omega
  have hlw : (ws.take q).length = q := by rw [List.length_take, hl.len]; omega
  have hgv : ∀ n, n < q → vs.getD n 0 = (vs.take q).getD n 0 := fun n hn => by
    rw [List.getD_eq_getElem?_getD, List.getD_eq_getElem?_getD, List.getElem?_take_of_lt hn]
  have hgw : ∀ n, n < q → ws.getD n 0 = (ws.take q).getD n 0 := fun n hn => by
    rw [List.getD_eq_getElem?_getD, List.getD_eq_getElem?_getD, List.getElem?_take_of_lt hn]
  unfold partialVec
  rw [if_neg (by omega), pyGet_nat (by omega), pyGet_nat (by omega)]
  simp only
  have hmm : m < (vs.take q).length := by omega
  have := partialVecSum_eq (hlw.trans hlv.symm) dH ((vs.take q)[m]) ⟨m, hmm⟩ ((ws.take q)[m]'(by omega)) 0
  simp only at this
  rw [this]
  congr 1
  have e : ∀ f : ℕ → ι → ℂ, ∑ n : Fin (vs.take q).length, f n = ∑ n ∈ Finset.range q, f n := by
    intro f
    rw [Fin.sum_univ_eq_sum_range, hlv]
  rw [← e]
  refine Finset.sum_congr rfl fun n _ => ?_
  have hn : (n : ℕ) < q := by have := n.isLt; omega
  by_cases h : (n : ℕ) = m
  · rw [if_pos h, if_pos (Fin.ext h)]
  · rw [if_neg h, if_neg (fun h' => h (congrArg Fin.val h'))]
    rw [add_zero, div_eq_mul_inv, hgv n hn, hgv m hm, hgw n hn, hgw m hm]
    have a1 : (vs.take q).getD n 0 = (vs.take q).get n := by
      rw [List.getD_eq_getElem?_getD, List.getElem?_eq_getElem n.isLt]; rfl
    have a2 : (vs.take q).getD m 0 = (vs.take q)[m] := by
      rw [List.getD_eq_getElem?_getD, List.getElem?_eq_getElem hmm]; rfl
    have a3 : (ws.take q).getD m 0 = (ws.take q)[m]'(by omega) := by
      rw [List.getD_eq_getElem?_getD, List.getElem?_eq_getElem (by omega)]; rfl
    have a4 : (ws.take q).getD n 0 = (ws.take q).get (n.cast (hlw.trans hlv.symm).symm) := by
      rw [List.getD_eq_getElem?_getD, List.getElem?_eq_getElem (by omega)]; rfl
    rw [a1, a2, a3, a4]

/-- With only the `q` lowest states computed, at a non-degenerate level `m`: there is a choice of phases for
which the eigenvector is a differentiable function of the parameter, and what `get_partial_vec`
(epsilon 0) returns is the orthogonal projection of its derivative on the computed states. The error vanishes if all
states are computed, and otherwise its squared norm is at most `‖dH ψ‖² / (ω_q - ω_m)²`, with `ω_q` the
lowest level not computed. -/
theorem C89_projection {H : ℝ → Matrix ι ι ℂ} {dH : Matrix ι ι ℂ} {x : ℝ}
    (hherm : ∀ᶠ t in 𝓝 x, (H t).IsHermitian) (hd : HasDerivOp H dH x)
    (vs : ℝ → List (ι → ℂ)) (ws : ℝ → List ℝ) (hl : ∀ᶠ t in 𝓝 x, Levels (H t) (vs t) (ws t)) (m q : ℕ)
    (hs : SimpleLevel (ws x) m) (hm : m < q) (hq : q ≤ (vs x).length) :
    ∃ (z : ℝ → ℂ) (dpsi v : ι → ℂ), (∀ t, ‖z t‖ = 1) ∧ z x = 1 ∧
      HasDerivVec (fun t => z t • (vs t).getD m 0) dpsi x ∧
      partialVec ((vs x).take q) ((ws x).take q) dH m 0 = .ok v ∧
      (∀ n, n < q → overlap ((vs x).getD n 0) v = overlap ((vs x).getD n 0) dpsi) ∧
      (∀ n, q ≤ n → n < (vs x).length → overlap ((vs x).getD n 0) v = 0) ∧
      (q = (vs x).length → v = dpsi) ∧
      (q < (vs x).length → ∑ a, ‖dpsi a - v a‖ ^ 2 ≤
        (∑ a, ‖(dH *ᵥ (vs x).getD m 0) a‖ ^ 2) / ((ws x).getD q 0 - (ws x).getD m 0) ^ 2) := by
  have hlx := hl.self_of_nhds
  obtain ⟨hmN, hsim⟩ := simple_fin hlx hs
  obtain ⟨hsys, hmono⟩ := levels_sys hlx
  obtain ⟨z, h1, h2, h3⟩ := branch_exists (N := Fintype.card ι) hherm hd
    (u := fun t i => (vs t).getD i 0) (lam := fun t i => (ws t).getD i 0)
    (hl.mono fun t ht => levels_sys ht) ⟨m, hmN⟩ hsim
  set f : ℕ → ℂ := fun n => if n = m then 0 else
    braket ((vs x).getD n 0) dH ((vs x).getD m 0) * (((ws x).getD m 0 - (ws x).getD n 0 : ℝ) : ℂ)⁻¹ with hf
  have hqN : q ≤ Fintype.card ι := by rw [← hlx.card]; exact hq
  -- overlaps of sums over a range
  have hov : ∀ (r : ℕ), r ≤ Fintype.card ι → ∀ n, n < Fintype.card ι →
      overlap ((vs x).getD n 0) (∑ i ∈ Finset.range r, f i • (vs x).getD i 0) = if n < r then f n else 0 := by
    intro r hr n hn
    rw [overlap_sum]
    have e : ∀ i ∈ Finset.range r, overlap ((vs x).getD n 0) (f i • (vs x).getD i 0) =
        if i = n then f n else 0 := by
      intro i hi
      have hi' := Finset.mem_range.1 hi
      rw [overlap_smul]
      have := hsys.orth ⟨n, hn⟩ ⟨i, by omega⟩
      simp only [Fin.mk.injEq] at this
      rw [this]
      by_cases h : n = i
      · subst h; simp
      · rw [if_neg h, if_neg (Ne.symm h), mul_zero]
    rw [Finset.sum_congr rfl e, Finset.sum_ite_eq' (Finset.range r) n fun _ => f n]
    simp only [Finset.mem_range]
  have hdp : (fun a => ∑ n : Fin (Fintype.card ι), (if n = ⟨m, hmN⟩ then 0 else
      braket ((vs x).getD n 0) dH ((vs x).getD m 0) * (((ws x).getD m 0 - (ws x).getD n 0 : ℝ) : ℂ)⁻¹) *
        ((vs x).getD n 0) a) = ∑ i ∈ Finset.range (Fintype.card ι), f i • (vs x).getD i 0 := by
    rw [← Fin.sum_univ_eq_sum_range (fun i => f i • (vs x).getD i 0)]
    funext a
    rw [Finset.sum_apply]
    refine Finset.sum_congr rfl fun n _ => ?_
    simp only [hf, Pi.smul_apply, smul_eq_mul, Fin.ext_iff]
  have h4 := h3.deriv
  rw [hdp] at h4
  have hv : (∑ n ∈ Finset.range q, if n = m then 0 else
      (braket ((vs x).getD n 0) dH ((vs x).getD m 0) * (((ws x).getD m 0 - (ws x).getD n 0 : ℝ) : ℂ)⁻¹) •
        (vs x).getD n 0) = ∑ i ∈ Finset.range q, f i • (vs x).getD i 0 := by
    refine Finset.sum_congr rfl fun n _ => ?_
    simp only [hf]
    split
    · rw [zero_smul]
    · rfl
  have h5 := partialVec_take (dH := dH) hlx q m hq hm
  rw [hv] at h5
  refine ⟨z, _, _, h1, h2, h4, h5, ?_, ?_, ?_, ?_⟩
  · intro n hn
    rw [hov q hqN n (by omega), hov _ le_rfl n (by omega), if_pos hn, if_pos (by omega)]
  · intro n hn hn'
    rw [hov q hqN n (by rw [← hlx.card]; exact hn'), if_neg (by omega)]
  · intro hqe
    rw [hqe, hlx.card]
  · intro hlt
    have hqlt : q < Fintype.card ι := by rw [← hlx.card]; exact hlt
    change nsq (_ - _) ≤ nsq _ / _
    rw [hsys.nsq_eq, hsys.nsq_eq (dH *ᵥ (vs x).getD m 0), Finset.sum_div]
    refine Finset.sum_le_sum fun n _ => ?_
    rw [sub_eq_add_neg, ← neg_one_smul ℂ (∑ i ∈ Finset.range q, f i • (vs x).getD i 0), overlap_add, overlap_smul,
      hov _ le_rfl n n.isLt, hov q hqN n n.isLt, if_pos n.isLt]
    by_cases hn : (n : ℕ) < q
    · rw [if_pos hn]
      simp only [neg_mul, one_mul, add_neg_cancel, norm_zero]
      rw [zero_pow two_ne_zero]
      positivity
    · rw [if_neg hn, mul_zero, add_zero]
      have hnm : (n : ℕ) ≠ m := by omega
      simp only [hf, if_neg hnm]
      rw [norm_mul, mul_pow, norm_inv, inv_pow, ← div_eq_mul_inv, ← braket_right]
      have g1 : (ws x).getD m 0 < (ws x).getD q 0 := by
        have := hmono (show (⟨m, hmN⟩ : Fin (Fintype.card ι)) ≤ ⟨q, hqlt⟩ from hm.le)
        refine lt_of_le_of_ne this (Ne.symm (hsim ⟨q, hqlt⟩ ?_))
        intro h
        have := congrArg Fin.val h
        simp only at this
        omega
      have g2 : (ws x).getD q 0 ≤ (ws x).getD n 0 :=
        hmono (show (⟨q, hqlt⟩ : Fin (Fintype.card ι)) ≤ n from not_lt.1 hn)
      have g3 : ((ws x).getD q 0 - (ws x).getD m 0) ^ 2 ≤
          ‖(((ws x).getD m 0 - (ws x).getD n 0 : ℝ) : ℂ)‖ ^ 2 := by
        rw [norm_real, Real.norm_eq_abs, sq_abs]
        nlinarith
      refine div_le_div_of_nonneg_left (sq_nonneg _) ?_ g3
      have : 0 < (ws x).getD q 0 - (ws x).getD m 0 := by linarith
      positivity

end SQ
