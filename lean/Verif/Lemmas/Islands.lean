import Verif.Lemmas.T2
import Verif.Lemmas.ExampleCircuit
import Verif.Lemmas.ConstructT2
import Verif.Props.GramSchmidt
import Verif.Props.SecondTransform
import Verif.Props.Flux3
import Mathlib.Algebra.Order.Chebyshev

/-! # Construction of circuits without inductors -/

namespace SQ
open Matrix Spec

/-- Gram-Schmidt keeps every row, in the given order, when the rows are far enough from the span of the others:
`Z i` is the dual vector of row `i` -/
theorem gs_fold_all {m k : ℕ} (A : Matrix (Fin m) (Fin k) ℝ) (Z : Fin m → Fin k → ℝ)
    (hZ : ∀ i j, A j ⬝ᵥ Z i = if i = j then 1 else 0)
    (hbig : ∀ i, accGS * (vnorm (A i) + 1e-9) * ∑ c, |Z i c| < 1) (l : List (Fin m)) :
    ∀ st : List (Fin m) × List (Fin k → ℝ), GSInv A st → (st.1 ++ l).Nodup →
      (l.foldl (gsStep A) st).1 = st.1 ++ l := by
  induction l with
  | nil => intro st _ _; simp
  | cons i l ih =>
    intro st hst hnd
    have hi : i ∉ st.1 := by
      intro hmem
      rw [List.nodup_append] at hnd
      exact hnd.2.2 i hmem i (by simp) rfl
    have hzero : ∀ v ∈ Submodule.span ℝ (A '' {j | j ∈ st.1}), v ⬝ᵥ Z i = 0 := by
      intro v hv
      induction hv using Submodule.span_induction with
      | mem x hx =>
        obtain ⟨j, hj, rfl⟩ := hx
        rw [hZ, if_neg]
        rintro rfl
        exact hi hj
      | zero => simp
      | add x y _ _ hx hy => rw [add_dotProduct, hx, hy, add_zero]
      | smul a x _ hx => rw [smul_dotProduct, hx, smul_zero]
    have hpos : 0 < vnorm (A i) + 1e-9 := by
      have := vnorm_nonneg (A i)
      positivity
    have hres : gsResidual st.2 (normRow (A i)) ⬝ᵥ Z i = (vnorm (A i) + 1e-9)⁻¹ := by
      unfold gsResidual
      rw [sub_dotProduct, hzero (List.map _ st.2).sum, sub_zero, normRow_smul, smul_dotProduct, hZ, if_pos rfl,
        smul_eq_mul, mul_one]
      apply list_sum_mem
      intro x hx
      obtain ⟨e, he, rfl⟩ := List.mem_map.1 hx
      exact Submodule.smul_mem _ _ (hst.span e he)
    have hex : ∃ c, |gsResidual st.2 (normRow (A i)) c| > accGS := by
      by_contra hno
      push Not at hno
      have h1 : (vnorm (A i) + 1e-9)⁻¹ ≤ accGS * ∑ c, |Z i c| := by
        rw [← hres, Finset.mul_sum]
        refine (le_abs_self _).trans ((Finset.abs_sum_le_sum_abs _ _).trans ?_)
        refine Finset.sum_le_sum fun c _ => ?_
        rw [abs_mul]
        exact mul_le_mul_of_nonneg_right (hno c) (abs_nonneg _)
      have h2 := mul_le_mul_of_nonneg_left h1 hpos.le
      rw [mul_inv_cancel₀ hpos.ne'] at h2
      have := hbig i
      linarith [show (vnorm (A i) + 1e-9) * (accGS * ∑ c, |Z i c|) =
        accGS * (vnorm (A i) + 1e-9) * ∑ c, |Z i c| by ring]
    have hstep : (gsStep A st i).1 = st.1 ++ [i] := by
      unfold gsStep
      simp only
      rw [if_pos hex]
    rw [List.foldl_cons, ih _ (gsInv_step A st hst i) (by rw [hstep]; simpa using hnd), hstep]
    simp

theorem gs_all {argsort : ArgsortFn} (ha : ArgsortSpec argsort) {m k : ℕ} (A : Matrix (Fin m) (Fin k) ℝ)
    (Z : Fin m → Fin k → ℝ) (hZ : ∀ i j, A j ⬝ᵥ Z i = if i = j then 1 else 0)
    (hbig : ∀ i, accGS * (vnorm (A i) + 1e-9) * ∑ c, |Z i c| < 1) :
    (independentRows argsort A).1 = argsort m (fun i => - vnorm (A i)) := by
  have hp := ha.perm m (fun i => - vnorm (A i))
  unfold independentRows
  rw [gs_fold_all A Z hZ hbig]
  · rfl
  · exact ⟨⟨by simp, by simp⟩, rfl, by simp, by simp⟩
  · exact hp.nodup_iff.2 (List.nodup_finRange m)

variable {n nJ : ℕ}

theorem sqrt_zero {lib : NumLib n} {C : Matrix (Fin n) (Fin n) ℝ} (hlib : LibSpec lib C 0) : lib.sqrtm 0 = 0 := by
  obtain ⟨h1, h2⟩ := hlib.sqrtL
  have h3 := h1.isHermitian
  rw [← self_mul_conjTranspose_eq_zero, h3]
  exact h2

/-- the first transformation without inductors: all modes are charge modes, and the capacitance matrix becomes the
unit matrix -/
theorem noL_first [NeZero n] {lib : NumLib n} {C : Matrix (Fin n) (Fin n) ℝ} (hC : C.PosDef)
    (hlib : LibSpec lib C 0) (W : Matrix (Fin nJ) (Fin n) ℝ) :
    (matS1 lib C 0)ᵀ * C * matS1 lib C 0 = 1 ∧ (afterT1 lib C 0 W).cInv = 1 ∧ (afterT1 lib C 0 W).l = 0 ∧
    (afterT1 lib C 0 W).omega = (fun _ => 0) ∧ modeFreq lib C 0 = fun _ => 0 := by
  have hL0 : (0 : Matrix (Fin n) (Fin n) ℝ).IsHermitian := isHermitian_zero
  have hM0 : scaledL lib C 0 = 0 := by
    unfold scaledL
    rw [sqrt_zero hlib, Matrix.zero_mul]
  have hD0 : ∀ i, lib.svdD (scaledL lib C 0) i = 0 := by
    obtain ⟨U, hU, hV, hM⟩ := hlib.svd
    have hU' : Uᵀ * U = 1 := mul_eq_one_comm.1 hU
    have h1 : diagonal (lib.svdD (scaledL lib C 0)) = 0 := by
      have h2 : Uᵀ * scaledL lib C 0 * (lib.svdVh (scaledL lib C 0))ᵀ = 0 := by
        rw [show Uᵀ * scaledL lib C 0 = 0 by rw [hM0, Matrix.mul_zero], Matrix.zero_mul]
      have h3 : Uᵀ * (U * diagonal (lib.svdD (scaledL lib C 0)) * lib.svdVh (scaledL lib C 0)) *
          (lib.svdVh (scaledL lib C 0))ᵀ = 0 := by
        rw [← hM]; exact h2
      rwa [Matrix.mul_assoc U, ← Matrix.mul_assoc Uᵀ, hU', Matrix.one_mul, Matrix.mul_assoc, hV, Matrix.mul_one] at h3
    intro i
    have := congrFun (congrFun h1 i) i
    simpa using this
  have hvm : vmax (lib.svdD (scaledL lib C 0)) = 0 := by
    unfold vmax
    have : lib.svdD (scaledL lib C 0) = fun _ => 0 := funext hD0
    rw [this]
    exact ciSup_const
  have hsc : t1Scale (lib.svdD (scaledL lib C 0)) (lib.eigvals 0) = (fun _ => 1, 0) := by
    unfold t1Scale
    rw [if_pos hvm]
  have hsD : scaleD lib C 0 = fun _ => 1 := by unfold scaleD; rw [hsc]
  have hst : singStart lib C 0 = 0 := by unfold singStart; rw [hsc]
  have hom : (afterT1 lib C 0 W).omega = fun _ => 0 := by
    funext i
    rw [afterT1_omega hC hL0 hlib, hst]; simp
  refine ⟨?_, ?_, ?_, hom, ?_⟩
  · rw [matS1_cap hC hL0 hlib, hsD, diagonal_one]
  · rw [afterT1_cInv hC hL0 hlib, hsD]; simp
  · rw [afterT1_l hC hL0 hlib, hst]; simp
  · rw [← modeFreq_eq W, hom]

/-- the rows selected first stay first -/
theorem basisStep_ind (argsort : ArgsortFn) (draws : Draws) {m k : ℕ} (A : Matrix (Fin m) (Fin k) ℝ) (st : BasisSt m k)
    (h : st.ind = (independentRows argsort A).1 ∨ st.basis.length = 0) :
    (basisStep argsort draws A st).ind = (independentRows argsort A).1 := by
  unfold basisStep
  split
  · rfl
  · rename_i h0
    exact h.resolve_right h0

theorem basisLoop_ind (argsort : ArgsortFn) (draws : Draws) {m k : ℕ} (A : Matrix (Fin m) (Fin k) ℝ) (fuel : ℕ) :
    ∀ st st' : BasisSt m k, (st.ind = (independentRows argsort A).1 ∨ (st.basis.length = 0 ∧ k ≠ 0)) →
      basisLoop argsort draws A fuel st = some st' → st'.ind = (independentRows argsort A).1 := by
  induction fuel with
  | zero =>
    intro st st' h hl
    rw [basisLoop] at hl
    split at hl
    · rename_i hk
      cases hl
      rcases h with h | ⟨h, h'⟩
      · exact h
      · omega
    · cases hl
  | succ f ih =>
    intro st st' h hl
    rw [basisLoop] at hl
    split at hl
    · rename_i hk
      cases hl
      rcases h with h | ⟨h, h'⟩
      · exact h
      · omega
    · exact ih _ _ (Or.inl (basisStep_ind argsort draws A st (h.imp_right And.left))) hl

/-- what the choice of the second transformation returns: the inverse of a matrix whose first rows are the selected
ones -/
theorem choose_rows {sv : SvdFn} {argsort : ArgsortFn} {draws : Draws} {numJ : ℕ} (hJ : numJ ≠ 0)
    {W : Matrix (Fin nJ) (Fin n) ℝ} {S1 : Matrix (Fin n) (Fin n) ℝ} {t : Trans nJ n} {fuel d k : ℕ}
    {s : Matrix (Fin n) (Fin n) ℝ} (hq : (chargeCols t.omega).length ≠ 0)
    (h : t2Choose sv argsort draws numJ W S1 fuel d t = some (.ok (s, k))) :
    ∃ F : Matrix (Fin (chargeCols t.omega).length) (Fin (chargeCols t.omega).length) ℝ, IsUnit F.det ∧
      s = blockS2 (chargeCols_length_le t.omega) F⁻¹ ∧
      (independentRows argsort (wCharge sv W S1 t.omega)).1.length ≤ (chargeCols t.omega).length ∧
      (∀ (p : Fin (chargeCols t.omega).length)
        (hp : (p : ℕ) < (independentRows argsort (wCharge sv W S1 t.omega)).1.length),
        F p = wCharge sv W S1 t.omega ((independentRows argsort (wCharge sv W S1 t.omega)).1.get ⟨p, hp⟩)) := by
  unfold t2Choose at h
  simp only at h
  rw [if_pos ⟨hq, hJ⟩] at h
  split at h
  · cases h
  · rename_i st hst
    have hind := basisLoop_ind argsort draws (wCharge sv W S1 t.omega) fuel _ _ (Or.inr ⟨rfl, hq⟩) hst
    rw [hind] at h
    unfold squareOf at h
    split at h
    · cases h
    · rename_i F hF
      split at hF
      · rename_i hl
        split at h
        · cases h
        · rename_i Fi hFi
          have hF' := Except.ok.inj hF
          have hdet : F.det ≠ 0 := by
            intro h0
            unfold npInv at hFi
            rw [if_pos h0] at hFi
            cases hFi
          have hFi' : Fi = F⁻¹ := by
            unfold npInv at hFi
            rw [if_neg hdet] at hFi
            exact (Except.ok.inj hFi).symm
          have hs : s = blockS2 (chargeCols_length_le t.omega) Fi := by
            simp only [Option.some.injEq, Except.ok.injEq, Prod.mk.injEq] at h
            exact h.1.symm
          refine ⟨F, isUnit_iff_ne_zero.2 hdet, by rw [hs, hFi'], by simp at hl; omega, ?_⟩
          intro p hp
          rw [← hF']
          change ((independentRows argsort (wCharge sv W S1 t.omega)).1.map
            (fun i => wCharge sv W S1 t.omega i) ++ st.rnd).get _ = _
          rw [List.get_eq_getElem, List.getElem_append_left (by simpa using hp)]
          simp
      · cases hF

/-- all three transformations of a circuit without inductors whose junction edges are independent: every junction
edge has its own mode -/
theorem islands_result [NeZero n] {sv : SvdFn} (hsv : SvdSpec sv) {argsort : ArgsortFn} (argmax : ArgmaxFn nJ) (draws : Draws)
    {numJ : ℕ} (hJ : numJ ≠ 0) (hnJ : nJ ≠ 0) {lib : NumLib n} {C : Matrix (Fin n) (Fin n) ℝ} (hC : C.PosDef)
    (hlib : LibSpec lib C 0) (W : Matrix (Fin nJ) (Fin n) ℝ)
    (hpos : ∀ i, ∃ p : Fin (independentRows argsort (wCharge sv W (matS1 lib C 0) (fun _ => 0))).1.length,
      (keptCols sv Wᵀ).get ((independentRows argsort (wCharge sv W (matS1 lib C 0) (fun _ => 0))).1.get p) = i)
    (fuel : ℕ) (t : Trans nJ n)
    (ht : transformHamil lib sv argsort argmax draws numJ C 0 W fuel (initTrans C 0 W) = some (.ok t)) :
    ∃ π : Fin nJ → Fin n, Function.Injective π ∧ (∀ i, (π i : ℕ) < nJ) ∧ (∀ j, t.omega j = 0) ∧
      (∀ i j, t.w i j = if j = π i then 1 else 0) ∧
      (∀ i j, t.cInv (π i) (π j) = (W * C⁻¹ * Wᵀ) i j) ∧
      (∀ i, ∃ p : Fin (independentRows argsort (wCharge sv W (matS1 lib C 0) (fun _ => 0))).1.length,
        (keptCols sv Wᵀ).get ((independentRows argsort (wCharge sv W (matS1 lib C 0) (fun _ => 0))).1.get p) = i ∧
        (π i : ℕ) = p) ∧
      (∀ i p, t.R p (π i) = W i p) := by
  classical
  obtain ⟨hcap, hcI, hl, hom, -⟩ := noL_first hC hlib W
  have hR1 := afterT1_R lib C 0 W
  have hL0 : (0 : Matrix (Fin n) (Fin n) ℝ).IsHermitian := isHermitian_zero
  have hSu := matS1_isUnit hC hL0 hlib
  have hwS : (afterT1 lib C 0 W).w = W * matS1 lib C 0 := (afterT1_w lib C 0 W).trans (by rw [afterT1_S])
  set S1 := matS1 lib C 0 with hS1
  generalize ht1e : afterT1 lib C 0 W = t1' at *
  have hz : ∀ j, t1'.omega j = 0 ↔ 0 ≤ (j : ℕ) := by
    intro j; rw [hom]; simp
  have hlen : (chargeCols t1'.omega).length = n := by
    have := chargeCols_len (omega := t1'.omega) (m := 0) (by omega) hz
    omega
  have hget := chargeCols_get (omega := t1'.omega) (m := 0) (by omega) hz
  have hq : (chargeCols t1'.omega).length ≠ 0 := by rw [hlen]; exact NeZero.ne n
  have hpos : ∀ i, ∃ p : Fin (independentRows argsort (wCharge sv W S1 t1'.omega)).1.length,
      (keptCols sv Wᵀ).get ((independentRows argsort (wCharge sv W S1 t1'.omega)).1.get p) = i := by
    rw [hom]; exact hpos
  obtain ⟨tb, rfl, htb⟩ := transformHamil_ok ht
  obtain ⟨-, htb⟩ := htb.resolve_right (fun h => hnJ h.1)
  rw [ht1e] at htb
  obtain ⟨f, rfl⟩ : ∃ f, fuel = f + 1 := by
    cases fuel with
    | zero => simp [t2] at htb
    | succ f => exact ⟨f, rfl⟩
  rw [t2] at htb
  split at htb
  · cases htb
  · cases htb
  rename_i s k hch
  obtain ⟨F, hF, hs, hle, hrow⟩ := choose_rows hJ hq hch
  choose pos hposi using hpos
  have hposlt : ∀ i, ((pos i : ℕ)) < (chargeCols t1'.omega).length := fun i => lt_of_lt_of_le (pos i).2 hle
  set π : Fin nJ → Fin n := fun i => (chargeCols t1'.omega).get ⟨pos i, hposlt i⟩ with hπ
  have hπv : ∀ i, (π i : ℕ) = pos i := by
    intro i
    rw [hπ]
    simp only [hget]
    omega
  have hrlen : (independentRows argsort (wCharge sv W S1 t1'.omega)).1.length ≤ nJ := by
    have hnd := (C29_gram_schmidt argsort (wCharge sv W S1 t1'.omega)).2.2.1
    have h1 := hnd.length_le_card
    rw [Fintype.card_fin] at h1
    refine h1.trans ?_
    rw [keptCols_length hsv, rank_nzMat, rank_transpose]
    exact rank_le_height W
  have hws : ∀ i j, (t1'.w * s) i j = if j = π i then 1 else 0 := by
    intro i j
    obtain ⟨q, hq'⟩ := List.get_of_mem ((mem_chargeCols t1'.omega j).2 (by rw [hom]))
    rw [← hq', hs, mul_blockS2 (Nat.zero_le n) hz]
    have h1 : (fun q => t1'.w i ((chargeCols t1'.omega).get q)) = F ⟨pos i, hposlt i⟩ := by
      rw [hrow ⟨pos i, hposlt i⟩ (pos i).2]
      have : (⟨((⟨pos i, hposlt i⟩ : Fin (chargeCols t1'.omega).length) : ℕ), (pos i).2⟩ :
        Fin (independentRows argsort (wCharge sv W S1 t1'.omega)).1.length) = pos i := rfl
      rw [this]
      funext q
      rw [hwS]
      change _ = (W * S1) ((keptCols sv Wᵀ).get _) ((chargeCols t1'.omega).get q)
      rw [hposi]
    rw [h1]
    have h2 : (F ⟨pos i, hposlt i⟩ ᵥ* F⁻¹) q = (F * F⁻¹) ⟨pos i, hposlt i⟩ q := by
      rw [mul_apply]; rfl
    rw [h2, mul_nonsing_inv _ hF, one_apply]
    by_cases hqe : (⟨pos i, hposlt i⟩ : Fin (chargeCols t1'.omega).length) = q
    · rw [if_pos hqe, if_pos]
      rw [hπ, ← hqe]
    · rw [if_neg hqe, if_neg]
      intro hh
      apply hqe
      ext
      have h3 := congrArg Fin.val hh
      rw [hπv, hget] at h3
      simp only
      omega
  have hround : roundZeroOne numJ t1'.omega (t1'.w * s) = t1'.w * s := by
    ext i j
    refine round_tri hJ (by rw [hom]) ?_
    rw [hws]
    split
    · exact Or.inr (Or.inr rfl)
    · exact Or.inr (Or.inl rfl)
  have hsucc : gsSuccessful numJ t1' s := by
    intro j _ i
    rw [hround, hws]
    split <;> simp
  have hsu : IsUnit s.det := by
    rw [hs]
    exact blockS2_det (Nat.zero_le n) hz F hF
  have htb' : tb = { applyT s (sᵀ)⁻¹ t1' with w := roundZeroOne numJ t1'.omega (t1'.w * s) } := by
    have hni : npInv sᵀ = .ok (sᵀ)⁻¹ := by
      unfold npInv; rw [if_neg (by rw [det_transpose]; exact hsu.ne_zero)]
    rw [hni] at htb
    simp only at htb
    rw [if_pos hsucc] at htb
    simp only [Option.some.injEq, Except.ok.injEq] at htb
    rw [← htb]
    simp [applyT, hnJ]
  -- the inverse capacitance
  have hsinv : s * s⁻¹ = 1 := mul_nonsing_inv _ hsu
  have hinvrow : ∀ i c, s⁻¹ (π i) c = t1'.w i c := by
    intro i c
    have h1 : (t1'.w * s * s⁻¹) i c = t1'.w i c := by rw [Matrix.mul_assoc, hsinv, Matrix.mul_one]
    rw [← h1, mul_apply, Finset.sum_eq_single (π i)]
    · rw [hws, if_pos rfl, one_mul]
    · intro b _ hb
      rw [hws, if_neg hb, zero_mul]
    · intro hb; exact absurd (Finset.mem_univ _) hb
  have hS1C : S1 * S1ᵀ = C⁻¹ := by
    symm
    apply inv_eq_right_inv
    have h1 : S1ᵀ * (C * S1) = 1 := by rw [← Matrix.mul_assoc]; exact hcap
    have h2 := mul_eq_one_comm.1 h1
    rw [← Matrix.mul_assoc]; exact h2
  have hrt : ((sᵀ)⁻¹)ᵀ = s⁻¹ := by rw [transpose_nonsing_inv, transpose_transpose]
  have ht3 : ∀ tb : Trans nJ n, (∀ j, tb.omega j = 0) → t3 argmax tb = tb := by
    intro tb hz0
    have hdg : t3Diag argmax tb = fun _ => 1 := by
      funext j
      unfold t3Diag
      rw [if_pos (hz0 j)]
    have he : t3Elim tb = tb := by
      have h1 : (t3Elim tb).w = tb.w := by
        ext i j
        change (if _ ∧ _ then _ else _) = _
        rw [if_neg]
        rintro ⟨h, -⟩
        exact h (hz0 j)
      have e2 : t3Elim tb = { tb with w := (t3Elim tb).w } := rfl
      rw [e2, h1]
    rw [t3_eq, he, hdg]
    obtain ⟨a, b, c, d, e, f⟩ := tb
    simp [applyT]
  rw [ht3 tb (by intro j; rw [htb']; change t1'.omega j = 0; rw [hom]), htb']
  have hlast : ∀ i, ∃ p : Fin (independentRows argsort (wCharge sv W S1 t1'.omega)).1.length,
      (keptCols sv Wᵀ).get ((independentRows argsort (wCharge sv W S1 t1'.omega)).1.get p) = i ∧
        (π i : ℕ) = p := fun i => ⟨pos i, hposi i, hπv i⟩
  refine ⟨π, ?_, ?_, ?_, ?_, ?_, by rw [hom] at hlast; exact hlast, ?_⟩
  · intro i i' hii
    have h1 : (pos i : ℕ) = pos i' := by rw [← hπv, ← hπv, hii]
    rw [← hposi i, ← hposi i', Fin.ext h1]
  · intro i
    rw [hπv]
    exact lt_of_lt_of_le (pos i).2 hrlen
  · intro j
    change t1'.omega j = 0
    rw [hom]
  · intro i j
    change roundZeroOne numJ t1'.omega (t1'.w * s) i j = _
    rw [hround, hws]
  · intro i j
    change (((sᵀ)⁻¹)ᵀ * t1'.cInv * (sᵀ)⁻¹) (π i) (π j) = _
    rw [hcI, Matrix.mul_one, hrt]
    have e1 : (sᵀ)⁻¹ = (s⁻¹)ᵀ := by rw [transpose_nonsing_inv]
    rw [e1, mul_apply]
    have e2 : (W * C⁻¹ * Wᵀ) = t1'.w * t1'.wᵀ := by
      rw [hwS, transpose_mul, ← hS1C]
      simp only [Matrix.mul_assoc]
    rw [e2, mul_apply]
    refine Finset.sum_congr rfl fun c _ => ?_
    rw [transpose_apply, transpose_apply, hinvrow, hinvrow]
  · intro i p
    change (t1'.R * (sᵀ)⁻¹) p (π i) = _
    have e1 : (sᵀ)⁻¹ = (s⁻¹)ᵀ := by rw [transpose_nonsing_inv]
    have e2 : t1'.w * t1'.Rᵀ = W := by
      rw [hwS, hR1, transpose_transpose, Matrix.mul_assoc, mul_nonsing_inv _ hSu, Matrix.mul_one]
    rw [e1, mul_apply]
    have e3 := congrFun (congrFun e2 i) p
    rw [← e3, mul_apply]
    refine Finset.sum_congr rfl fun c _ => ?_
    rw [transpose_apply, transpose_apply, hinvrow, mul_comm]

theorem kept_all {sv : SvdFn} (hsv : SvdSpec sv) (W : Matrix (Fin nJ) (Fin n) ℝ) (hli : LinearIndependent ℝ W.row) :
    keptCols sv Wᵀ = List.finRange nJ := by
  rw [keptCols_eq_take hsv]
  have h1 : nonzeroCols Wᵀ = List.finRange nJ := by
    unfold nonzeroCols
    rw [List.filter_eq_self]
    intro i _
    simp only [decide_eq_true_eq]
    by_contra hno
    push Not at hno
    exact hli.ne_zero i (funext hno)
  have h2 : Wᵀ.rank = nJ := by
    rw [rank_transpose, hli.rank_matrix, Fintype.card_fin]
  rw [h1, h2]
  apply List.take_of_length_le
  simp

/-- the dual vectors of the rows of `A`: rows of (A Aᵀ)⁻¹ A -/
theorem dual_rows {A : Matrix (Fin nJ) (Fin n) ℝ} {G : Matrix (Fin nJ) (Fin nJ) ℝ} (hG : A * Aᵀ = G)
    (hdet : IsUnit G.det) :
    (∀ i j, ∑ c, A j c * (G⁻¹ * A) i c = if i = j then 1 else 0) ∧ (∀ i, ∑ c, (G⁻¹ * A) i c ^ 2 = G⁻¹ i i) ∧
    (∀ i, ∑ c, A i c ^ 2 = G i i) := by
  have hGt : Gᵀ = G := by rw [← hG, transpose_mul, transpose_transpose]
  have hGit : (G⁻¹)ᵀ = G⁻¹ := by rw [transpose_nonsing_inv, hGt]
  refine ⟨?_, ?_, ?_⟩
  · intro i j
    have h1 : A * (G⁻¹ * A)ᵀ = 1 := by
      rw [transpose_mul, hGit, ← Matrix.mul_assoc, hG, mul_nonsing_inv _ hdet]
    have h2 := congrFun (congrFun h1 j) i
    rw [mul_apply, one_apply] at h2
    simp only [transpose_apply] at h2
    rw [h2]
    simp only [eq_comm]
  · intro i
    have h1 : (G⁻¹ * A) * (G⁻¹ * A)ᵀ = G⁻¹ := by
      rw [transpose_mul, hGit, Matrix.mul_assoc, ← Matrix.mul_assoc A, hG, mul_nonsing_inv _ hdet, Matrix.mul_one]
    have h2 := congrFun (congrFun h1 i) i
    rw [mul_apply] at h2
    rw [← h2]
    exact Finset.sum_congr rfl fun c _ => by rw [transpose_apply]; ring
  · intro i
    rw [← hG, mul_apply]
    exact Finset.sum_congr rfl fun c _ => by rw [transpose_apply]; ring

theorem abs_sum_le (z : Fin n → ℝ) : ∑ c, |z c| ≤ √n * √(∑ c, z c ^ 2) := by
  rw [← Real.sqrt_mul (by positivity)]
  apply Real.le_sqrt_of_sq_le
  have h := sq_sum_le_card_mul_sum_sq (s := Finset.univ) (f := fun c => |z c|)
  simpa using h

/-- in a well conditioned circuit every junction row is selected -/
theorem selects_all {sv : SvdFn} (hsv : SvdSpec sv) {argsort : ArgsortFn} (ha : ArgsortSpec argsort)
    (W : Matrix (Fin nJ) (Fin n) ℝ) (hli : LinearIndependent ℝ W.row) (S1 : Matrix (Fin n) (Fin n) ℝ)
    {G : Matrix (Fin nJ) (Fin nJ) ℝ} (hG : (W * S1) * (W * S1)ᵀ = G) (hdet : IsUnit G.det)
    (hcond : ∀ i, accGS * (√(G i i) + 1e-9) * (√n * √(G⁻¹ i i)) < 1) :
    (independentRows argsort (wCharge sv W S1 (fun _ => 0))).1.Perm (List.finRange _) ∧
    (independentRows argsort (wCharge sv W S1 (fun _ => 0))).2.length = nJ ∧
    (independentRows argsort (wCharge sv W S1 (fun _ => 0))).1.Pairwise (fun a b =>
      G ((keptCols sv Wᵀ).get b) ((keptCols sv Wᵀ).get b) ≤ G ((keptCols sv Wᵀ).get a) ((keptCols sv Wᵀ).get a)) ∧
    ∀ i, chargeRow W S1 (chargeCols (fun _ => 0)) i ∈ Submodule.span ℝ
      (wCharge sv W S1 (fun _ => 0) '' {a | a ∈ (independentRows argsort (wCharge sv W S1 (fun _ => 0))).1}) := by
  classical
  have hk := kept_all hsv W hli
  obtain ⟨hd1, hd2, hd3⟩ := dual_rows hG hdet
  have hsum : ∀ f : Fin n → ℝ, ∑ q : Fin (chargeCols (fun _ : Fin n => (0 : ℝ))).length,
      f ((chargeCols (fun _ : Fin n => (0 : ℝ))).get q) = ∑ c, f c := by
    intro f
    rw [sum_charge (omega := fun _ : Fin n => (0 : ℝ)) f (fun j hj => absurd rfl hj)]
  have hinj : ∀ a b : Fin (keptCols sv Wᵀ).length, (keptCols sv Wᵀ).get a = (keptCols sv Wᵀ).get b ↔ a = b := by
    have hnd : (keptCols sv Wᵀ).Nodup := by rw [hk]; exact List.nodup_finRange _
    intro a b
    exact ⟨fun h => List.nodup_iff_injective_get.1 hnd h, fun h => by rw [h]⟩
  have hnorm : ∀ a, vnorm (wCharge sv W S1 (fun _ => 0) a) = √(G ((keptCols sv Wᵀ).get a) ((keptCols sv Wᵀ).get a)) := by
    intro a
    unfold vnorm
    rw [← hd3, ← hsum]
    rfl
  have heq := gs_all ha (wCharge sv W S1 (fun _ => 0))
    (fun a q => (G⁻¹ * (W * S1)) ((keptCols sv Wᵀ).get a) ((chargeCols (fun _ : Fin n => (0 : ℝ))).get q))
    (by
      intro a b
      have h1 := hd1 ((keptCols sv Wᵀ).get a) ((keptCols sv Wᵀ).get b)
      rw [← hsum] at h1
      simp only [hinj] at h1
      exact h1)
    (by
      intro a
      rw [hnorm]
      refine lt_of_le_of_lt ?_ (hcond ((keptCols sv Wᵀ).get a))
      have h2 : ∑ q, |(G⁻¹ * (W * S1)) ((keptCols sv Wᵀ).get a) ((chargeCols (fun _ : Fin n => (0 : ℝ))).get q)| ≤
          √n * √(G⁻¹ ((keptCols sv Wᵀ).get a) ((keptCols sv Wᵀ).get a)) := by
        rw [hsum (fun c => |(G⁻¹ * (W * S1)) ((keptCols sv Wᵀ).get a) c|), ← hd2]
        exact abs_sum_le _
      refine mul_le_mul_of_nonneg_left h2 ?_
      have := Real.sqrt_nonneg (G ((keptCols sv Wᵀ).get a) ((keptCols sv Wᵀ).get a))
      unfold accGS
      positivity)
  have hperm : (independentRows argsort (wCharge sv W S1 (fun _ => 0))).1.Perm (List.finRange _) := by
    rw [heq]; exact ha.perm _ _
  refine ⟨hperm, ?_, ?_, ?_⟩
  · rw [← (gsInv_rows argsort (wCharge sv W S1 (fun _ => 0))).len, hperm.length_eq, List.length_finRange, hk,
      List.length_finRange]
  · rw [heq]
    refine (ha.sorted _ _).imp ?_
    intro a b hab
    rw [hnorm, hnorm, neg_le_neg_iff] at hab
    refine (Real.sqrt_le_sqrt_iff ?_).1 hab
    rw [← hd3]
    positivity
  · intro i
    apply Submodule.subset_span
    obtain ⟨a, ha'⟩ := List.get_of_mem (show i ∈ keptCols sv Wᵀ by rw [hk]; exact List.mem_finRange i)
    refine ⟨a, hperm.mem_iff.2 (List.mem_finRange a), ?_⟩
    rw [← ha']
    rfl

end SQ
