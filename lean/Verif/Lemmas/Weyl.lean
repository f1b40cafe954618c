import Verif.Lemmas.Interlace
import Verif.Lemmas.Truncation
import Verif.Lemmas.Grad
import Mathlib.Analysis.Normed.Algebra.MatrixExponential
import Mathlib.Analysis.SpecialFunctions.Trigonometric.Bounds

/-!
# Perturbation bounds for levels

Weyl's inequality, and the norm of the exponentials of the junctions' phases, which is at most one whatever the
truncation.
-/

namespace SQ
open Matrix Complex SQ.Spec

section
variable {ι : Type*} [Fintype ι]

/-- **Weyl**: a perturbation whose expectation values are at most `K` raises no level by more than `K` -/
theorem levels_weyl {H H' : Matrix ι ι ℂ} {K : ℝ}
    (hK : ∀ v, (braket v H v).re ≤ (braket v H' v).re + K * nsq v)
    {vs : List (ι → ℂ)} {ws : List ℝ} (h : Levels H vs ws)
    {vs' : List (ι → ℂ)} {ws' : List ℝ} (h' : Levels H' vs' ws') {m : ℕ} (hm : m < Fintype.card ι) :
    ws.getD m 0 ≤ ws'.getD m 0 + K := by
  obtain ⟨s, mono⟩ := levels_sys h
  obtain ⟨s', mono'⟩ := levels_sys h'
  obtain ⟨v, hv0, h1, h2⟩ := exists_orthogonal s' ⟨m, hm⟩ (fun i => (fun a => vs.getD (i : ℕ) 0 a))
  have hpos : 0 < nsq v := lt_of_le_of_ne (Finset.sum_nonneg fun a _ => sq_nonneg _) (Ne.symm hv0)
  have e1 : ws.getD m 0 * nsq v ≤ (braket v H v).re := by
    rw [s.rayleigh, ofReal_re, s.nsq_eq, Finset.mul_sum]
    refine Finset.sum_le_sum fun i _ => ?_
    by_cases hi : (i : ℕ) < m
    · have : overlap (vs.getD (i : ℕ) 0) v = 0 := h1 ⟨i, hi⟩
      rw [this]; simp
    · exact mul_le_mul_of_nonneg_right (mono (a := ⟨m, hm⟩) (b := i) (not_lt.1 hi)) (sq_nonneg _)
  have e2 : (braket v H' v).re ≤ ws'.getD m 0 * nsq v := by
    rw [s'.rayleigh, ofReal_re, s'.nsq_eq, Finset.mul_sum]
    refine Finset.sum_le_sum fun i _ => ?_
    by_cases hi : (⟨m, hm⟩ : Fin _) < i
    · rw [h2 i hi]; simp
    · exact mul_le_mul_of_nonneg_right (mono' (not_lt.1 hi)) (sq_nonneg _)
  have e3 := hK v
  have : ws.getD m 0 * nsq v ≤ (ws'.getD m 0 + K) * nsq v := by rw [add_mul]; linarith
  exact le_of_mul_le_mul_right this hpos

/-- `A† A` is diagonal with entries 0 and 1 -/
def PartialIso [DecidableEq ι] (A : Matrix ι ι ℂ) : Prop :=
  ∃ p : ι → Bool, Aᴴ * A = diagonal fun a => if p a then 1 else 0

theorem nsq_mulVec [DecidableEq ι] (A : Matrix ι ι ℂ) (v : ι → ℂ) :
    ((nsq (A *ᵥ v) : ℝ) : ℂ) = braket v (Aᴴ * A) v := by
  rw [← overlap_self]
  unfold overlap braket
  have h1 : ∀ a, (starRingEnd ℂ) ((A *ᵥ v) a) * (A *ᵥ v) a =
      ∑ x, ∑ y, (starRingEnd ℂ) (v x) * ((starRingEnd ℂ) (A a x) * A a y) * v y := by
    intro a
    simp only [mulVec, dotProduct, map_sum, map_mul]
    rw [Finset.sum_mul_sum]
    exact Finset.sum_congr rfl fun x _ => Finset.sum_congr rfl fun y _ => by ring
  simp only [h1, mul_apply, conjTranspose_apply]
  rw [Finset.sum_comm]
  refine Finset.sum_congr rfl fun x _ => ?_
  rw [Finset.sum_comm]
  refine Finset.sum_congr rfl fun y _ => ?_
  rw [Finset.mul_sum, Finset.sum_mul]
  rfl

theorem PartialIso.braket_le [DecidableEq ι] {A : Matrix ι ι ℂ} (h : PartialIso A) (v : ι → ℂ) :
    ‖braket v A v‖ ≤ nsq v := by
  obtain ⟨p, hp⟩ := h
  have h1 : nsq (A *ᵥ v) ≤ nsq v := by
    have e := congrArg Complex.re (nsq_mulVec A v)
    rw [hp, ofReal_re] at e
    rw [e]
    unfold braket nsq
    rw [Complex.re_sum]
    refine Finset.sum_le_sum fun a _ => ?_
    rw [Finset.sum_eq_single a]
    · rw [diagonal_apply_eq]
      split
      · rw [mul_one, ← Complex.normSq_eq_conj_mul_self, ofReal_re, Complex.normSq_eq_norm_sq]
      · simp
    · intro b _ hb; rw [diagonal_apply_ne' _ hb]; simp
    · intro h; exact absurd (Finset.mem_univ _) h
  rw [braket_nested]
  have h2 : ‖∑ a, (starRingEnd ℂ) (v a) * ∑ b, A a b * v b‖ ≤ ∑ a, (‖v a‖ ^ 2 / 2 + ‖(A *ᵥ v) a‖ ^ 2 / 2) := by
    refine (norm_sum_le _ _).trans (Finset.sum_le_sum fun a _ => ?_)
    rw [norm_mul, RCLike.norm_conj]
    have := two_mul_le_add_sq ‖v a‖ ‖(A *ᵥ v) a‖
    have e : ‖∑ b, A a b * v b‖ = ‖(A *ᵥ v) a‖ := rfl
    rw [e]
    linarith
  refine h2.trans ?_
  rw [Finset.sum_add_distrib, ← Finset.sum_div, ← Finset.sum_div]
  unfold nsq at h1 ⊢
  linarith

end

theorem partialIso_tens {k : ℕ} {m : Fin k → ℕ} {A : Factors m} (h : ∀ i, PartialIso (A i)) : PartialIso (tens A) := by
  choose p hp using h
  refine ⟨fun x => decide (∀ i, p i (x i) = true), ?_⟩
  rw [tens_conjTranspose, tens_mul]
  ext x y
  unfold tens
  rw [of_apply]
  simp only [hp]
  by_cases hxy : x = y
  · subst hxy
    rw [diagonal_apply_eq]
    simp only [diagonal_apply_eq, decide_eq_true_eq]
    by_cases hall : ∀ i, p i (x i) = true
    · rw [if_pos hall]
      exact Finset.prod_eq_one fun i _ => by rw [if_pos (hall i)]
    · rw [if_neg hall]
      push Not at hall
      obtain ⟨i, hi⟩ := hall
      exact Finset.prod_eq_zero (Finset.mem_univ i) (by rw [if_neg hi])
  · rw [diagonal_apply_ne _ hxy]
    obtain ⟨i, hi⟩ : ∃ i, x i ≠ y i := by
      by_contra hcon
      push Not at hcon
      exact hxy (funext hcon)
    exact Finset.prod_eq_zero (Finset.mem_univ i) (diagonal_apply_ne _ hi)

theorem partialIso_one {ι : Type*} [Fintype ι] [DecidableEq ι] : PartialIso (1 : Matrix ι ι ℂ) :=
  ⟨fun _ => true, by simp⟩

theorem partialIso_dOp (N : ℕ) (w : ℝ) : PartialIso (dOp N w) := by
  unfold dOp
  split
  · exact partialIso_one
  split
  · refine ⟨fun a => decide (1 ≤ (a : ℕ)), ?_⟩
    ext x y
    rw [mul_apply]
    simp only [conjTranspose_apply, of_apply, diagonal_apply, decide_eq_true_eq]
    by_cases hxy : x = y
    · subst hxy
      rw [if_pos rfl]
      by_cases h1 : 1 ≤ (x : ℕ)
      · rw [if_pos h1, Finset.sum_eq_single ⟨(x : ℕ) - 1, by have := x.isLt; omega⟩]
        · have : ((x : ℕ) : ℤ) - 1 = (((x : ℕ) - 1 : ℕ) : ℤ) := by omega
          simp [this]
        · intro b _ hb
          rw [if_neg, mul_zero]
          intro h
          exact hb (Fin.ext (by simp only; omega))
        · intro h; exact absurd (Finset.mem_univ _) h
      · rw [if_neg h1]
        refine Finset.sum_eq_zero fun b _ => ?_
        rw [if_neg, mul_zero]
        omega
    · rw [if_neg hxy]
      refine Finset.sum_eq_zero fun b _ => ?_
      by_cases hb : ((x : ℕ) : ℤ) - 1 = (b : ℕ)
      · rw [if_neg (c := ((y : ℕ) : ℤ) - 1 = (b : ℕ)), mul_zero]
        intro h
        exact hxy (Fin.ext (by omega))
      · rw [if_neg hb]; simp
  · refine ⟨fun a => decide ((a : ℕ) + 1 < N), ?_⟩
    rw [conjTranspose_conjTranspose]
    ext x y
    rw [mul_apply]
    simp only [conjTranspose_apply, of_apply, diagonal_apply, decide_eq_true_eq]
    by_cases hxy : x = y
    · subst hxy
      rw [if_pos rfl]
      by_cases h1 : (x : ℕ) + 1 < N
      · rw [if_pos h1, Finset.sum_eq_single ⟨(x : ℕ) + 1, h1⟩]
        · simp
        · intro b _ hb
          rw [if_neg, zero_mul]
          intro h
          exact hb (Fin.ext (by simp only; omega))
        · intro h; exact absurd (Finset.mem_univ _) h
      · rw [if_neg h1]
        refine Finset.sum_eq_zero fun b _ => ?_
        rw [if_neg, zero_mul]
        have := b.isLt
        omega
    · rw [if_neg hxy]
      refine Finset.sum_eq_zero fun b _ => ?_
      by_cases hb : ((b : ℕ) : ℤ) - 1 = (x : ℕ)
      · rw [if_neg (c := ((b : ℕ) : ℤ) - 1 = (y : ℕ))]
        · simp
        intro h
        exact hxy (Fin.ext (by omega))
      · rw [if_neg hb]; simp

theorem partialIso_displace (N : ℕ) (z : ℂ) : PartialIso (qDisplace N z) := by
  refine ⟨fun _ => true, ?_⟩
  have e : (fun _ : Fin N => if (true : Bool) = true then (1 : ℂ) else 0) = 1 := by funext; simp
  rw [e, show diagonal (1 : Fin N → ℂ) = 1 from diagonal_one]
  unfold qDisplace
  set X := z • qCreate N - (starRingEnd ℂ) z • qDestroy N with hX
  have hneg : Xᴴ = -X := by
    rw [hX, conjTranspose_sub, conjTranspose_smul, conjTranspose_smul]
    have h1 : (qCreate N)ᴴ = qDestroy N := by unfold qCreate; exact conjTranspose_conjTranspose _
    have h2 : (qDestroy N)ᴴ = qCreate N := rfl
    rw [h1, h2]
    simp
  rw [← Matrix.exp_conjTranspose, hneg]
  rw [Matrix.exp_neg]
  exact nonsing_inv_mul _ ((isUnit_iff_isUnit_det _).1 (Matrix.isUnit_exp X))

theorem partialIso_exp {nJ k : ℕ} (D : ModeData nJ k) (m : Fin k → ℕ) (ng : Fin k → ℝ) (i : Fin nJ) :
    PartialIso ((buildMem D m ng).exp i) := by
  refine partialIso_tens fun j => ?_
  unfold expFactor
  split
  · exact partialIso_dOp _ _
  split
  · exact partialIso_one
  · exact partialIso_displace _ _

section
variable {ι : Type*} [Fintype ι]

theorem braket_smulOp (v : ι → ℂ) (z : ℂ) (A : Matrix ι ι ℂ) : braket v (z • A) v = z * braket v A v := by
  unfold braket
  simp only [Matrix.smul_apply, smul_eq_mul, Finset.mul_sum]
  exact Finset.sum_congr rfl fun a _ => Finset.sum_congr rfl fun b _ => by ring

theorem braket_conjOp (v : ι → ℂ) (A : Matrix ι ι ℂ) : braket v Aᴴ v = (starRingEnd ℂ) (braket v A v) := by
  unfold braket
  simp only [map_sum, map_mul, Complex.conj_conj, conjTranspose_apply]
  rw [Finset.sum_comm]
  exact Finset.sum_congr rfl fun a _ => Finset.sum_congr rfl fun b _ => by
    show (starRingEnd ℂ) (v b) * (starRingEnd ℂ) (A a b) * v a = _; ring

theorem braket_listSum {α : Type*} (v : ι → ℂ) (l : List α) (f : α → Matrix ι ι ℂ) :
    (braket v (l.map f).sum v).re = (l.map fun a => (braket v (f a) v).re).sum := by
  induction l with
  | nil => simp [braket]
  | cons a l ih => rw [List.map_cons, List.sum_cons, braket_addOp, add_re, ih, List.map_cons, List.sum_cons]

end

theorem phase_norm (x : ℝ) : ‖phase x‖ = 1 := Complex.norm_exp_I_mul_ofReal x

theorem phase_sub_le (x y : ℝ) : ‖phase x - phase y‖ ≤ |x - y| := by
  have h : phase x - phase y = phase y * (Complex.exp (I * ((x - y : ℝ) : ℂ)) - 1) := by
    unfold phase
    rw [mul_sub, mul_one, ← Complex.exp_add]
    congr 2
    push_cast
    ring
  rw [h, norm_mul, phase_norm, one_mul]
  exact Real.norm_exp_I_mul_ofReal_sub_one_le

theorem braket_cos {nJ k : ℕ} {m : Fin k → ℕ} (mem : OpMem nJ m) (i : Fin nJ) (x : ℝ) (v : Idx m → ℂ) :
    (braket v (cosOp mem i x) v).re = (phase x * braket v (mem.exp i) v).re := by
  unfold cosOp
  rw [braket_smulOp, braket_addOp, braket_conjOp, braket_smulOp, Complex.add_conj]
  rw [show (1 / 2 : ℂ) = ((1 / 2 : ℝ) : ℂ) by push_cast; rfl, ← ofReal_mul, ofReal_re]
  ring

/-- the expectation value of a junction's term changes at most with its energy and its flux -/
theorem cos_change {nJ k : ℕ} (D : ModeData nJ k) (m : Fin k → ℕ) (ng : Fin k → ℝ) (i : Fin nJ) (e e' x x' : ℝ)
    (v : Idx m → ℂ) :
    (braket v ((-(e : ℂ)) • cosOp (buildMem D m ng) i x) v).re ≤
      (braket v ((-(e' : ℂ)) • cosOp (buildMem D m ng) i x') v).re + (|e - e'| + |e'| * |x - x'|) * nsq v := by
  have hre : ∀ (r y : ℝ), (braket v ((-(r : ℂ)) • cosOp (buildMem D m ng) i y) v).re =
      -r * (phase y * braket v ((buildMem D m ng).exp i) v).re := by
    intro r y
    rw [braket_smulOp, ← ofReal_neg, re_ofReal_mul, braket_cos]
  rw [hre, hre]
  set b := braket v ((buildMem D m ng).exp i) v with hb
  have hbn : ‖b‖ ≤ nsq v := (partialIso_exp D m ng i).braket_le v
  have h1 : |(phase x * b).re| ≤ nsq v := by
    refine (abs_re_le_norm _).trans ?_
    rw [norm_mul, phase_norm, one_mul]
    exact hbn
  have h2 : |((phase x - phase x') * b).re| ≤ |x - x'| * nsq v := by
    refine (abs_re_le_norm _).trans ?_
    rw [norm_mul]
    exact mul_le_mul (phase_sub_le x x') hbn (norm_nonneg _) (abs_nonneg _)
  have e1 : -e * (phase x * b).re - -e' * (phase x' * b).re =
      -(e - e') * (phase x * b).re - e' * ((phase x - phase x') * b).re := by
    rw [sub_mul, sub_re]; ring
  have h3 : -(e - e') * (phase x * b).re ≤ |e - e'| * nsq v := by
    refine (le_abs_self _).trans ?_
    rw [abs_mul, abs_neg]
    exact mul_le_mul_of_nonneg_left h1 (abs_nonneg _)
  have h4 : -(e' * ((phase x - phase x') * b).re) ≤ |e'| * (|x - x'| * nsq v) := by
    refine (le_abs_self _).trans ?_
    rw [abs_neg, abs_mul]
    exact mul_le_mul_of_nonneg_left h2 (abs_nonneg _)
  nlinarith

/-- change of the Hamiltonian under changes at the junctions only -/
theorem ham_change {n nJ b : ℕ} (C : Matrix (Fin n) (Fin n) ℝ) (M : Modes nJ n) (hk : M.keep.length ≤ n)
    (m : Fin M.keep.length → ℕ) (ng : Fin M.keep.length → ℝ) (val val' : ElemId → ℝ) (phi phi' : Fin b → ℝ)
    (inds : List (IndKey b)) (juns : List (JunKey b nJ)) (hv : ∀ key ∈ inds, ValidEdge n key.edge)
    (hi : ∀ key ∈ inds, phi key.bId / val key.el = phi' key.bId / val' key.el)
    {H H' : Op m} (hH : fullHamiltonian C M m ng val phi inds juns = .ok H)
    (hH' : fullHamiltonian C M m ng val' phi' inds juns = .ok H') (v : Idx m → ℂ) :
    (braket v H v).re ≤ (braket v H' v).re +
      (juns.map fun key => |val key.el - val' key.el| + |val' key.el| * |phi key.bId - phi' key.bId|).sum * nsq v := by
  unfold fullHamiltonian at hH hH'
  simp only at hH hH'
  rw [hamiltonianOf_eq C M hk _ _ _ _ _ _ hv] at hH hH'
  injection hH with hH
  injection hH' with hH'
  rw [← hH, ← hH', braket_addOp, braket_addOp, braket_addOp, braket_addOp]
  simp only [add_re]
  have h1 : inds.map (fun key => ((1 / val key.el * phi key.bId * (Phi0 / 2 / Real.pi) / √hbar : ℝ) : ℂ) •
        indOpOf C M (buildMem M.data m ng) key) =
      inds.map (fun key => ((1 / val' key.el * phi' key.bId * (Phi0 / 2 / Real.pi) / √hbar : ℝ) : ℂ) •
        indOpOf C M (buildMem M.data m ng) key) := by
    refine List.map_congr_left fun key hkey => ?_
    rw [one_div_mul_eq_div, one_div_mul_eq_div, hi key hkey]
  rw [h1, braket_listSum v juns, braket_listSum v juns]
  have h2 : (juns.map fun key => (braket v ((-(val key.el : ℂ)) • cosOp (buildMem M.data m ng) key.wId (phi key.bId)) v).re).sum ≤
      (juns.map fun key => (braket v ((-(val' key.el : ℂ)) • cosOp (buildMem M.data m ng) key.wId (phi' key.bId)) v).re).sum +
      (juns.map fun key => |val key.el - val' key.el| + |val' key.el| * |phi key.bId - phi' key.bId|).sum * nsq v := by
    clear h1 hH hH'
    induction juns with
    | nil => simp
    | cons key l ih =>
      simp only [List.map_cons, List.sum_cons]
      have := cos_change M.data m ng key.wId (val key.el) (val' key.el) (phi key.bId) (phi' key.bId) v
      rw [add_mul]
      linarith
  linarith

end SQ
