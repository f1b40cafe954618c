import Verif.Lemmas.Perturb
import Verif.Lemmas.Reversal

/-!
# Compressions of Hermitian operators

The levels of a compression (a principal submatrix) are not below those of the operator, and the levels of an
operator bounded from below are bounded from below.
-/

namespace SQ
open Matrix Complex SQ.Spec

section
variable {ι κ : Type*} [Fintype ι] [Fintype κ]

/-- a vector of the smaller space in the larger one -/
noncomputable def embVec (e : κ → ι) (v : κ → ℂ) : ι → ℂ := open Classical in fun a => ∑ x, if e x = a then v x else 0

theorem sum_embVec (e : κ → ι) (f : ι → ℂ) (v : κ → ℂ) : ∑ a, f a * embVec e v a = ∑ x, f (e x) * v x := by
  classical
  unfold embVec
  simp only [Finset.mul_sum]
  rw [Finset.sum_comm]
  refine Finset.sum_congr rfl fun x _ => ?_
  rw [Finset.sum_eq_single (e x)]
  · simp
  · intro b _ hb; rw [if_neg (Ne.symm hb), mul_zero]
  · intro h; exact absurd (Finset.mem_univ _) h

theorem sum_embVec_conj (e : κ → ι) (f : ι → ℂ) (v : κ → ℂ) :
    ∑ a, (starRingEnd ℂ) (embVec e v a) * f a = ∑ x, (starRingEnd ℂ) (v x) * f (e x) := by
  have := congrArg (starRingEnd ℂ) (sum_embVec e (fun a => (starRingEnd ℂ) (f a)) v)
  rw [map_sum, map_sum] at this
  simp only [map_mul, Complex.conj_conj] at this
  rw [Finset.sum_congr rfl fun a _ => mul_comm _ _, this]
  exact Finset.sum_congr rfl fun a _ => mul_comm _ _

theorem embVec_at {e : κ → ι} (he : Function.Injective e) (v : κ → ℂ) (x : κ) : embVec e v (e x) = v x := by
  classical
  unfold embVec
  rw [Finset.sum_eq_single x]
  · simp
  · intro b _ hb; rw [if_neg fun h => hb (he h)]
  · intro h; exact absurd (Finset.mem_univ _) h

theorem overlap_embVec (e : κ → ι) (u : ι → ℂ) (v : κ → ℂ) : overlap u (embVec e v) = overlap (u ∘ e) v :=
  sum_embVec e _ v

theorem nsq_embVec {e : κ → ι} (he : Function.Injective e) (v : κ → ℂ) : nsq (embVec e v) = nsq v := by
  have h : overlap (embVec e v) (embVec e v) = overlap v v := by
    unfold overlap
    rw [sum_embVec_conj e]
    exact Finset.sum_congr rfl fun x _ => by rw [embVec_at he]
  rw [overlap_self, overlap_self] at h
  exact_mod_cast h

theorem braket_nested (A : Matrix ι ι ℂ) (x : ι → ℂ) :
    braket x A x = ∑ a, (starRingEnd ℂ) (x a) * ∑ b, A a b * x b := by
  unfold braket
  refine Finset.sum_congr rfl fun a _ => ?_
  rw [Finset.mul_sum]
  exact Finset.sum_congr rfl fun b _ => mul_assoc _ _ _

theorem braket_embVec (e : κ → ι) (H : Matrix ι ι ℂ) (v : κ → ℂ) :
    braket (embVec e v) H (embVec e v) = braket v (H.submatrix e e) v := by
  rw [braket_nested, braket_nested, sum_embVec_conj e]
  refine Finset.sum_congr rfl fun a _ => ?_
  rw [sum_embVec]
  rfl

/-- a non-zero vector in the span of the first `m + 1` eigenvectors and orthogonal to `m` given vectors -/
theorem exists_orthogonal {N : ℕ} {H : Matrix ι ι ℂ} {u : Fin N → ι → ℂ} {lam : Fin N → ℝ}
    (h : Eigensys H u lam) (m : Fin N) (g : Fin (m : ℕ) → ι → ℂ) :
    ∃ v, nsq v ≠ 0 ∧ (∀ i, overlap (g i) v = 0) ∧ ∀ j, m < j → overlap (u j) v = 0 := by
  let V (a : Fin ((m : ℕ) + 1) → ℂ) : ι → ℂ :=
    ∑ j : Fin ((m : ℕ) + 1), a j • u ⟨j, by have := j.isLt; have := m.isLt; omega⟩
  let f : (Fin ((m : ℕ) + 1) → ℂ) →ₗ[ℂ] (Fin (m : ℕ) → ℂ) :=
    { toFun := fun a i => overlap (g i) (V a)
      map_add' := by
        intro a b
        funext i
        simp only [V, Pi.add_apply]
        rw [← overlap_add]
        congr 1
        rw [← Finset.sum_add_distrib]
        exact Finset.sum_congr rfl fun j _ => add_smul _ _ _
      map_smul' := by
        intro z a
        funext i
        simp only [V, Pi.smul_apply, RingHom.id_apply]
        rw [smul_eq_mul, ← overlap_smul]
        congr 1
        rw [Finset.smul_sum]
        exact Finset.sum_congr rfl fun j _ => by rw [smul_smul]; rfl }
  have hdim : Module.finrank ℂ (Fin (m : ℕ) → ℂ) < Module.finrank ℂ (Fin ((m : ℕ) + 1) → ℂ) := by
    simp
  obtain ⟨a, ha, ha0⟩ : ∃ a, f a = 0 ∧ a ≠ 0 := by
    have := LinearMap.ker_ne_bot_of_finrank_lt (f := f) hdim
    obtain ⟨a, ha, h0⟩ := Submodule.exists_mem_ne_zero_of_ne_bot this
    exact ⟨a, ha, h0⟩
  have hov : ∀ j : Fin N, overlap (u j) (V a) = if hj : (j : ℕ) < (m : ℕ) + 1 then a ⟨j, hj⟩ else 0 := by
    intro j
    simp only [V]
    rw [overlap_sum]
    simp only [overlap_smul, h.orth]
    by_cases hj : (j : ℕ) < (m : ℕ) + 1
    · rw [dif_pos hj, Finset.sum_eq_single ⟨j, hj⟩]
      · simp
      · intro b _ hb
        rw [if_neg, mul_zero]
        intro he
        exact hb (Fin.ext (congrArg Fin.val he).symm)
      · intro hb; exact absurd (Finset.mem_univ _) hb
    · rw [dif_neg hj]
      refine Finset.sum_eq_zero fun b _ => ?_
      rw [if_neg, mul_zero]
      intro he
      have := b.isLt
      rw [he] at hj
      exact hj this
  refine ⟨V a, ?_, fun i => congrFun ha i, ?_⟩
  · intro h0
    apply ha0
    funext j
    rw [h.nsq_eq] at h0
    have h1 := (Finset.sum_eq_zero_iff_of_nonneg fun i _ => sq_nonneg _).1 h0
      ⟨j, by have := j.isLt; have := m.isLt; omega⟩ (Finset.mem_univ _)
    rw [hov, dif_pos j.isLt] at h1
    simpa using h1
  · intro j hj
    rw [hov, dif_neg]
    have : (m : ℕ) < j := hj
    omega

/-- **Cauchy**: the levels of a compression are not below those of the operator -/
theorem levels_compress {H : Matrix ι ι ℂ} {e : κ → ι} (he : Function.Injective e)
    {vs : List (ι → ℂ)} {ws : List ℝ} (h : Levels H vs ws)
    {vs' : List (κ → ℂ)} {ws' : List ℝ} (h' : Levels (H.submatrix e e) vs' ws') {m : ℕ} (hm : m < ws'.length) :
    ws.getD m 0 ≤ ws'.getD m 0 := by
  obtain ⟨s, mono⟩ := levels_sys h
  obtain ⟨s', mono'⟩ := levels_sys h'
  have hl' : ws'.length = Fintype.card κ := h'.len.trans h'.card
  have hc : Fintype.card κ ≤ Fintype.card ι := Fintype.card_le_of_injective e he
  have hmκ : m < Fintype.card κ := hl' ▸ hm
  have hmι : m < Fintype.card ι := lt_of_lt_of_le hmκ hc
  obtain ⟨v, hv0, h1, h2⟩ := exists_orthogonal s' ⟨m, hmκ⟩
    (fun i => (fun a => vs.getD (i : ℕ) 0 a) ∘ e)
  have hpos : 0 < nsq v := lt_of_le_of_ne (Finset.sum_nonneg fun a _ => sq_nonneg _) (Ne.symm hv0)
  have e1 : ws.getD m 0 * nsq v ≤ (braket (embVec e v) H (embVec e v)).re := by
    rw [s.rayleigh, ofReal_re, ← nsq_embVec he, s.nsq_eq, Finset.mul_sum]
    refine Finset.sum_le_sum fun i _ => ?_
    by_cases hi : (i : ℕ) < m
    · have : overlap (vs.getD (i : ℕ) 0) (embVec e v) = 0 := by
        rw [overlap_embVec]; exact h1 ⟨i, hi⟩
      rw [this]; simp
    · exact mul_le_mul_of_nonneg_right (mono (a := ⟨m, hmι⟩) (b := i) (not_lt.1 hi)) (sq_nonneg _)
  have e2 : (braket v (H.submatrix e e) v).re ≤ ws'.getD m 0 * nsq v := by
    rw [s'.rayleigh, ofReal_re, s'.nsq_eq, Finset.mul_sum]
    refine Finset.sum_le_sum fun i _ => ?_
    by_cases hi : (⟨m, hmκ⟩ : Fin _) < i
    · rw [h2 i hi]; simp
    · exact mul_le_mul_of_nonneg_right (mono' (not_lt.1 hi)) (sq_nonneg _)
  rw [braket_embVec] at e1
  exact le_of_mul_le_mul_right (e1.trans e2) hpos

end

section
variable {ι : Type*} [Fintype ι]

/-- rows and columns of absolute sum at most `K` -/
def Bounded (A : Matrix ι ι ℂ) (K : ℝ) : Prop := (∀ a, ∑ b, ‖A a b‖ ≤ K) ∧ ∀ b, ∑ a, ‖A a b‖ ≤ K

/-- **Schur's test** -/
theorem Bounded.braket_le {A : Matrix ι ι ℂ} {K : ℝ} (h : Bounded A K) (v : ι → ℂ) : ‖braket v A v‖ ≤ K * nsq v := by
  have h1 : ‖braket v A v‖ ≤ ∑ a, ∑ b, (‖A a b‖ * ‖v a‖ ^ 2 / 2 + ‖A a b‖ * ‖v b‖ ^ 2 / 2) := by
    unfold braket
    refine (norm_sum_le _ _).trans (Finset.sum_le_sum fun a _ => (norm_sum_le _ _).trans (Finset.sum_le_sum fun b _ => ?_))
    rw [norm_mul, norm_mul, RCLike.norm_conj]
    have := mul_le_mul_of_nonneg_left (two_mul_le_add_sq ‖v a‖ ‖v b‖) (norm_nonneg (A a b))
    nlinarith
  refine h1.trans ?_
  simp only [Finset.sum_add_distrib]
  have h2 : ∑ a, ∑ b, ‖A a b‖ * ‖v a‖ ^ 2 / 2 ≤ K * nsq v / 2 := by
    unfold nsq
    rw [Finset.mul_sum, Finset.sum_div]
    refine Finset.sum_le_sum fun a _ => ?_
    rw [← Finset.sum_div, ← Finset.sum_mul]
    have := mul_le_mul_of_nonneg_right (h.1 a) (sq_nonneg ‖v a‖)
    linarith
  have h3 : ∑ a, ∑ b, ‖A a b‖ * ‖v b‖ ^ 2 / 2 ≤ K * nsq v / 2 := by
    rw [Finset.sum_comm]
    unfold nsq
    rw [Finset.mul_sum, Finset.sum_div]
    refine Finset.sum_le_sum fun b _ => ?_
    rw [← Finset.sum_div, ← Finset.sum_mul]
    have := mul_le_mul_of_nonneg_right (h.2 b) (sq_nonneg ‖v b‖)
    linarith
  linarith

theorem Bounded.conj {A : Matrix ι ι ℂ} {K : ℝ} (h : Bounded A K) : Bounded Aᴴ K :=
  ⟨fun a => by simpa [conjTranspose_apply] using h.2 a, fun a => by simpa [conjTranspose_apply] using h.1 a⟩

theorem Bounded.smul {A : Matrix ι ι ℂ} {K : ℝ} (h : Bounded A K) (z : ℂ) : Bounded (z • A) (‖z‖ * K) :=
  ⟨fun a => by
    simp only [Matrix.smul_apply, smul_eq_mul, norm_mul, ← Finset.mul_sum]
    exact mul_le_mul_of_nonneg_left (h.1 a) (norm_nonneg _),
   fun a => by
    simp only [Matrix.smul_apply, smul_eq_mul, norm_mul, ← Finset.mul_sum]
    exact mul_le_mul_of_nonneg_left (h.2 a) (norm_nonneg _)⟩

theorem Bounded.add {A B : Matrix ι ι ℂ} {K L : ℝ} (h : Bounded A K) (h' : Bounded B L) : Bounded (A + B) (K + L) := by
  constructor
  · intro a
    have : ∑ b, ‖(A + B) a b‖ ≤ ∑ b, (‖A a b‖ + ‖B a b‖) := Finset.sum_le_sum fun b _ => norm_add_le _ _
    rw [Finset.sum_add_distrib] at this
    exact this.trans (add_le_add (h.1 a) (h'.1 a))
  · intro a
    have : ∑ b, ‖(A + B) b a‖ ≤ ∑ b, (‖A b a‖ + ‖B b a‖) := Finset.sum_le_sum fun b _ => norm_add_le _ _
    rw [Finset.sum_add_distrib] at this
    exact this.trans (add_le_add (h.2 a) (h'.2 a))

theorem Bounded.zero : Bounded (0 : Matrix ι ι ℂ) 0 := ⟨fun a => by simp, fun a => by simp⟩

theorem Bounded.listSum {α : Type*} (l : List α) {f : α → Matrix ι ι ℂ} {K : α → ℝ} (h : ∀ a ∈ l, Bounded (f a) (K a)) :
    Bounded (l.map f).sum (l.map K).sum := by
  induction l with
  | nil => exact Bounded.zero
  | cons a t ih =>
    simp only [List.map_cons, List.sum_cons]
    exact (h a (by simp)).add (ih fun b hb => h b (by simp [hb]))

theorem Bounded.sum {α : Type*} (s : Finset α) {f : α → Matrix ι ι ℂ} {K : α → ℝ} (h : ∀ a ∈ s, Bounded (f a) (K a)) :
    Bounded (∑ a ∈ s, f a) (∑ a ∈ s, K a) := by
  classical
  induction s using Finset.induction_on with
  | empty => exact Bounded.zero
  | insert a t ha ih =>
    rw [Finset.sum_insert ha, Finset.sum_insert ha]
    exact (h a (by simp)).add (ih fun b hb => h b (by simp [hb]))

theorem Bounded.entry (A : Matrix ι ι ℂ) : Bounded A (entrySum A) := by
  constructor
  · intro a
    exact Finset.single_le_sum (f := fun a => ∑ b, ‖A a b‖) (fun b _ => Finset.sum_nonneg fun _ _ => norm_nonneg _)
      (Finset.mem_univ a)
  · intro b
    unfold entrySum
    rw [Finset.sum_comm]
    exact Finset.single_le_sum (f := fun b => ∑ a, ‖A a b‖) (fun b _ => Finset.sum_nonneg fun _ _ => norm_nonneg _)
      (Finset.mem_univ b)

/-- levels of an operator that is bounded from below -/
theorem levels_bounded {H : Matrix ι ι ℂ} {K : ℝ} (hb : ∀ v, -K * nsq v ≤ (braket v H v).re)
    {vs : List (ι → ℂ)} {ws : List ℝ} (h : Levels H vs ws) {m : ℕ} (hm : m < ws.length) : -K ≤ ws.getD m 0 := by
  obtain ⟨s, -⟩ := levels_sys h
  have hl : ws.length = Fintype.card ι := h.len.trans h.card
  have h1 := hb (vs.getD m 0)
  have ho := s.orth ⟨m, hl ▸ hm⟩ ⟨m, hl ▸ hm⟩
  rw [if_pos rfl] at ho
  have hn : nsq (vs.getD m 0) = 1 := by
    rw [overlap_self] at ho
    exact_mod_cast ho
  have e2 : braket (vs.getD m 0) H (vs.getD m 0) = (ws.getD m 0 : ℂ) := by
    rw [braket_right, s.eigen ⟨m, hl ▸ hm⟩, overlap_smul]
    simp only at ho
    rw [ho, mul_one]
  rw [hn, e2, ofReal_re, mul_one] at h1
  exact h1

end

end SQ
