import Verif.Spec.Rayleigh
import Verif.Lemmas.MonoCap
import Verif.Lemmas.Linear
import Mathlib.Data.List.Sort

/-!
# Mode frequencies fall when capacitances and inductances grow
-/

namespace SQ
open Matrix Spec

/-- quadratic form on a combination of patterns, by energies: only patterns of equal frequency overlap -/
theorem ray_quad {n : ℕ} {C L : Matrix (Fin n) (Fin n) ℝ} (hC : C.PosDef) (hL : Lᵀ = L) {ω : Fin n → ℝ} {y : Fin n → Fin n → ℝ}
    (hy : ∀ j, L *ᵥ y j = ω j ^ 2 • (C *ᵥ y j)) (a : Fin n → ℝ) (t s : ℝ) (hs : ∀ i, a i ≠ 0 → 0 ≤ s * (ω i ^ 2 - t)) :
    0 ≤ s * ((∑ i, a i • y i) ⬝ᵥ (L *ᵥ ∑ i, a i • y i) - t * ((∑ i, a i • y i) ⬝ᵥ (C *ᵥ ∑ i, a i • y i))) := by
  have hCt : Cᵀ = C := by
    have := hC.isHermitian.eq
    rwa [conjTranspose_eq_transpose_of_trivial] at this
  have hsym : ∀ (A : Matrix (Fin n) (Fin n) ℝ), Aᵀ = A → ∀ a b : Fin n → ℝ, a ⬝ᵥ (A *ᵥ b) = b ⬝ᵥ (A *ᵥ a) := by
    intro A hA a b
    rw [dotProduct_mulVec, ← mulVec_transpose, hA, dotProduct_comm]
  have hG : ∀ i k, y i ⬝ᵥ (C *ᵥ y k) ≠ 0 → ω i ^ 2 = ω k ^ 2 := by
    intro i k h0
    have h1 : y i ⬝ᵥ (L *ᵥ y k) = ω k ^ 2 * (y i ⬝ᵥ (C *ᵥ y k)) := by rw [hy k, dotProduct_smul, smul_eq_mul]
    have h2 : y i ⬝ᵥ (L *ᵥ y k) = ω i ^ 2 * (y i ⬝ᵥ (C *ᵥ y k)) := by
      rw [hsym L hL, hy i, dotProduct_smul, smul_eq_mul, hsym C hCt]
    exact mul_right_cancel₀ h0 (h2.symm.trans h1)
  have hexp : ∀ (A : Matrix (Fin n) (Fin n) ℝ) (a : Fin n → ℝ), (∑ i, a i • y i) ⬝ᵥ (A *ᵥ ∑ i, a i • y i) =
      ∑ i, ∑ k, a i * a k * (y i ⬝ᵥ (A *ᵥ y k)) := by
    intro A a
    rw [sum_dotProduct]
    refine Finset.sum_congr rfl fun i _ => ?_
    rw [mulVec_sum, dotProduct_sum]
    refine Finset.sum_congr rfl fun k _ => ?_
    rw [mulVec_smul, dotProduct_smul, smul_dotProduct, smul_eq_mul, smul_eq_mul]
    ring
  set b : Fin n → ℝ := fun i => √(s * (ω i ^ 2 - t)) * a i with hb
  have key : s * ((∑ i, a i • y i) ⬝ᵥ (L *ᵥ ∑ i, a i • y i) - t * ((∑ i, a i • y i) ⬝ᵥ (C *ᵥ ∑ i, a i • y i))) =
      (∑ i, b i • y i) ⬝ᵥ (C *ᵥ ∑ i, b i • y i) := by
    rw [hexp, hexp, hexp, Finset.mul_sum, ← Finset.sum_sub_distrib, Finset.mul_sum]
    refine Finset.sum_congr rfl fun i _ => ?_
    rw [Finset.mul_sum, ← Finset.sum_sub_distrib, Finset.mul_sum]
    refine Finset.sum_congr rfl fun k _ => ?_
    rw [hy k, dotProduct_smul, smul_eq_mul]
    by_cases h0 : y i ⬝ᵥ (C *ᵥ y k) = 0
    · rw [h0]; ring
    · have e := hG i k h0
      rw [hb]
      simp only
      rw [e]
      by_cases hk : a k = 0
      · rw [hk]; ring
      · have := Real.mul_self_sqrt (hs k hk)
        linear_combination (-(a i * a k * (y i ⬝ᵥ (C *ᵥ y k)))) * this
  rw [key]
  have := hC.posSemidef.dotProduct_mulVec_nonneg (∑ i, b i • y i)
  simpa using this

theorem ray_subtype {n : ℕ} (p : Fin n → Prop) [DecidablePred p] (f : Fin n → Fin n → ℝ) (h : ∀ i, ¬ p i → f i = 0) :
    ∑ i, f i = ∑ i : {i // p i}, f i := by
  rw [← Finset.sum_filter_add_sum_filter_not Finset.univ p, Finset.sum_eq_zero (s := Finset.univ.filter fun i => ¬ p i) (by
    intro i hi
    exact h i (Finset.mem_filter.1 hi).2), add_zero]
  exact Finset.sum_subtype _ (by simp) _

/-- a combination of the first `j + 1` patterns of one basis that is one of the patterns from `j` on of another -/
theorem ray_meet {n : ℕ} {y y' : Fin n → Fin n → ℝ} (hy : LinearIndependent ℝ y) (hy' : LinearIndependent ℝ y') (j : Fin n) :
    ∃ (a a' : Fin n → ℝ), ∑ i, a i • y i = ∑ i, a' i • y' i ∧ ∑ i, a i • y i ≠ 0 ∧ (∀ i, i < j → a i = 0) ∧ ∀ i, j < i → a' i = 0 := by
  let f : {i : Fin n // j ≤ i} ⊕ {i : Fin n // i ≤ j} → Fin n → ℝ := Sum.elim (fun i => y i) (fun i => y' i)
  have hcard : Module.finrank ℝ (Fin n → ℝ) < Fintype.card ({i : Fin n // j ≤ i} ⊕ {i : Fin n // i ≤ j}) := by
    rw [Module.finrank_fin_fun, Fintype.card_sum, Fintype.card_subtype, Fintype.card_subtype]
    have e1 : (Finset.univ.filter fun i : Fin n => j ≤ i) = Finset.Ici j := by ext; simp
    have e2 : (Finset.univ.filter fun i : Fin n => i ≤ j) = Finset.Iic j := by ext; simp
    rw [e1, e2, Fin.card_Ici, Fin.card_Iic]
    have := j.isLt
    omega
  have hdep : ¬ LinearIndependent ℝ f := by
    intro h
    have := h.fintype_card_le_finrank
    omega
  rw [Fintype.not_linearIndependent_iff] at hdep
  obtain ⟨g, hg, i0, hi0⟩ := hdep
  rw [Fintype.sum_sum_type] at hg
  set a : Fin n → ℝ := fun i => if h : j ≤ i then g (.inl ⟨i, h⟩) else 0 with ha
  set a' : Fin n → ℝ := fun i => if h : i ≤ j then - g (.inr ⟨i, h⟩) else 0 with ha'
  have s1 : ∑ i, a i • y i = ∑ i : {i : Fin n // j ≤ i}, g (.inl i) • y i := by
    rw [ray_subtype (fun i => j ≤ i) (fun i => a i • y i) (fun i hi => by rw [ha]; simp [hi])]
    exact Finset.sum_congr rfl fun i _ => by rw [ha]; simp [i.2]
  have s2 : ∑ i, a' i • y' i = - ∑ i : {i : Fin n // i ≤ j}, g (.inr i) • y' i := by
    rw [ray_subtype (fun i => i ≤ j) (fun i => a' i • y' i) (fun i hi => by rw [ha']; simp [hi]), ← Finset.sum_neg_distrib]
    exact Finset.sum_congr rfl fun i _ => by rw [ha']; simp [i.2]
  have heq : ∑ i, a i • y i = ∑ i, a' i • y' i := by
    rw [s1, s2, eq_neg_iff_add_eq_zero]
    exact hg
  refine ⟨a, a', heq, ?_, ?_, ?_⟩
  · intro h0
    have h1 := Fintype.linearIndependent_iff.1 hy a h0
    have h2 := Fintype.linearIndependent_iff.1 hy' a' (heq ▸ h0)
    rcases i0 with ⟨i, hi⟩ | ⟨i, hi⟩
    · have := h1 i
      rw [ha] at this
      simp only [dif_pos hi] at this
      exact hi0 this
    · have := h2 i
      rw [ha'] at this
      simp only [dif_pos hi] at this
      exact hi0 (neg_eq_zero.1 this)
  · intro i hi
    rw [ha]
    exact dif_neg (not_le.2 hi)
  · intro i hi
    rw [ha']
    exact dif_neg (not_le.2 hi)

/-- Rayleigh's monotonicity: with more kinetic and less potential energy, no mode frequency is higher -/
theorem ray_mono {n : ℕ} {C L C' L' : Matrix (Fin n) (Fin n) ℝ} (hC : C.PosDef) (hC' : C'.PosDef) (hL : Lᵀ = L) (hL' : L'ᵀ = L')
    (hCC : ∀ x, x ⬝ᵥ (C *ᵥ x) ≤ x ⬝ᵥ (C' *ᵥ x)) (hLL : ∀ x, x ⬝ᵥ (L' *ᵥ x) ≤ x ⬝ᵥ (L *ᵥ x)) {ω ω' : Fin n → ℝ}
    (h : NormalModes C L ω) (h' : NormalModes C' L' ω') (j : Fin n) : ω' j ≤ ω j := by
  obtain ⟨-, hnn, hanti, y, hli, hy⟩ := h
  obtain ⟨-, hnn', hanti', y', hli', hy'⟩ := h'
  obtain ⟨a, a', heq, hne, ha, ha'⟩ := ray_meet hli hli' j
  have q1 := ray_quad hC hL hy a (ω j ^ 2) (-1) (by
    intro i hi
    have hij : j ≤ i := not_lt.1 fun hlt => hi (ha i hlt)
    have := pow_le_pow_left₀ (hnn i) (hanti hij) 2
    linarith)
  have q2 := ray_quad hC' hL' hy' a' (ω' j ^ 2) 1 (by
    intro i hi
    have hij : i ≤ j := not_lt.1 fun hlt => hi (ha' i hlt)
    have := pow_le_pow_left₀ (hnn' j) (hanti' hij) 2
    linarith)
  rw [← heq] at q2
  generalize ∑ i, a i • y i = x at q1 q2 hne
  have hpos : 0 < x ⬝ᵥ (C' *ᵥ x) := by simpa using hC'.dotProduct_mulVec_pos hne
  have h1 := hCC x
  have h2 := hLL x
  have h3 : ω j ^ 2 * (x ⬝ᵥ (C *ᵥ x)) ≤ ω j ^ 2 * (x ⬝ᵥ (C' *ᵥ x)) := mul_le_mul_of_nonneg_left h1 (sq_nonneg _)
  have h4 : ω' j ^ 2 * (x ⬝ᵥ (C' *ᵥ x)) ≤ ω j ^ 2 * (x ⬝ᵥ (C' *ᵥ x)) := by linarith
  exact le_of_sq_le_sq (le_of_mul_le_mul_right h4 hpos) (hnn j)

theorem insert_le {a a' : ℝ} (haa : a' ≤ a) {l l' : List ℝ} (h : List.Forall₂ (fun f f' => f' ≤ f) l l')
    (hs : l.Pairwise (· ≤ ·)) (hs' : l'.Pairwise (· ≤ ·)) :
    List.Forall₂ (fun f f' => f' ≤ f) (l.orderedInsert (· ≤ ·) a) (l'.orderedInsert (· ≤ ·) a') := by
  induction h generalizing a a' with
  | nil => exact .cons haa .nil
  | cons hx hl ih =>
    rename_i x x' xs xs'
    have e1 : xs.orderedInsert (· ≤ ·) x = x :: xs := by
      cases xs with
      | nil => rfl
      | cons z zs => rw [List.orderedInsert, if_pos ((List.pairwise_cons.1 hs).1 z (by simp))]
    have e2 : xs'.orderedInsert (· ≤ ·) x' = x' :: xs' := by
      cases xs' with
      | nil => rfl
      | cons z zs => rw [List.orderedInsert, if_pos ((List.pairwise_cons.1 hs').1 z (by simp))]
    have ih' := fun {a a' : ℝ} (h : a' ≤ a) => ih h (List.pairwise_cons.1 hs).2 (List.pairwise_cons.1 hs').2
    rw [List.orderedInsert, List.orderedInsert]
    split_ifs with h1 h2 h2
    · exact .cons haa (.cons hx hl)
    · refine .cons (by linarith) ?_
      have := ih' (a := x) (a' := a') (by linarith)
      rwa [e1] at this
    · refine .cons (by linarith) ?_
      have := ih' (a := a) (a' := x') (by linarith)
      rwa [e2] at this
    · exact .cons hx (ih' haa)

theorem lowest_mono {ι : Type*} [Fintype ι] {E E' : ι → ℝ} (h : ∀ x, E' x ≤ E x) (num : ℕ) :
    List.Forall₂ (fun f f' => f' ≤ f) (lowest E num) (lowest E' num) := by
  have key : ∀ l : List ι, List.Forall₂ (fun f f' => f' ≤ f) ((l.map E).insertionSort (· ≤ ·)) ((l.map E').insertionSort (· ≤ ·)) := by
    intro l
    induction l with
    | nil => exact .nil
    | cons x l ih =>
      exact insert_le (h x) ih (List.pairwise_insertionSort _ _) (List.pairwise_insertionSort _ _)
  obtain ⟨l, hl⟩ : ∃ l : List ι, (Finset.univ.val : Multiset ι) = l := ⟨_, (Multiset.coe_toList _).symm⟩
  have hsort : ∀ E : ι → ℝ, ((Finset.univ.val.map E).sort (· ≤ ·)) = (l.map E).insertionSort (· ≤ ·) := by
    intro E
    rw [hl, Multiset.map_coe]
    refine List.Perm.eq_of_pairwise (le := (· ≤ ·)) (fun a b _ _ => le_antisymm) ?_ (List.pairwise_insertionSort _ _) ?_
    · exact Multiset.pairwise_sort _ _
    · rw [← Multiset.coe_eq_coe, Multiset.sort_eq]
      exact (Multiset.coe_eq_coe.2 (List.perm_insertionSort _ _)).symm
  unfold lowest
  rw [hsort, hsort]
  exact List.forall₂_take _ (key l)

end SQ
