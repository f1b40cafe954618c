import Verif.Lemmas.Merge
import Verif.Props.Islands2

/-!
# State space of a circuit as a product
-/

namespace SQ
open Matrix Spec Real

section Space
variable {N K : ℕ} {k : Fin N → ℕ} (t : ∀ s, Fin (k s) → Fin K)

/-- coordinates of the parts -/
def splitIdx (m : Fin K → ℕ) (x : Idx m) : ∀ s, Idx fun i => m (t s i) := fun s i => x (t s i)

variable {t}

theorem split_bijective (hb : Function.Bijective fun x : (Σ s, Fin (k s)) => t x.1 x.2) (m : Fin K → ℕ) :
    Function.Bijective (splitIdx t m) := by
  constructor
  · intro x y h
    funext j
    obtain ⟨⟨s, i⟩, rfl⟩ := hb.2 j
    exact congrFun (congrFun h s) i
  · intro a
    let e := Equiv.ofBijective _ hb
    refine ⟨fun j => (Fin.cast (congrArg m (e.apply_symm_apply j)) (a (e.symm j).1 (e.symm j).2)), ?_⟩
    funext s i
    apply Fin.ext
    change (a (e.symm (t s i)).1 (e.symm (t s i)).2 : ℕ) = a s i
    have : e.symm (t s i) = ⟨s, i⟩ := e.symm_apply_apply ⟨s, i⟩
    rw [this]

variable (hb : Function.Bijective fun x : (Σ s, Fin (k s)) => t x.1 x.2) (m : Fin K → ℕ)

noncomputable def splitEquiv : Idx m ≃ ∀ s, Idx fun i => m (t s i) := Equiv.ofBijective _ (split_bijective hb m)

/-- an operator of the product as an operator of the whole -/
noncomputable def joinOp (A : Matrix (∀ s, Idx fun i => m (t s i)) (∀ s, Idx fun i => m (t s i)) ℂ) : Op m :=
  A.submatrix (splitEquiv hb m) (splitEquiv hb m)

theorem joinOp_mul (A B) : joinOp hb m (A * B) = joinOp hb m A * joinOp hb m B := (submatrix_mul_equiv _ _ _ _ _).symm

theorem joinOp_add (A B) : joinOp hb m (A + B) = joinOp hb m A + joinOp hb m B := rfl

theorem joinOp_sub (A B) : joinOp hb m (A - B) = joinOp hb m A - joinOp hb m B := rfl

theorem joinOp_smul (c : ℂ) (A) : joinOp hb m (c • A) = c • joinOp hb m A := rfl

theorem joinOp_one : joinOp hb m 1 = 1 := submatrix_one_equiv _

theorem joinOp_zero : joinOp hb m 0 = 0 := rfl

theorem joinOp_sum {ι : Type*} (S : Finset ι) (f : ι → Matrix (∀ s, Idx fun i => m (t s i)) (∀ s, Idx fun i => m (t s i)) ℂ) :
    joinOp hb m (∑ i ∈ S, f i) = ∑ i ∈ S, joinOp hb m (f i) := by
  classical
  induction S using Finset.induction_on with
  | empty => rfl
  | insert a S ha ih => rw [Finset.sum_insert ha, Finset.sum_insert ha, joinOp_add, ih]

theorem joinOp_onMode (s : Fin N) (i : Fin (k s)) (A : Matrix (Fin (m (t s i))) (Fin (m (t s i))) ℂ) :
    joinOp hb m (onSub (ι := fun s => Idx fun i => m (t s i)) s (onMode (fun i => m (t s i)) i A)) = onMode m (t s i) A := by
  classical
  ext x y
  rw [onMode_onSub, onMode_onSub]
  simp only [joinOp, submatrix_apply, onSub, Matrix.of_apply, splitEquiv, Equiv.ofBijective_apply]
  have hiff : ((∀ s', s' ≠ s → splitIdx t m x s' = splitIdx t m y s') ∧ (∀ i', i' ≠ i → splitIdx t m x s i' = splitIdx t m y s i')) ↔
      ∀ j, j ≠ t s i → x j = y j := by
    constructor
    · rintro ⟨h1, h2⟩ j hj
      obtain ⟨⟨s', i'⟩, rfl⟩ := hb.2 j
      by_cases hs : s' = s
      · subst hs
        exact h2 i' (fun h => hj (by rw [h]))
      · exact congrFun (h1 s' hs) i'
    · intro h
      constructor
      · intro s' hs
        funext i'
        refine h _ (fun he => hs ?_)
        have := hb.1 (a₁ := ⟨s', i'⟩) (a₂ := ⟨s, i⟩) he
        exact (Sigma.mk.inj_iff.1 this).1
      · intro i' hi
        refine h _ (fun he => hi ?_)
        have := hb.1 (a₁ := ⟨s, i'⟩) (a₂ := ⟨s, i⟩) he
        simpa using this
  by_cases h : ∀ j, j ≠ t s i → x j = y j
  · obtain ⟨h1, h2⟩ := hiff.2 h
    rw [if_pos h1, if_pos h2, if_pos h]
    rfl
  · rw [if_neg h]
    split
    · rename_i h1
      rw [if_neg]
      exact fun h2 => h (hiff.1 ⟨h1, h2⟩)
    · rfl

theorem joinOp_pairs (ng : Fin K → ℝ) (s : Fin N) (i : Fin (k s)) :
    joinOp hb m (onSub (ι := fun s => Idx fun i => m (t s i)) s (pairs (fun i => m (t s i)) (fun i => ng (t s i)) i)) =
      pairs m ng (t s i) := by
  unfold pairs
  rw [sub_eq_add_neg, ← neg_smul, onSub_add, onSub_smul, onSub_one, joinOp_add, joinOp_smul, joinOp_one, joinOp_onMode, neg_smul, sub_eq_add_neg]

theorem joinOp_conj (s : Fin N) (A : Op fun i => m (t s i)) :
    joinOp hb m (onSub (ι := fun s => Idx fun i => m (t s i)) s Aᴴ) =
      (joinOp hb m (onSub (ι := fun s => Idx fun i => m (t s i)) s A))ᴴ := by
  rw [← onSub_conjTranspose]
  rfl

theorem joinOp_cos (s : Fin N) (i : Fin (k s)) (x : ℝ) :
    joinOp hb m (onSub (ι := fun s => Idx fun i => m (t s i)) s (chargeCos (fun i => m (t s i)) i x)) = chargeCos m (t s i) x := by
  unfold chargeCos
  simp only
  rw [onSub_smul, onSub_add, joinOp_smul, joinOp_add, joinOp_conj, onSub_smul, joinOp_smul, joinOp_onMode]

theorem islandHamiltonian_sum {q k : ℕ} (σ : Fin q ≃ Fin k) (G : Matrix (Fin q) (Fin q) ℝ) (E : Fin q → ℝ) (m : Fin k → ℕ) (ng : Fin k → ℝ) :
    islandHamiltonian σ G E m ng = (((2 * eCharge) ^ 2 / 2 / hbar : ℝ) : ℂ) • ∑ i, ∑ j, (G i j : ℂ) • (pairs m ng (σ i) * pairs m ng (σ j)) -
      ∑ i, (E i : ℂ) • chargeCos m (σ i) 0 := by
  unfold islandHamiltonian pairEnergy
  congr 2
  rw [← σ.sum_comp]
  refine Finset.sum_congr rfl fun i _ => ?_
  rw [← σ.sum_comp]
  refine Finset.sum_congr rfl fun j _ => ?_
  simp

theorem join_islands {q : Fin N → ℕ} {Q : ℕ} (σ : ∀ s, Fin (q s) ≃ Fin (k s)) (e : (Σ s, Fin (q s)) ≃ Fin Q) (σM : Fin Q ≃ Fin K)
    (ht : ∀ s i, t s (σ s i) = σM (e ⟨s, i⟩)) (G : ∀ s, Matrix (Fin (q s)) (Fin (q s)) ℝ) (E : ∀ s, Fin (q s) → ℝ)
    (GM : Matrix (Fin Q) (Fin Q) ℝ) (EM : Fin Q → ℝ) (hE : ∀ s i, EM (e ⟨s, i⟩) = E s i)
    (A : (x y : Σ s, Fin (k s)) → ℝ)
    (hA : ∀ z z' : (Σ s, Fin (q s)), A ⟨z.1, σ z.1 z.2⟩ ⟨z'.1, σ z'.1 z'.2⟩ = GM (e z) (e z') - blockDiagonal' G z z') (ng : Fin K → ℝ)
    (Qs : ∀ s, Fin (k s) → Op fun i => m (t s i))
    (hQ : ∀ s i, Qs s i = ((2 * eCharge / √hbar : ℝ) : ℂ) • pairs (fun i => m (t s i)) (fun i => ng (t s i)) i) :
    joinOp hb m (∑ s, onSub (ι := fun s => Idx fun i => m (t s i)) s
        (islandHamiltonian (σ s) (G s) (E s) (fun i => m (t s i)) (fun i => ng (t s i))) +
      (1 / 2 : ℂ) • ∑ x, ∑ y, ((A x y : ℝ) : ℂ) • (onSub (ι := fun s => Idx fun i => m (t s i)) x.1 (Qs x.1 x.2) *
        onSub (ι := fun s => Idx fun i => m (t s i)) y.1 (Qs y.1 y.2))) =
      islandHamiltonian σM GM EM m ng := by
  rw [islandHamiltonian_sum σM]
  set κ : ℂ := ((2 * eCharge / √hbar : ℝ) : ℂ) with hκ
  set κ2 : ℂ := (((2 * eCharge) ^ 2 / 2 / hbar : ℝ) : ℂ) with hκ2
  have hκκ : (1 / 2 : ℂ) * (κ * κ) = κ2 := by
    have h1 : ((2 * eCharge / √hbar : ℝ)) * (2 * eCharge / √hbar) = (2 * eCharge) ^ 2 / hbar := by
      rw [div_mul_div_comm, Real.mul_self_sqrt hbar_pos.le, pow_two]
    rw [hκ, hκ2, ← Complex.ofReal_mul, h1]
    push_cast
    ring
  let P : (Σ s, Fin (q s)) → Op m := fun z => pairs m ng (σM (e z))
  have hloc : ∀ s, joinOp hb m (onSub (ι := fun s => Idx fun i => m (t s i)) s
      (islandHamiltonian (σ s) (G s) (E s) (fun i => m (t s i)) (fun i => ng (t s i)))) =
      κ2 • ∑ i, ∑ j, (G s i j : ℂ) • (P ⟨s, i⟩ * P ⟨s, j⟩) - ∑ i, (E s i : ℂ) • chargeCos m (σM (e ⟨s, i⟩)) 0 := by
    intro s
    rw [islandHamiltonian_sum, sub_eq_add_neg, ← neg_one_smul ℂ (∑ i, _), onSub_add, onSub_smul, onSub_smul, joinOp_add, joinOp_smul, joinOp_smul,
      neg_one_smul, ← sub_eq_add_neg]
    simp only [onSub_sum, joinOp_sum, onSub_smul, joinOp_smul, onSub_mul, joinOp_mul, joinOp_pairs, joinOp_cos, ht]
    rfl
  have hint : joinOp hb m (∑ x, ∑ y, ((A x y : ℝ) : ℂ) • (onSub (ι := fun s => Idx fun i => m (t s i)) x.1 (Qs x.1 x.2) *
        onSub (ι := fun s => Idx fun i => m (t s i)) y.1 (Qs y.1 y.2))) =
      (κ * κ) • ∑ z, ∑ z', ((GM (e z) (e z') - blockDiagonal' G z z' : ℝ) : ℂ) • (P z * P z') := by
    simp only [joinOp_sum, joinOp_smul, joinOp_mul, hQ, onSub_smul, joinOp_pairs]
    rw [← (Equiv.sigmaCongrRight σ).sum_comp, Finset.smul_sum]
    refine Finset.sum_congr rfl fun z _ => ?_
    rw [← (Equiv.sigmaCongrRight σ).sum_comp, Finset.smul_sum]
    refine Finset.sum_congr rfl fun z' _ => ?_
    have h1 : (Equiv.sigmaCongrRight σ) z = ⟨z.1, σ z.1 z.2⟩ := rfl
    have h2 : (Equiv.sigmaCongrRight σ) z' = ⟨z'.1, σ z'.1 z'.2⟩ := rfl
    rw [h1, h2, hA]
    simp only [ht, smul_mul_assoc, mul_smul_comm, smul_smul]
    congr 1
    ring
  rw [joinOp_add, joinOp_sum, joinOp_smul, hint]
  simp only [hloc]
  rw [Finset.sum_sub_distrib, smul_smul, hκκ, ← Finset.smul_sum]
  have hE' : ∑ i, (EM i : ℂ) • chargeCos m (σM i) 0 = ∑ s, ∑ i, (E s i : ℂ) • chargeCos m (σM (e ⟨s, i⟩)) 0 := by
    rw [← e.sum_comp, Fintype.sum_sigma]
    simp only [hE]
  have hG : ∑ i, ∑ j, (GM i j : ℂ) • (pairs m ng (σM i) * pairs m ng (σM j)) = ∑ z, ∑ z', (GM (e z) (e z') : ℂ) • (P z * P z') := by
    rw [← e.sum_comp]
    refine Finset.sum_congr rfl fun z _ => ?_
    rw [← e.sum_comp]
  have hB : ∑ z, ∑ z', ((blockDiagonal' G z z' : ℝ) : ℂ) • (P z * P z') = ∑ s, ∑ i, ∑ j, (G s i j : ℂ) • (P ⟨s, i⟩ * P ⟨s, j⟩) := by
    rw [Fintype.sum_sigma]
    refine Finset.sum_congr rfl fun s _ => Finset.sum_congr rfl fun i _ => ?_
    rw [Fintype.sum_sigma, Finset.sum_eq_single s]
    · simp only [blockDiagonal'_apply_eq]
    · intro s' _ hs
      refine Finset.sum_eq_zero fun j _ => ?_
      rw [blockDiagonal'_apply_ne _ _ _ hs.symm]
      simp
    · intro h; exact absurd (Finset.mem_univ _) h
  rw [hE', hG]
  have hS : ∑ z, ∑ z', ((GM (e z) (e z') - blockDiagonal' G z z' : ℝ) : ℂ) • (P z * P z') =
      ∑ z, ∑ z', (GM (e z) (e z') : ℂ) • (P z * P z') - ∑ z, ∑ z', ((blockDiagonal' G z z' : ℝ) : ℂ) • (P z * P z') := by
    simp only [← Finset.sum_sub_distrib, Complex.ofReal_sub, sub_smul]
  rw [hS, hB, smul_sub]
  abel

end Space

end SQ
