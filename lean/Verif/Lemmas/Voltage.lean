import Verif.Lemmas.Reground
import Verif.Lemmas.MergeIslands
import Verif.Lemmas.Coupling
import Verif.Spec.Voltage
import Verif.Props.Symbolic

/-!
# Voltage operators of circuits of junctions and capacitors
-/

namespace SQ
open Matrix Spec

theorem sum_node {n : ℕ} (x : Fin n → ℝ) (k : ℕ) (hk : k ≠ 0) (hn : k ≤ n) :
    ∑ a : Fin n, ((if (a : ℕ) + 1 = k then 1 else 0 : ℤ) : ℝ) * x a = pot x k := by
  obtain ⟨j, rfl⟩ := Nat.exists_eq_succ_of_ne_zero hk
  have hj : j < n := hn
  rw [Finset.sum_eq_single (⟨j, hj⟩ : Fin n)]
  · simp [pot, hj]
  · intro b _ hb
    rw [if_neg, Int.cast_zero, zero_mul]
    intro h
    exact hb (Fin.ext (by simpa using h))
  · simp

/-- sign with which `coupling_op` counts the voltage across an edge -/
def voltSign (e : Edge) : ℝ := if e.1 = 0 ∨ e.2 = 0 then 1 else -1

theorem voltSign_sq (e : Edge) : voltSign e = 1 ∨ voltSign e = -1 := by
  unfold voltSign
  split
  · exact Or.inl rfl
  · exact Or.inr rfl

theorem couple_inc {n : ℕ} (x : Fin n → ℝ) {e : Edge} (hv : ValidEdge n e) :
    coupleAt "capacitive" x e = voltSign e * ∑ a : Fin n, (incidence e (a + 1) : ℝ) * x a := by
  obtain ⟨hne, h1, h2⟩ := hv
  unfold coupleAt voltSign incidence
  by_cases e1 : e.1 = 0
  · have e2 : e.2 ≠ 0 := fun h => hne (by rw [e1, h])
    simp only [e1, true_or, if_true, one_mul, Nat.zero_max]
    exact (sum_node x _ e2 h2).symm
  · by_cases e2 : e.2 = 0
    · simp only [e1, e2, or_true, if_true, if_false, one_mul, Nat.max_zero]
      exact (sum_node x _ e1 h1).symm
    · simp only [e1, e2, or_self, if_false, if_true]
      rw [← sum_node x _ e1 h1, ← sum_node x _ e2 h2, ← Finset.sum_sub_distrib, Finset.mul_sum]
      refine Finset.sum_congr rfl fun a _ => ?_
      by_cases ha : (a : ℕ) + 1 = e.1
      · have hb : (a : ℕ) + 1 ≠ e.2 := fun h => hne (ha.symm.trans h)
        rw [if_pos ha, if_neg hb, if_pos ha]
        push_cast
        ring
      · rw [if_neg ha, if_neg ha]
        by_cases hb : (a : ℕ) + 1 = e.2
        · rw [if_pos hb, if_pos hb]; push_cast; ring
        · rw [if_neg hb, if_neg hb]; push_cast; ring

theorem charge_pairs {nJ k : ℕ} (D : ModeData nJ k) (m : Fin k → ℕ) (ng : Fin k → ℝ) {i : Fin k} (h : D.omega i = 0) :
    (buildMem D m ng).Q i = ((2 * eCharge / √hbar : ℝ) : ℂ) • pairs m ng i := by
  rw [buildMem_Q]
  unfold chargeOpIso pairs
  rw [if_pos h]
  change onMode m i _ = _
  have h1 : ∀ A B : Matrix (Fin (m i)) (Fin (m i)) ℂ, onMode m i (A - B) = onMode m i A - onMode m i B := by
    intro A B
    rw [sub_eq_add_neg, onMode_addM, sub_eq_add_neg]
    congr 1
    ext x y
    rw [Matrix.neg_apply]
    by_cases hxy : ∀ t, t ≠ i → x t = y t
    · rw [onMode_pos _ hxy, onMode_pos _ hxy, Matrix.neg_apply]
    · rw [onMode_neg _ hxy, onMode_neg _ hxy, neg_zero]
  have h2 : ∀ (z : ℂ) (A : Matrix (Fin (m i)) (Fin (m i)) ℂ), onMode m i (z • A) = z • onMode m i A := by
    intro z A
    ext x y
    rw [Matrix.smul_apply]
    by_cases hxy : ∀ t, t ≠ i → x t = y t
    · rw [onMode_pos _ hxy, onMode_pos _ hxy, Matrix.smul_apply]
    · rw [onMode_neg _ hxy, onMode_neg _ hxy, smul_zero]
  have h3 : onMode m i (1 : Matrix (Fin (m i)) (Fin (m i)) ℂ) = 1 := by
    ext x y
    by_cases hxy : ∀ t, t ≠ i → x t = y t
    · rw [onMode_pos _ hxy, Matrix.one_apply, Matrix.one_apply]
      by_cases h : x = y
      · rw [if_pos h, if_pos (by rw [h])]
      · rw [if_neg h, if_neg]
        intro h4
        exact h (funext fun t => if ht : t = i then by rw [ht]; exact h4 else hxy t ht)
    · rw [onMode_neg _ hxy, Matrix.one_apply, if_neg]
      rintro rfl
      exact hxy fun _ _ => rfl
  rw [h2, h1, h2, h3]

/-- the coupling operator of a built circuit of junctions and capacitors is the voltage operator up to the sign -/
theorem isl_coupling {O : Objs} {els : Elements} {n : ℕ} {b : Build} (hn : b.n = n) (hk : b.M.keep.length = b.n)
    (σ : Fin (junctionEdges O els).length ≃ Fin b.M.keep.length)
    (hC : ∀ p q, b.C p q = capacitances O els n (p.cast hn) (q.cast hn))
    (hR : ∀ i p, b.M.R p ((σ i).cast hk) = incidence ((junctionEdges O els).get i) (p + 1))
    (hom : ∀ j, b.M.omega j = 0) (m : Fin b.M.keep.length → ℕ) (ng : Fin b.M.keep.length → ℝ) {e : Edge}
    (hv : ValidEdge n e) :
    couplingOp "capacitive" b.C b.M (buildMem b.M.data m ng).Q (buildMem b.M.data m ng).phi e =
      .ok ((voltSign e : ℂ) • voltage O els n σ m ng e) := by
  subst hn
  rw [couplingOp_ok (Or.inl rfl) b.C b.M hk.le _ _ hv]
  congr 1
  have hCm : b.C = capacitances O els b.n := by
    ext p q
    exact hC p q
  unfold voltage
  rw [Finset.smul_sum, Finset.smul_sum, ← σ.sum_comp]
  refine Finset.sum_congr rfl fun i _ => ?_
  rw [if_pos rfl, charge_pairs _ _ _ (show b.M.data.omega (σ i) = 0 from hom (σ i)), smul_smul, smul_smul, smul_smul]
  congr 1
  rw [couple_inc _ hv]
  have hx : ∀ a, modeColumn "capacitive" b.C b.M ⟨(σ i : ℕ), lt_of_lt_of_le (σ i).isLt hk.le⟩ a =
      ∑ c : Fin b.n, (capacitances O els b.n)⁻¹ a c * incidence ((junctionEdges O els).get i) (c + 1) := by
    intro a
    unfold modeColumn
    rw [if_pos rfl, mul_apply, hCm]
    exact Finset.sum_congr rfl fun c _ => by rw [← hR i c]; rfl
  have hs : ∑ a : Fin b.n, (incidence e (a + 1) : ℝ) *
      modeColumn "capacitive" b.C b.M ⟨(σ i : ℕ), lt_of_lt_of_le (σ i).isLt hk.le⟩ a =
      edgeInvCap O els b.n e ((junctionEdges O els).get i) := by
    unfold edgeInvCap
    refine Finset.sum_congr rfl fun a _ => ?_
    rw [hx, Finset.mul_sum]
    exact Finset.sum_congr rfl fun c _ => (mul_assoc _ _ _).symm
  rw [hs]
  push_cast
  ring

/-- voltages between corresponding edges are the same up to signs -/
theorem reground_edgeInvCap {n : ℕ} {els els' : Elements} {σ : Equiv.Perm (Fin (n + 1))} (hren : Regrounded σ els els')
    (hv : ValidElements n els) (O : Objs) {e e' f f' : Edge} {s t : ℝ}
    (he : ∀ j : Fin n, ∑ a : Fin n, (incidence e' (a + 1) : ℝ) * groundMat σ a j = s * (incidence e (j + 1) : ℝ))
    (hf : ∀ j : Fin n, ∑ a : Fin n, (incidence f' (a + 1) : ℝ) * groundMat σ a j = t * (incidence f (j + 1) : ℝ)) :
    edgeInvCap O els' n e' f' = s * t * edgeInvCap O els n e f := by
  set G := groundMat σ with hG
  have hGu : groundMat σ.symm * G = 1 := groundMat_inv σ
  have hGd : IsUnit G.det := by
    rw [← Matrix.isUnit_iff_isUnit_det]
    exact IsUnit.of_mul_eq_one_right _ hGu
  have hC := ground_caps hren hv O
  rw [← hG] at hC
  have hCi : (capacitances O els' n)⁻¹ = G * (capacitances O els n)⁻¹ * Gᵀ := by
    rw [← hC, Matrix.mul_inv_rev, Matrix.mul_inv_rev]
    have h2 : (Gᵀ)⁻¹ * Gᵀ = 1 := Matrix.nonsing_inv_mul _ (by rw [det_transpose]; exact hGd)
    rw [Matrix.mul_assoc, Matrix.mul_assoc, Matrix.mul_assoc, h2, Matrix.mul_one, ← Matrix.mul_assoc,
      Matrix.mul_nonsing_inv _ hGd, Matrix.one_mul]
  have hJ : ∀ {e e' : Edge} {s : ℝ}, (∀ j : Fin n, ∑ a : Fin n, (incidence e' (a + 1) : ℝ) * G a j =
      s * (incidence e (j + 1) : ℝ)) → (fun a : Fin n => (incidence e' (a + 1) : ℝ)) ᵥ* G =
        s • fun a : Fin n => (incidence e (a + 1) : ℝ) := fun h => funext fun a => h a
  have hI : ∀ (els : Elements) (e f : Edge), edgeInvCap O els n e f =
      ((fun a : Fin n => (incidence e (a + 1) : ℝ)) ᵥ* (capacitances O els n)⁻¹) ⬝ᵥ
        fun a : Fin n => (incidence f (a + 1) : ℝ) := by
    intro els e f
    unfold edgeInvCap
    rw [Finset.sum_comm]
    simp only [dotProduct, vecMul, Finset.sum_mul]
  rw [hI, hI, hCi, ← vecMul_vecMul, ← vecMul_vecMul, hJ he, ← dotProduct_mulVec, mulVec_transpose, hJ hf, smul_vecMul,
    smul_dotProduct, dotProduct_smul]
  simp only [smul_eq_mul]
  ring

end SQ
