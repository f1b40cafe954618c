import Verif.Lemmas.Parts
import Verif.Lemmas.MergeIslands
import Verif.Lemmas.LcState
import Verif.Props.Ops
import Mathlib.LinearAlgebra.Matrix.Kronecker

/-!
# Modes that do not interact with the others (C136)
-/

namespace SQ
open Matrix Spec

section lift
variable {k k' : ℕ}

/-- an operator of some of the modes, as an operator of all -/
def liftOp (τ : Fin k' → Fin k) {m : Fin k → ℕ} (A : Op (fun i => m (τ i))) : Op m :=
  open Classical in
  Matrix.of fun x y => if ∀ j, j ∉ Set.range τ → x j = y j then A (fun i => x (τ i)) (fun i => y (τ i)) else 0

variable {τ : Fin k' → Fin k} {m : Fin k → ℕ}

theorem liftOp_add (A B : Op (fun i => m (τ i))) : liftOp τ (A + B) = liftOp τ A + liftOp τ B := by
  ext x y
  simp only [liftOp, Matrix.of_apply, Matrix.add_apply]
  split <;> simp

theorem liftOp_smul (c : ℂ) (A : Op (fun i => m (τ i))) : liftOp τ (c • A) = c • liftOp τ A := by
  ext x y
  simp only [liftOp, Matrix.of_apply, Matrix.smul_apply]
  split <;> simp

theorem liftOp_zero : liftOp τ (0 : Op (fun i => m (τ i))) = 0 := by
  ext x y
  simp [liftOp, Matrix.of_apply]

theorem liftOp_sum {β : Type*} (t : Finset β) (A : β → Op (fun i => m (τ i))) :
    liftOp τ (∑ b ∈ t, A b) = ∑ b ∈ t, liftOp τ (A b) := by
  classical
  induction t using Finset.induction_on with
  | empty => simp [liftOp_zero]
  | insert a t ha ih => rw [Finset.sum_insert ha, Finset.sum_insert ha, liftOp_add, ih]

theorem liftOp_conjTranspose (A : Op (fun i => m (τ i))) : (liftOp τ A)ᴴ = liftOp τ Aᴴ := by
  ext x y
  simp only [liftOp, Matrix.of_apply, Matrix.conjTranspose_apply]
  by_cases h : ∀ j, j ∉ Set.range τ → x j = y j
  · rw [if_pos h, if_pos fun j hj => (h j hj).symm]
  · rw [if_neg h, if_neg fun h' => h fun j hj => (h' j hj).symm, star_zero]

/-- a product operator that acts as the identity on the other modes -/
theorem liftOp_tens (hτ : Function.Injective τ) (f : Factors m) (h : ∀ j, j ∉ Set.range τ → f j = 1) :
    tens f = liftOp τ (tens fun i => f (τ i)) := by
  classical
  ext x y
  simp only [liftOp, tens, Matrix.of_apply]
  rw [← Finset.prod_mul_prod_compl (Finset.univ.image τ), Finset.prod_image (fun a _ b _ e => hτ e)]
  have hmem : ∀ j, j ∈ (Finset.univ.image τ)ᶜ ↔ j ∉ Set.range τ := by
    intro j
    simp
  by_cases hx : ∀ j, j ∉ Set.range τ → x j = y j
  · rw [if_pos hx, Finset.prod_eq_one (s := (Finset.univ.image τ)ᶜ), mul_one]
    intro j hj
    rw [h j ((hmem j).1 hj), hx j ((hmem j).1 hj), Matrix.one_apply_eq]
  · rw [if_neg hx]
    push Not at hx
    obtain ⟨j, hj, hne⟩ := hx
    rw [Finset.prod_eq_zero ((hmem j).2 hj), mul_zero]
    rw [h j hj, Matrix.one_apply_ne hne]

theorem liftOp_single (hτ : Function.Injective τ) (i : Fin k') (A : Matrix (Fin (m (τ i))) (Fin (m (τ i))) ℂ) :
    single m (τ i) A = liftOp τ (single (fun i => m (τ i)) i A) := by
  unfold single
  rw [liftOp_tens hτ]
  · congr 2
    funext j
    by_cases h : j = i
    · subst h
      simp
    · rw [Function.update_of_ne h, Function.update_of_ne (fun e => h (hτ e))]
  · intro j hj
    rw [Function.update_of_ne]
    rintro rfl
    exact hj ⟨i, rfl⟩

/-- states of all modes are states of the chosen ones with states of the others -/
noncomputable def ladderIdx (hτ : Function.Injective τ) :
    Idx m ≃ Idx (fun i => m (τ i)) × (∀ j : {j // j ∉ Set.range τ}, Fin (m j)) :=
  Equiv.ofBijective (fun x => (fun i => x (τ i), fun j => x j)) (by
    classical
    constructor
    · intro x y h
      obtain ⟨h1, h2⟩ := Prod.mk.inj h
      funext j
      by_cases hj : j ∈ Set.range τ
      · obtain ⟨i, rfl⟩ := hj
        exact congrFun h1 i
      · exact congrFun h2 ⟨j, hj⟩
    · rintro ⟨a, b⟩
      let x : Idx m := fun j => if h : ∃ i, τ i = j then h.choose_spec ▸ a h.choose else b ⟨j, h⟩
      refine ⟨x, Prod.ext ?_ ?_⟩
      · funext i
        have h : ∃ i', τ i' = τ i := ⟨i, rfl⟩
        show x (τ i) = a i
        have hx : x (τ i) = h.choose_spec ▸ a h.choose := dif_pos h
        rw [hx]
        have key : ∀ (i0 : Fin k') (h0 : τ i0 = τ i), (h0 ▸ a i0 : Fin (m (τ i))) = a i := by
          intro i0 h0
          have := hτ h0
          subst this
          rfl
        exact key _ _
      · funext j
        have hj : ¬ ∃ i, τ i = (j : Fin k) := j.2
        exact dif_neg hj)

theorem liftOp_kron (hτ : Function.Injective τ) (A : Op (fun i => m (τ i))) :
    liftOp τ A = (kroneckerMap (· * ·) A
      (1 : Matrix (∀ j : {j // j ∉ Set.range τ}, Fin (m j)) _ ℂ)).submatrix (ladderIdx hτ) (ladderIdx hτ) := by
  classical
  ext x y
  simp only [liftOp, Matrix.of_apply, Matrix.submatrix_apply, kroneckerMap_apply]
  show _ = A (fun i => x (τ i)) (fun i => y (τ i)) *
    (1 : Matrix (∀ j : {j // j ∉ Set.range τ}, Fin (m j)) (∀ j : {j // j ∉ Set.range τ}, Fin (m j)) ℂ) (fun j => x j) (fun j => y j)
  by_cases h : ∀ j, j ∉ Set.range τ → x j = y j
  · rw [if_pos h, show (fun j : {j // j ∉ Set.range τ} => x j) = fun j : {j // j ∉ Set.range τ} => y j from funext fun j => h j j.2,
      Matrix.one_apply_eq, mul_one]
  · rw [if_neg h, Matrix.one_apply_ne, mul_zero]
    intro e
    exact h fun j hj => congrFun e ⟨j, hj⟩

/-- the levels of a Hamiltonian whose other modes are independent ladders -/
theorem liftOp_levels (hτ : Function.Injective τ) {H : Op (fun i => m (τ i))} {vs : List (Idx (fun i => m (τ i)) → ℂ)}
    {ws : List ℝ} (hl : Levels H vs ws) (E : (∀ j : {j // j ∉ Set.range τ}, Fin (m j)) → ℝ) {V : List (Idx m → ℂ)} {W : List ℝ}
    (hL : Levels (liftOp τ H + diagonal fun x => ((E (fun j => x j) : ℝ) : ℂ)) V W) :
    (W : Multiset ℝ) = (Finset.univ : Finset (Fin ws.length × (∀ j : {j // j ∉ Set.range τ}, Fin (m j)))).val.map
      fun p => ws.get p.1 + E p.2 := by
  classical
  let R := ∀ j : {j // j ∉ Set.range τ}, Fin (m j)
  let U : Matrix (Idx (fun i => m (τ i)) × R) (Fin ws.length × R) ℂ := kroneckerMap (· * ·) (eigMat vs _) (1 : Matrix R R ℂ)
  have hUt : Uᴴ = kroneckerMap (· * ·) (eigMat vs ws.length)ᴴ (1 : Matrix R R ℂ) := by
    have := conjTranspose_kronecker (eigMat vs ws.length) (1 : Matrix R R ℂ)
    rw [Matrix.conjTranspose_one] at this
    exact this
  have h1 : Uᴴ * U = 1 := by
    rw [hUt]
    show kroneckerMap (· * ·) _ _ * kroneckerMap (· * ·) _ _ = _
    rw [← mul_kronecker_mul, eigMat_iso hl rfl, Matrix.one_mul, one_kronecker_one]
  have h2 : U * Uᴴ = 1 := by
    rw [hUt]
    show kroneckerMap (· * ·) _ _ * kroneckerMap (· * ·) _ _ = _
    rw [← mul_kronecker_mul, eigMat_iso' hl rfl, Matrix.one_mul, one_kronecker_one]
  obtain ⟨V1, hL1⟩ := levels_reindex (ladderIdx hτ).symm hL
  have e1 : (liftOp τ H + diagonal fun x : Idx m => ((E (fun j => x j) : ℝ) : ℂ)).submatrix (ladderIdx hτ).symm (ladderIdx hτ).symm =
      kroneckerMap (· * ·) H (1 : Matrix R R ℂ) +
        kroneckerMap (· * ·) (1 : Op (fun i => m (τ i))) (diagonal fun r : R => ((E r : ℝ) : ℂ)) := by
    rw [liftOp_kron hτ]
    ext ⟨p1, p2⟩ ⟨q1, q2⟩
    rw [Matrix.submatrix_apply, Matrix.add_apply, Matrix.add_apply]
    congr 1
    · simp
    · simp only [kroneckerMap_apply, diagonal_apply, Matrix.one_apply,
        EmbeddingLike.apply_eq_iff_eq, Prod.mk.injEq]
      by_cases ha : p1 = q1
      · by_cases hb : p2 = q2
        · have : (fun j : {j // j ∉ Set.range τ} => ((ladderIdx hτ).symm (p1, p2) : Idx m) j) = p2 :=
            congrArg Prod.snd ((ladderIdx hτ).apply_symm_apply (p1, p2))
          simp [ha, hb]
          rw [ha, hb] at this
          rw [this]
        · simp [ha, hb]
      · simp [ha]
  rw [e1] at hL1
  have hc := levels_conj h1 h2 hL1
  have hd : Uᴴ * (kroneckerMap (· * ·) H (1 : Matrix R R ℂ) +
        kroneckerMap (· * ·) (1 : Op (fun i => m (τ i))) (diagonal fun r : R => ((E r : ℝ) : ℂ))) * U =
      diagonal fun p : Fin ws.length × R => ((ws.get p.1 + E p.2 : ℝ) : ℂ) := by
    rw [Matrix.mul_add, Matrix.add_mul, hUt]
    show kroneckerMap (· * ·) _ _ * kroneckerMap (· * ·) _ _ * kroneckerMap (· * ·) _ _ +
      kroneckerMap (· * ·) _ _ * kroneckerMap (· * ·) _ _ * kroneckerMap (· * ·) _ _ = _
    rw [← mul_kronecker_mul, ← mul_kronecker_mul, ← mul_kronecker_mul, ← mul_kronecker_mul, eigMat_diag hl rfl]
    simp only [Matrix.mul_one, Matrix.one_mul]
    rw [eigMat_iso hl rfl]
    ext ⟨p1, p2⟩ ⟨q1, q2⟩
    simp only [Matrix.add_apply, kroneckerMap_apply, diagonal_apply, Matrix.one_apply, Prod.mk.injEq]
    by_cases ha : p1 = q1
    · by_cases hb : p2 = q2
      · simp [ha, hb]
      · simp [hb]
    · simp [ha]
  rw [hd] at hc
  obtain ⟨v2, h3⟩ := levels_diagonal fun p : Fin ws.length × R => ws.get p.1 + E p.2
  rw [levels_unique hc h3, Multiset.sort_eq]

end lift

variable {nJ k k' : ℕ}

/-- the data of some of the modes -/
def ModeData.pull (D : ModeData nJ k) (τ : Fin k' → Fin k) : ModeData nJ k' :=
  ⟨Matrix.of fun i j => D.cInv (τ i) (τ j), Matrix.of fun i j => D.l (τ i) (τ j), Matrix.of fun i j => D.w i (τ j),
    fun i => D.omega (τ i)⟩

/-- the other modes are harmonic, touch no junction and are not coupled -/
structure Ladders (D : ModeData nJ k) (τ : Fin k' → Fin k) : Prop where
  inj : Function.Injective τ
  symm : D.cInv.IsSymm
  omega : ∀ j, j ∉ Set.range τ → D.omega j ≠ 0
  w : ∀ j, j ∉ Set.range τ → ∀ i, D.w i j = 0
  cInv : ∀ j, j ∉ Set.range τ → ∀ i, i ≠ j → D.cInv i j = 0 ∧ D.cInv j i = 0

variable {D : ModeData nJ k} {τ : Fin k' → Fin k}

theorem ladder_exp (h : Ladders D τ) (m : Fin k → ℕ) (ng : Fin k → ℝ) (i : Fin nJ) :
    (buildMem D m ng).exp i = liftOp τ ((buildMem (D.pull τ) (fun i => m (τ i)) (fun i => ng (τ i))).exp i) := by
  show tens (expFactor D m i) = liftOp τ (tens (expFactor (D.pull τ) (fun i => m (τ i)) i))
  rw [liftOp_tens h.inj]
  · rfl
  · intro j hj
    unfold expFactor
    rw [if_neg (h.omega j hj)]
    split
    · rfl
    · have : D.alpha i j = 0 := by
        unfold ModeData.alpha
        rw [h.w j hj i]
        simp
      rw [this, qDisplace]
      simp [NormedSpace.exp_zero]

theorem ladder_lc (h : Ladders D τ) (m : Fin k → ℕ) (ng : Fin k → ℝ) :
    lcHamil D (buildMem D m ng) =
      liftOp τ (lcHamil (D.pull τ) (buildMem (D.pull τ) (fun i => m (τ i)) (fun i => ng (τ i)))) +
      diagonal fun x => ((∑ j : {j // j ∉ Set.range τ}, D.omega j * (x j : ℕ) : ℝ) : ℂ) := by
  classical
  have hs' : (D.pull τ).cInv.IsSymm := by
    ext i j
    exact h.symm.apply (τ i) (τ j)
  have e1 := C39_lc_hamiltonian D h.symm m ng
  have e2 := C39_lc_hamiltonian (D.pull τ) hs' (fun i => m (τ i)) (fun i => ng (τ i))
  simp only at e1 e2
  rw [e1, e2]
  -- sums over all modes
  have hsplit : ∀ {V : Type} [AddCommMonoid V] (g : Fin k → V),
      ∑ i, g i = (∑ i, g (τ i)) + ∑ j : {j // j ∉ Set.range τ}, g j := by
    intro V _ g
    rw [← Finset.sum_add_sum_compl (Finset.univ.image τ), Finset.sum_image (fun a _ b _ e => h.inj e)]
    congr 1
    refine (Finset.sum_subtype (p := fun j => j ∉ Set.range τ) _ ?_ _)
    intro j
    simp
  have hQ : ∀ i, (buildMem D m ng).Q (τ i) =
      liftOp τ ((buildMem (D.pull τ) (fun i => m (τ i)) (fun i => ng (τ i))).Q i) := by
    intro i
    rw [buildMem_Q, buildMem_Q, liftOp_single h.inj]
    rfl
  have hQQ : ∀ i j, (buildMem D m ng).Q (τ i) * (buildMem D m ng).Q (τ j) =
      liftOp τ ((buildMem (D.pull τ) (fun i => m (τ i)) (fun i => ng (τ i))).Q i *
        (buildMem (D.pull τ) (fun i => m (τ i)) (fun i => ng (τ i))).Q j) := by
    intro i j
    simp only [buildMem_Q]
    unfold single
    rw [tens_mul, tens_mul, liftOp_tens h.inj]
    · congr 2
      funext a
      have hu : ∀ (b : Fin k') (A : Matrix (Fin (m (τ b))) (Fin (m (τ b))) ℂ),
          (Function.update (fun _ => 1) (τ b) A : Factors m) (τ a) =
          (Function.update (fun _ => 1) b A : Factors (fun i => m (τ i))) a := by
        intro b A
        by_cases hb : a = b
        · subst hb
          simp
        · rw [Function.update_of_ne hb, Function.update_of_ne (fun e => hb (h.inj e))]
      rw [hu, hu]
      rfl
    · intro a ha
      rw [Function.update_of_ne, Function.update_of_ne, Matrix.one_mul]
      · rintro rfl; exact ha ⟨j, rfl⟩
      · rintro rfl; exact ha ⟨i, rfl⟩
  have hN : ∀ i, (buildMem D m ng).N (τ i) =
      liftOp τ ((buildMem (D.pull τ) (fun i => m (τ i)) (fun i => ng (τ i))).N i) := by
    intro i
    rw [buildMem_N, buildMem_N, liftOp_single h.inj]
    rfl
  rw [hsplit (fun i => if D.omega i ≠ 0 then ((D.omega i : ℝ) : ℂ) • (buildMem D m ng).N i else 0)]
  have hdiag : (∑ j : {j // j ∉ Set.range τ}, if D.omega j ≠ 0 then ((D.omega j : ℝ) : ℂ) • (buildMem D m ng).N j else 0) =
      diagonal fun x => ((∑ j : {j // j ∉ Set.range τ}, D.omega j * (x j : ℕ) : ℝ) : ℂ) := by
    ext x y
    rw [Matrix.sum_apply]
    have : ∀ j : {j // j ∉ Set.range τ}, (if D.omega j ≠ 0 then ((D.omega j : ℝ) : ℂ) • (buildMem D m ng).N j else 0) x y =
        if x = y then ((D.omega j * (x j : ℕ) : ℝ) : ℂ) else 0 := by
      intro j
      rw [if_pos (h.omega j j.2), buildMem_N]
      have : numOpIso D m j = qNum (m j) := by
        unfold numOpIso
        rw [if_neg (h.omega j j.2)]
      rw [this, qNum, single_diagonal]
      simp only [Matrix.smul_apply, diagonal_apply, smul_eq_mul]
      split <;> simp
    simp only [this, diagonal_apply]
    by_cases hxy : x = y
    · simp [hxy]
    · simp [hxy]
  have hdbl : (∑ i, ∑ j, (if i = j ∧ D.omega i ≠ 0 then (0 : Op m)
        else ((D.cInv i j : ℝ) : ℂ) • ((buildMem D m ng).Q i * (buildMem D m ng).Q j))) =
      ∑ i, ∑ j, (if τ i = τ j ∧ D.omega (τ i) ≠ 0 then (0 : Op m)
        else ((D.cInv (τ i) (τ j) : ℝ) : ℂ) • ((buildMem D m ng).Q (τ i) * (buildMem D m ng).Q (τ j))) := by
    rw [hsplit (V := Op m)]
    have hz : (∑ i : {j // j ∉ Set.range τ}, ∑ j, (if (i : Fin k) = j ∧ D.omega i ≠ 0 then (0 : Op m)
        else ((D.cInv i j : ℝ) : ℂ) • ((buildMem D m ng).Q i * (buildMem D m ng).Q j))) = 0 := by
      refine Finset.sum_eq_zero fun i _ => Finset.sum_eq_zero fun j _ => ?_
      by_cases hij : (i : Fin k) = j
      · rw [if_pos ⟨hij, h.omega i i.2⟩]
      · rw [if_neg (fun e => hij e.1), (h.cInv i i.2 j (Ne.symm hij)).2]
        simp
    rw [hz, add_zero]
    refine Finset.sum_congr rfl fun i _ => ?_
    rw [hsplit (V := Op m)]
    have hz : (∑ j : {j // j ∉ Set.range τ}, (if τ i = (j : Fin k) ∧ D.omega (τ i) ≠ 0 then (0 : Op m)
        else ((D.cInv (τ i) j : ℝ) : ℂ) • ((buildMem D m ng).Q (τ i) * (buildMem D m ng).Q j))) = 0 := by
      refine Finset.sum_eq_zero fun j _ => ?_
      have hij : τ i ≠ (j : Fin k) := fun e => j.2 ⟨i, e⟩
      rw [if_neg (fun e => hij e.1), (h.cInv j j.2 (τ i) hij).1]
      simp
    rw [hz, add_zero]
  rw [hdbl, hdiag, liftOp_add, liftOp_smul, liftOp_sum, liftOp_sum, add_right_comm]
  refine congrArg₂ (· + ·) (congrArg₂ (· + ·) ?_ (congrArg _ ?_)) rfl
  · refine Finset.sum_congr rfl fun i _ => ?_
    rw [hN]
    show _ = liftOp τ (if D.omega (τ i) ≠ 0 then _ else _)
    by_cases ho : D.omega (τ i) ≠ 0
    · rw [if_pos ho, if_pos ho, liftOp_smul]
      rfl
    · rw [if_neg ho, if_neg ho, liftOp_zero]
  · refine Finset.sum_congr rfl fun i _ => ?_
    rw [liftOp_sum]
    refine Finset.sum_congr rfl fun j _ => ?_
    rw [hQQ]
    show _ = liftOp τ (if i = j ∧ D.omega (τ i) ≠ 0 then _ else _)
    by_cases ho : i = j ∧ D.omega (τ i) ≠ 0
    · rw [if_pos ho, if_pos ⟨congrArg τ ho.1, ho.2⟩, liftOp_zero]
    · rw [if_neg ho, if_neg (fun e => ho ⟨h.inj e.1, e.2⟩), liftOp_smul]
      rfl

theorem ladder_juns (h : Ladders D τ) (m : Fin k → ℕ) (ng : Fin k → ℝ) {b : ℕ} (val : ElemId → ℝ) (phi : Fin b → ℝ)
    (juns : List (JunKey b nJ)) (acc : Op (fun i => m (τ i))) :
    junTerms (buildMem D m ng) val phi juns (liftOp τ acc) =
      liftOp τ (junTerms (buildMem (D.pull τ) (fun i => m (τ i)) (fun i => ng (τ i))) val phi juns acc) := by
  unfold junTerms
  induction juns generalizing acc with
  | nil => rfl
  | cons key ks ih =>
    rw [List.foldl_cons, List.foldl_cons, ← ih, liftOp_add, liftOp_smul]
    congr 3
    unfold cosOp
    rw [ladder_exp h, liftOp_smul, liftOp_add, ← liftOp_conjTranspose, liftOp_smul]

end SQ
