import Verif.Lemmas.Hamil
import Verif.Lemmas.ExampleCircuit
import Verif.Props.Transform

/-!
# C37–C41: operators and Hamiltonian
-/

namespace SQ
open Matrix Complex SQ.Spec

variable {nJ k : ℕ}

/-! ## C37 charge displacement operators -/

/-- state with index `y`, i.e. charge number `y - (N-1)/2` -/
def ket {N : ℕ} (y : Fin N) : Fin N → ℂ := Pi.single y 1

/-- For every truncation: coupling +1 raises the charge number by one (and annihilates the top
state), -1 lowers it, 0 is the identity; D(-w) is the adjoint of D(w); [n, D(w)] = w D(w). -/
theorem C37_displacement (N : ℕ) :
    (∀ y : Fin N, qCharge N *ᵥ ket y = ((y : ℂ) - ((N : ℂ) - 1) / 2) • ket y) ∧
    (∀ y z : Fin N, (z : ℕ) = y + 1 → dOp N 1 *ᵥ ket y = ket z ∧ dOp N (-1) *ᵥ ket z = ket y) ∧
    (∀ y : Fin N, (y : ℕ) + 1 = N → dOp N 1 *ᵥ ket y = 0) ∧
    (∀ y : Fin N, (y : ℕ) = 0 → dOp N (-1) *ᵥ ket y = 0) ∧
    dOp N 0 = 1 ∧
    (∀ w : ℝ, dOp N (-w) = (dOp N w)ᴴ) ∧
    (∀ w : ℝ, w = -1 ∨ w = 0 ∨ w = 1 →
      qCharge N * dOp N w - dOp N w * qCharge N = (w : ℂ) • dOp N w) := by
  have hd1 : ∀ x y : Fin N, dOp N 1 x y = if (x : ℕ) = y + 1 then 1 else 0 := by
    intro x y
    unfold dOp
    rw [if_neg one_ne_zero, if_neg (by norm_num)]
    simp only [conjTranspose_apply, of_apply]
    by_cases h : (x : ℕ) = y + 1
    · rw [if_pos (by omega), if_pos h]; simp
    · rw [if_neg (by omega), if_neg h]; simp
  have hdm : ∀ x y : Fin N, dOp N (-1) x y = if (y : ℕ) = x + 1 then 1 else 0 := by
    intro x y
    unfold dOp
    rw [if_neg (by norm_num), if_pos (by norm_num)]
    simp only [of_apply]
    by_cases h : (y : ℕ) = x + 1
    · rw [if_pos (by omega), if_pos h]
    · rw [if_neg (by omega), if_neg h]
  have hcol : ∀ (A : Matrix (Fin N) (Fin N) ℂ) (y x : Fin N), (A *ᵥ ket y) x = A x y := by
    intro A y x
    unfold ket
    rw [mulVec_single_one]; rfl
  refine ⟨?_, ?_, ?_, ?_, ?_, ?_, ?_⟩
  · intro y
    funext x
    rw [hcol]
    unfold qCharge ket
    rw [diagonal_apply, Pi.smul_apply, Pi.single_apply]
    by_cases h : x = y
    · subst h; simp
    · simp [h]
  · intro y z hz
    constructor
    · funext x
      rw [hcol, hd1, ket, Pi.single_apply]
      by_cases h : x = z
      · subst h; simp [hz]
      · rw [if_neg h, if_neg (by intro hh; exact h (Fin.ext (by omega)))]
    · funext x
      rw [hcol, hdm, ket, Pi.single_apply]
      by_cases h : x = y
      · subst h; simp [hz]
      · rw [if_neg h, if_neg (by intro hh; exact h (Fin.ext (by omega)))]
  · intro y hy
    funext x
    rw [hcol, hd1, if_neg (by have := x.isLt; omega)]; rfl
  · intro y hy
    funext x
    rw [hcol, hdm, if_neg (by omega)]; rfl
  · unfold dOp; rw [if_pos rfl]
  · intro w; exact (dOp_conjTranspose N w).symm
  · intro w hw
    ext x y
    unfold qCharge
    rw [Matrix.sub_apply, diagonal_mul, mul_diagonal, Matrix.smul_apply, smul_eq_mul]
    rcases hw with rfl | rfl | rfl
    · rw [hdm]
      split
      · rename_i h; rw [h]; push_cast; ring
      · simp
    · unfold dOp
      rw [if_pos rfl, one_apply]
      split
      · rename_i h; subst h; simp
      · simp
    · rw [hd1]
      split
      · rename_i h; rw [h]; push_cast; ring
      · simp

/-- On the whole circuit: the exponential operator of a junction changes the charge number of every
charge mode by its coupling (which is -1, 0 or 1 by C28). -/
theorem C37_circuit (D : ModeData nJ k) (m : Fin k → ℕ) (ng : Fin k → ℝ) (i : Fin nJ) (j : Fin k)
    (hj : D.omega j = 0) (hw : D.w i j = -1 ∨ D.w i j = 0 ∨ D.w i j = 1) :
    (buildMem D m ng).N j * (buildMem D m ng).exp i - (buildMem D m ng).exp i * (buildMem D m ng).N j =
      ((D.w i j : ℝ) : ℂ) • (buildMem D m ng).exp i := by
  rw [buildMem_N]
  have hN : numOpIso D m j = qCharge (m j) := by unfold numOpIso; rw [if_pos hj]
  have hF : expFactor D m i j = dOp (m j) (D.w i j) := by unfold expFactor; rw [if_pos hj]
  change single m j (numOpIso D m j) * tens (expFactor D m i) -
    tens (expFactor D m i) * single m j (numOpIso D m j) = _ • tens (expFactor D m i)
  have h1 : single m j (numOpIso D m j) * tens (expFactor D m i) =
      tens (Function.update (expFactor D m i) j (qCharge (m j) * dOp (m j) (D.w i j))) := by
    unfold single
    rw [tens_mul, hN]
    congr 1
    funext l
    by_cases h : l = j
    · subst h; simp [hF]
    · simp [Function.update_of_ne h]
  have h2 : tens (expFactor D m i) * single m j (numOpIso D m j) =
      tens (Function.update (expFactor D m i) j (dOp (m j) (D.w i j) * qCharge (m j))) := by
    unfold single
    rw [tens_mul, hN]
    congr 1
    funext l
    by_cases h : l = j
    · subst h; simp [hF]
    · simp [Function.update_of_ne h]
  rw [h1, h2, ← tens_update_sub, (C37_displacement (m j)).2.2.2.2.2.2 _ hw, tens_update_smul, ← hF,
    Function.update_eq_self]

/-- The same for every circuit whose construction returned, without assumption on the couplings. -/
theorem C37_constructed {n : ℕ} (lib : NumLib n) (sv : SvdFn) (argsort : ArgsortFn)
    (argmax : ArgmaxFn nJ) (draws : Draws) (numJ : ℕ)
    (C L : Matrix (Fin n) (Fin n) ℝ) (W : Matrix (Fin nJ) (Fin n) ℝ) (fuel : ℕ) (t : Trans nJ n)
    (h : transformHamil lib sv argsort argmax draws numJ C L W fuel (initTrans C L W) =
      some (.ok t)) (torch : Bool)
    (m : Fin (finishModes torch t).keep.length → ℕ) (ng : Fin (finishModes torch t).keep.length → ℝ)
    (i : Fin nJ) (j : Fin (finishModes torch t).keep.length)
    (hj : (finishModes torch t).omega j = 0) :
    let mem := buildMem (finishModes torch t).data m ng
    mem.N j * mem.exp i - mem.exp i * mem.N j =
      (((finishModes torch t).w i j : ℝ) : ℂ) • mem.exp i :=
  C37_circuit (finishModes torch t).data m ng i j hj
    ((C28_charge_couplings lib sv argsort argmax draws numJ C L W fuel t h).2 torch j i hj)

/-- in a three-state charge mode, D(1) maps charge -1 to charge 0 and 0 to 1 -/
example : dOp 3 1 *ᵥ ket (0 : Fin 3) = ket 1 ∧ dOp 3 1 *ᵥ ket (1 : Fin 3) = ket 2 :=
  ⟨((C37_displacement 3).2.1 0 1 rfl).1, ((C37_displacement 3).2.1 1 2 rfl).1⟩

/-- the LC/junction circuit: the junction raises the charge of its second mode by one -/
example (m : Fin 2 → ℕ) (ng : Fin 2 → ℝ) :
    let D : ModeData 1 2 := ⟨lcFinal.cInv, lcFinal.l, lcFinal.w, lcFinal.omega⟩
    (buildMem D m ng).N 1 * (buildMem D m ng).exp 0 - (buildMem D m ng).exp 0 * (buildMem D m ng).N 1 =
      (buildMem D m ng).exp 0 := by
  intro D
  have hw : D.w 0 1 = 1 := by simp [D, lcFinal, lcW]
  have := C37_circuit D m ng 0 1 (by simp [D, lcFinal]) (by rw [hw]; norm_num)
  rwa [hw, ofReal_one, one_smul] at this

/-! ## C38 products of charge operators -/

theorem C38_products (D : ModeData nJ k) (m : Fin k → ℕ) (ng : Fin k → ℝ) :
    let mem := buildMem D m ng
    (∀ (i : Fin k) (d : ℕ) (h : (i : ℕ) + d < k), (mem.QQ i)[d]? = some (mem.Q i * mem.Q ⟨i + d, h⟩)) ∧
    (∀ i, (mem.QQ i).length = k - i) ∧
    (∀ i j, i ≠ j → mem.Q i * mem.Q j = mem.Q j * mem.Q i ∧ mem.phi i * mem.phi j = mem.phi j * mem.phi i ∧
      mem.N i * mem.N j = mem.N j * mem.N i ∧ mem.Q i * mem.phi j = mem.phi j * mem.Q i ∧
      mem.Q i * mem.N j = mem.N j * mem.Q i ∧ mem.phi i * mem.N j = mem.N j * mem.phi i) ∧
    (∀ i, (mem.Q i).IsHermitian ∧ (mem.phi i).IsHermitian ∧ (mem.N i).IsHermitian) := by
  intro mem
  refine ⟨fun i d h => buildMem_QQ D m ng i d h, fun i => (memRow_inv D m ng i).2.2.2.1, ?_,
    fun i => ⟨Q_herm D m ng i, phi_herm D m ng i, N_herm D m ng i⟩⟩
  intro i j hij
  simp only [mem, buildMem_Q, buildMem_phi, buildMem_N]
  exact ⟨single_comm hij _ _, single_comm hij _ _, single_comm hij _ _, single_comm hij _ _,
    single_comm hij _ _, single_comm hij _ _⟩

/-- the stored charge operator of a mode acts on that mode only, as the isolated operator, whatever
the other modes do -/
theorem C38_local (D : ModeData nJ k) (m : Fin k → ℕ) (ng : Fin k → ℝ) (i : Fin k) (x y : Idx m) :
    (buildMem D m ng).Q i x y =
      if ∀ j, j ≠ i → x j = y j then chargeOpIso D m ng i (x i) (y i) else 0 := by
  rw [buildMem_Q]
  unfold single
  rw [tens_update]
  by_cases h : ∀ j, j ≠ i → x j = y j
  · rw [if_pos h, Finset.prod_eq_one, mul_one]
    intro j hj
    rw [h j (Finset.ne_of_mem_erase hj), one_apply_eq]
  · rw [if_neg h]
    push Not at h
    obtain ⟨j, hj, hne⟩ := h
    have h0 : ∏ l ∈ Finset.univ.erase i, (1 : Matrix (Fin (m l)) (Fin (m l)) ℂ) (x l) (y l) = 0 :=
      Finset.prod_eq_zero (Finset.mem_erase.2 ⟨hj, Finset.mem_univ j⟩) (one_apply_ne hne)
    exact (congrArg _ h0).trans (mul_zero _)

/-- two charge modes with three states each: the stored product at distance one is `Q₀ Q₁` -/
example (ng : Fin 2 → ℝ) (D : ModeData 1 2) :
    ((buildMem D (fun _ => 3) ng).QQ 0)[1]? =
      some ((buildMem D (fun _ => 3) ng).Q 0 * (buildMem D (fun _ => 3) ng).Q 1) :=
  (C38_products D (fun _ => 3) ng).1 0 1 (by norm_num)

/-! ## C39 LC Hamiltonian -/

/-- For symmetric transformed inverse capacitance, the LC Hamiltonian is the sum of ωN over harmonic
modes plus ½ QᵀcInvQ without the diagonal terms of harmonic modes. -/
theorem C39_lc_hamiltonian (D : ModeData nJ k) (hs : D.cInv.IsSymm) (m : Fin k → ℕ) (ng : Fin k → ℝ) :
    let mem := buildMem D m ng
    lcHamil D mem =
      ∑ i, (if D.omega i ≠ 0 then ((D.omega i : ℝ) : ℂ) • mem.N i else 0) +
      (1 / 2 : ℂ) • ∑ i, ∑ j, (if i = j ∧ D.omega i ≠ 0 then 0
        else ((D.cInv i j : ℝ) : ℂ) • (mem.Q i * mem.Q j)) := by
  classical
  intro mem
  rw [lcHamil_pairs]
  rw [← symm_sum (fun i j => if i = j ∧ D.omega i ≠ 0 then 0
        else ((D.cInv i j : ℝ) : ℂ) • (mem.Q i * mem.Q j))]
  · rw [← Finset.sum_add_distrib]
    apply Finset.sum_congr rfl
    intro i _
    have h1 : (if D.omega i ≠ 0 then ((D.omega i : ℝ) : ℂ) • mem.N i else 0) =
        ∑ j : Fin k, if i = j then (if D.omega i ≠ 0 then ((D.omega i : ℝ) : ℂ) • mem.N i else 0) else 0 := by
      rw [Finset.sum_ite_eq]; simp
    rw [h1, ← Finset.sum_add_distrib]
    apply Finset.sum_congr rfl
    intro j _
    unfold lcPair
    by_cases hij : i = j
    · subst hij
      simp only [le_refl, if_true, true_and]
      by_cases h0 : D.omega i = 0
      · simp only [h0, if_true, ne_eq, not_true, if_false, zero_add]
        rw [smul_smul]
        congr 1
        push_cast; ring
      · simp [h0]
        rfl
    · simp only [hij, if_false, false_and, zero_add]
      rfl
  · intro i j
    by_cases hij : i = j
    · subst hij; rfl
    · have : ¬ (j = i) := fun h => hij h.symm
      simp only [hij, this, false_and, if_false]
      have h1 : D.cInv i j = D.cInv j i := by rw [← hs.apply i j]
      rw [h1]
      have h2 : mem.Q i * mem.Q j = mem.Q j * mem.Q i := Q_comm D m ng i j
      rw [h2]

/-- the generic helper computes ½ QᵀAQ for symmetric A -/
theorem C39_quadratic_form (D : ModeData nJ k) (m : Fin k → ℕ) (ng : Fin k → ℝ)
    (A : Matrix (Fin k) (Fin k) ℝ) (hA : A.IsSymm) :
    let mem := buildMem D m ng
    quadraticQ mem A = (1 / 2 : ℂ) • ∑ i, ∑ j, ((A i j : ℝ) : ℂ) • (mem.Q i * mem.Q j) := by
  intro mem
  rw [quadraticQ_pairs]
  rw [← symm_sum (fun i j => ((A i j : ℝ) : ℂ) • (mem.Q i * mem.Q j))]
  intro i j
  have h1 : A i j = A j i := by rw [← hA.apply i j]
  have h2 : mem.Q i * mem.Q j = mem.Q j * mem.Q i := Q_comm D m ng i j
  rw [h1, h2]

/-- so does the helper for flux operators -/
theorem C39_quadratic_phi (D : ModeData nJ k) (m : Fin k → ℕ) (ng : Fin k → ℝ)
    (A : Matrix (Fin k) (Fin k) ℝ) (hA : A.IsSymm) :
    let mem := buildMem D m ng
    quadraticPhi mem A = (1 / 2 : ℂ) • ∑ i, ∑ j, ((A i j : ℝ) : ℂ) • (mem.phi i * mem.phi j) := by
  intro mem
  have hc : ∀ i j, mem.phi i * mem.phi j = mem.phi j * mem.phi i := by
    intro i j
    by_cases h : i = j
    · rw [h]
    · simp only [mem, buildMem_phi]; exact single_comm h _ _
  have hterm : ∀ (i : Fin k) (acc : Op m) (j : Fin k),
      (if i = j then acc + ((0.5 * A i i : ℝ) : ℂ) • (mem.phi i * mem.phi i)
        else if i < j then acc + ((A i j : ℝ) : ℂ) • (mem.phi i * mem.phi j) else acc) =
      acc + (if i ≤ j then (if i = j then (1 / 2 : ℂ) • (((A i j : ℝ) : ℂ) • (mem.phi i * mem.phi j))
        else ((A i j : ℝ) : ℂ) • (mem.phi i * mem.phi j)) else 0) := by
    intro i acc j
    rcases lt_trichotomy i j with h | h | h
    · simp [h, h.ne, h.le]
    · subst h
      simp only [if_true, le_refl, smul_smul]
      congr 2
      push_cast; norm_num
    · simp [h.ne', not_le.2 h, not_lt.2 h.le]
  unfold quadraticPhi
  simp only [hterm]
  rw [← symm_sum (fun i j => ((A i j : ℝ) : ℂ) • (mem.phi i * mem.phi j))]
  · simp only [foldl_add_sum, finRange_map_sum, zero_add]
  · intro i j
    have h1 : A i j = A j i := by rw [← hA.apply i j]
    rw [h1, hc]

/-- a coupled pair of a harmonic and a charge mode meets the hypotheses; all three kinds of terms
occur -/
example (m : Fin 2 → ℕ) (ng : Fin 2 → ℝ) :
    let D : ModeData 0 2 := ⟨!![1, 2; 2, 3], 1, 0, ![5, 0]⟩
    let mem := buildMem D m ng
    lcHamil D mem = (5 : ℂ) • mem.N 0 +
      (1 / 2 : ℂ) • ((2 : ℂ) • (mem.Q 0 * mem.Q 1) +
        ((2 : ℂ) • (mem.Q 1 * mem.Q 0) + (3 : ℂ) • (mem.Q 1 * mem.Q 1))) := by
  intro D mem
  have := C39_lc_hamiltonian D (by
    ext i j; fin_cases i <;> fin_cases j <;> simp [D]) m ng
  simp only at this
  rw [show lcHamil D mem = _ from this]
  have h0 : D.omega 0 = 5 := rfl
  have h1 : D.omega 1 = 0 := rfl
  have c01 : D.cInv 0 1 = 2 := rfl
  have c10 : D.cInv 1 0 = 2 := rfl
  have c11 : D.cInv 1 1 = 3 := rfl
  simp only [Fin.sum_univ_two, h0, h1, c01, c10, c11]
  norm_num [mem]

/-! ## C40 the Hamiltonian is Hermitian -/

theorem C40_hermitian {n b : ℕ} (C : Matrix (Fin n) (Fin n) ℝ) (M : Modes nJ n)
    (hk : M.keep.length ≤ n) (m : Fin M.keep.length → ℕ) (ng : Fin M.keep.length → ℝ)
    (val : ElemId → ℝ) (phi : Fin b → ℝ) (inds : List (IndKey b)) (juns : List (JunKey b nJ))
    (hv : ∀ key ∈ inds, ValidEdge n key.edge) :
    ∃ H, fullHamiltonian C M m ng val phi inds juns = .ok H ∧ H.IsHermitian := by
  unfold fullHamiltonian hamiltonianOf indHamil
  simp only
  rw [indTerms_ok C M hk _ val phi inds hv]
  refine ⟨_, rfl, ?_⟩
  rw [junTerms_eq, zero_add, lcHamil_pairs]
  change (_ : Op m)ᴴ = _
  rw [conjTranspose_add, conjTranspose_add]
  congr 1
  · congr 1
    · apply herm_list_sum
      intro key _
      apply herm_real_smul
      rw [conjTranspose_sum]
      apply Finset.sum_congr rfl
      intro i _
      exact herm_real_smul _ (phi_herm _ _ _ _)
    · apply herm_list_sum
      intro key _
      rw [← Complex.ofReal_neg]
      exact herm_real_smul _ (cosOp_herm _ _ _)
  · rw [conjTranspose_sum]
    apply Finset.sum_congr rfl
    intro i _
    rw [conjTranspose_sum]
    apply Finset.sum_congr rfl
    intro j _
    split
    · unfold lcPair
      split
      · split
        · apply herm_real_smul
          rw [conjTranspose_mul, Q_herm]
        · exact herm_real_smul _ (N_herm _ _ _ _)
      · apply herm_real_smul
        rw [conjTranspose_mul, Q_herm, Q_herm, Q_comm]
    · simp

/-- the LC/junction circuit under PyTorch, any truncation, offset, flux and junction energy -/
example (m : Fin (finishModes true lcFinal).keep.length → ℕ)
    (ng : Fin (finishModes true lcFinal).keep.length → ℝ) (val : ElemId → ℝ) (phi : Fin 2 → ℝ) :
    ∃ H, fullHamiltonian 1 (finishModes true lcFinal) m ng val phi [⟨(0, 1), 0, 0⟩]
      [⟨(0, 2), 2, 1, 0⟩] = .ok H ∧ H.IsHermitian := by
  apply C40_hermitian
  · obtain ⟨keep, hM, hp⟩ := finishModes_eq true lcFinal
    rw [hM]; exact keep_len_le hp
  · intro key hkey
    simp at hkey
    subst hkey
    exact ⟨by simp, by simp, by simp⟩

/-! ## C41 flux periodicity -/

/-- Changing the flux of loop `l` by `z` flux quanta leaves the Hamiltonian unchanged when the loop's
B entries are integers at junctions and zero at inductors, and multiplies the half-angle sine of a
junction by (-1)^(z·B). -/
theorem C41_periodicity {n b nl : ℕ} (C : Matrix (Fin n) (Fin n) ℝ) (M : Modes nJ n)
    (m : Fin M.keep.length → ℕ) (ng : Fin M.keep.length → ℝ)
    (val : ElemId → ℝ) (B : Matrix (Fin b) (Fin nl) ℝ) (loops : Fin nl → ℝ) (l : Fin nl) (z : ℤ)
    (inds : List (IndKey b)) (juns : List (JunKey b nJ))
    (hi : ∀ key ∈ inds, B key.bId l = 0) (hj : ∀ key ∈ juns, ∃ c : ℤ, B key.bId l = c) :
    let loops' := Function.update loops l (loops l + 2 * Real.pi * z)
    fullHamiltonian C M m ng val (extFlux B loops') inds juns =
      fullHamiltonian C M m ng val (extFlux B loops) inds juns ∧
    (∀ key ∈ juns, ∀ c : ℤ, B key.bId l = c →
      cosOp (buildMem M.data m ng) key.wId (extFlux B loops' key.bId) =
        cosOp (buildMem M.data m ng) key.wId (extFlux B loops key.bId) ∧
      sinOp (buildMem M.data m ng) key.wId (extFlux B loops' key.bId) =
        sinOp (buildMem M.data m ng) key.wId (extFlux B loops key.bId) ∧
      sinHalfOp (buildMem M.data m ng) key.wId (extFlux B loops' key.bId) =
        ((-1 : ℂ) ^ (z * c)) •
          sinHalfOp (buildMem M.data m ng) key.wId (extFlux B loops key.bId)) := by
  intro loops'
  have hext : ∀ bId, extFlux B loops' bId = extFlux B loops bId + 2 * Real.pi * z * B bId l := by
    intro bId
    have hsum : ∀ v : Fin nl → ℝ, extFlux B v bId = ∑ i, v i * B bId i := by
      intro v
      unfold extFlux
      rw [foldl_add_sum, finRange_map_sum, zero_add]
    rw [hsum, hsum, ← Finset.add_sum_erase _ _ (Finset.mem_univ l),
      ← Finset.add_sum_erase (s := Finset.univ) (f := fun i => loops i * B bId i) (Finset.mem_univ l)]
    have e : ∑ x ∈ Finset.univ.erase l, loops' x * B bId x =
        ∑ x ∈ Finset.univ.erase l, loops x * B bId x := by
      apply Finset.sum_congr rfl
      intro x hx
      rw [show loops' x = loops x from Function.update_of_ne (Finset.ne_of_mem_erase hx) _ _]
    rw [e, show loops' l = loops l + 2 * Real.pi * z from Function.update_self _ _ _]
    ring
  have hphase : ∀ (x : ℝ) (c : ℤ), phase (x + 2 * Real.pi * z * c) = phase x := by
    intro x c
    unfold phase
    have : I * ((x + 2 * Real.pi * z * c : ℝ) : ℂ) = I * x + ((z * c : ℤ) : ℂ) * (2 * Real.pi * I) := by
      push_cast; ring
    rw [this, Complex.exp_add, Complex.exp_int_mul_two_pi_mul_I, mul_one]
  have hhalf : ∀ (x : ℝ) (c : ℤ), phase ((x + 2 * Real.pi * z * c) / 2) =
      (-1 : ℂ) ^ (z * c) * phase (x / 2) := by
    intro x c
    unfold phase
    have : I * (((x + 2 * Real.pi * z * c) / 2 : ℝ) : ℂ) =
        ((z * c : ℤ) : ℂ) * (Real.pi * I) + I * ((x / 2 : ℝ) : ℂ) := by
      push_cast; ring
    rw [this, Complex.exp_add, Complex.exp_int_mul, Complex.exp_pi_mul_I]
  have hcos : ∀ key ∈ juns, ∀ c : ℤ, B key.bId l = c →
      cosOp (buildMem M.data m ng) key.wId (extFlux B loops' key.bId) =
        cosOp (buildMem M.data m ng) key.wId (extFlux B loops key.bId) := by
    intro key _ c hc
    rw [hext, hc]
    unfold cosOp
    rw [hphase]
  refine ⟨?_, ?_⟩
  · have hind : ∀ (keys : List (IndKey b)) (_ : ∀ key ∈ keys, B key.bId l = 0) (acc : Op m),
        indTerms C M (buildMem M.data m ng) val (extFlux B loops') keys acc =
          indTerms C M (buildMem M.data m ng) val (extFlux B loops) keys acc := by
      intro keys
      induction keys with
      | nil => intro _ acc; rfl
      | cons key ks ih =>
        intro h acc
        have e : extFlux B loops' key.bId = extFlux B loops key.bId := by
          rw [hext, h key (by simp)]; ring
        simp only [indTerms, e]
        split
        · rfl
        · exact ih (fun key hk => h key (by simp [hk])) _
    unfold fullHamiltonian hamiltonianOf indHamil
    simp only
    rw [hind inds hi]
    have hjun : ∀ acc, junTerms (buildMem M.data m ng) val (extFlux B loops') juns acc =
        junTerms (buildMem M.data m ng) val (extFlux B loops) juns acc := by
      intro acc
      rw [junTerms_eq, junTerms_eq]
      congr 2
      apply List.map_congr_left
      intro key hkey
      obtain ⟨c, hc⟩ := hj key hkey
      rw [hcos key hkey c hc]
    simp only [hjun]
  · intro key hkey c hc
    refine ⟨hcos key hkey c hc, ?_, ?_⟩
    · rw [hext, hc]
      unfold sinOp
      rw [hphase]
    · rw [hext, hc]
      unfold sinHalfOp
      rw [hhalf]
      have hreal : star ((-1 : ℂ) ^ (z * c)) = (-1 : ℂ) ^ (z * c) := by
        rw [RCLike.star_def, map_zpow₀, map_neg, map_one]
      rw [mul_smul, conjTranspose_smul ((-1 : ℂ) ^ (z * c)), hreal, ← smul_sub, smul_comm]

/-- a loop through two junctions with B entries 1 and 0: adding one flux quantum changes nothing, and
flips the sign of the first junction's half-angle sine -/
example (C : Matrix (Fin 1) (Fin 1) ℝ) (M : Modes 1 1) (m : Fin M.keep.length → ℕ)
    (ng : Fin M.keep.length → ℝ) (val : ElemId → ℝ) (x : ℝ) :
    let B : Matrix (Fin 2) (Fin 1) ℝ := !![1; 0]
    let juns : List (JunKey 2 1) := [⟨(0, 1), 0, 0, 0⟩, ⟨(0, 1), 1, 1, 0⟩]
    let v' := Function.update (fun _ : Fin 1 => x) 0 (x + 2 * Real.pi * (1 : ℤ))
    fullHamiltonian C M m ng val (extFlux B v') [] juns =
      fullHamiltonian C M m ng val (extFlux B (fun _ => x)) [] juns ∧
    sinHalfOp (buildMem M.data m ng) 0 (extFlux B v' 0) =
      (-1 : ℂ) • sinHalfOp (buildMem M.data m ng) 0 (extFlux B (fun _ => x) 0) := by
  intro B juns v'
  obtain ⟨h1, h2⟩ := C41_periodicity C M m ng val B (fun _ => x) 0 1 [] juns (by simp) (by
    intro key hkey
    simp only [juns, List.mem_cons, List.not_mem_nil, or_false] at hkey
    rcases hkey with rfl | rfl
    · exact ⟨1, by simp [B]⟩
    · exact ⟨0, by simp [B]⟩)
  refine ⟨h1, ?_⟩
  have := (h2 ⟨(0, 1), 0, 0, 0⟩ (by simp [juns]) 1 (by simp [B])).2.2
  rwa [show (-1 : ℂ) ^ ((1 : ℤ) * 1) = -1 by norm_num] at this

end SQ
