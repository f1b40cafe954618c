import Verif.Lemmas.Truncation

/-!
# The Hamiltonian in a larger charge basis with shifted charges
-/

namespace SQ
open Matrix Complex SQ.Spec

/-- the states of a charge basis inside a larger one, shifted by `o` -/
def shState {N N' o : ℕ} (h : o + N ≤ N') (x : Fin N) : Fin N' := ⟨x + o, by have := x.isLt; omega⟩

theorem shState_inj {N N' o : ℕ} (h : o + N ≤ N') : Function.Injective (shState h) := by
  intro x y hxy
  have := congrArg Fin.val hxy
  simp only [shState] at this
  exact Fin.ext (by omega)

theorem shState_same {N N' o : ℕ} (h : o + N ≤ N') (e : N' = N) (A : ∀ N, Matrix (Fin N) (Fin N) ℂ) :
    (A N').submatrix (shState h) (shState h) = A N := by
  subst e
  have : shState h = id := by
    funext x
    apply Fin.ext
    simp only [shState, id]
    omega
  rw [this, submatrix_id_id]

theorem shState_one {N N' o : ℕ} (h : o + N ≤ N') :
    (1 : Matrix (Fin N') (Fin N') ℂ).submatrix (shState h) (shState h) = 1 :=
  submatrix_one _ (shState_inj h)

theorem shState_dOp {N N' o : ℕ} (h : o + N ≤ N') (w : ℝ) :
    (dOp N' w).submatrix (shState h) (shState h) = dOp N w := by
  have hd : (Matrix.of fun r c : Fin N' => if (c : ℤ) - 1 = r then (1 : ℂ) else 0).submatrix (shState h) (shState h) =
      Matrix.of fun r c : Fin N => if (c : ℤ) - 1 = r then (1 : ℂ) else 0 := by
    ext r c
    simp only [submatrix_apply, of_apply, shState]
    congr 1
    push_cast
    apply propext
    constructor <;> intro h <;> omega
  unfold dOp
  split
  · exact shState_one h
  · simp only
    split
    · exact hd
    · rw [← conjTranspose_submatrix, hd]

section
variable {nJ k : ℕ}

/-- The dimensions `m'` hold those of `m`, the charge states being shifted by `o` so that charges counted from the
offsets agree. -/
def Shifts (D : ModeData nJ k) (m m' : Fin k → ℕ) (ng ng' : Fin k → ℝ) (o : Fin k → ℕ) : Prop :=
  ∀ i, o i + m i ≤ m' i ∧
    ((D.omega i = 0 ∧ (o i : ℝ) - ((m' i : ℝ) - 1) / 2 - ng' i = - (((m i : ℝ) - 1) / 2) - ng i) ∨
      (D.omega i ≠ 0 ∧ m' i = m i))

variable {D : ModeData nJ k} {m m' : Fin k → ℕ} {ng ng' : Fin k → ℝ} {o : Fin k → ℕ} (hw : Shifts D m m' ng ng' o)
include hw

theorem sh_charge (i : Fin k) :
    (chargeOpIso D m' ng' i).submatrix (shState (hw i).1) (shState (hw i).1) = chargeOpIso D m ng i := by
  rw [chargeOfDim_eq, chargeOfDim_eq]
  rcases (hw i).2 with ⟨h0, h1⟩ | ⟨h0, h1⟩
  · rw [chargeOfDim_charge h0, chargeOfDim_charge h0, submatrix_diagonal _ _ (shState_inj _)]
    congr 1
    funext x
    simp only [Function.comp, shState]
    congr 1
    have := congrArg (fun r : ℝ => (r : ℂ)) h1
    push_cast at this ⊢
    linear_combination this
  · have e : ∀ N, chargeOfDim D ng' i N = chargeOfDim D ng i N := by
      intro N
      unfold chargeOfDim
      rw [if_neg h0, if_neg h0]
    rw [← e]
    exact shState_same (hw i).1 h1 (chargeOfDim D ng' i)

theorem sh_charge_sq (i : Fin k) :
    (chargeOpIso D m' ng' i * chargeOpIso D m' ng' i).submatrix (shState (hw i).1) (shState (hw i).1) =
      chargeOpIso D m ng i * chargeOpIso D m ng i := by
  have hq := sh_charge hw i
  rw [chargeOfDim_eq, chargeOfDim_eq] at hq ⊢
  rcases (hw i).2 with ⟨h0, h1⟩ | ⟨h0, h1⟩
  · rw [chargeOfDim_charge h0, chargeOfDim_charge h0] at hq ⊢
    rw [submatrix_diagonal _ _ (shState_inj _)] at hq
    rw [← hq, diagonal_mul_diagonal, diagonal_mul_diagonal, submatrix_diagonal _ _ (shState_inj _)]
    rfl
  · have e : ∀ N, chargeOfDim D ng' i N = chargeOfDim D ng i N := by
      intro N
      unfold chargeOfDim
      rw [if_neg h0, if_neg h0]
    rw [← e]
    exact shState_same (hw i).1 h1 (fun N => chargeOfDim D ng' i N * chargeOfDim D ng' i N)

theorem sh_flux (i : Fin k) :
    (fluxOpIso D m' i).submatrix (shState (hw i).1) (shState (hw i).1) = fluxOpIso D m i := by
  rw [fluxOfDim_eq, fluxOfDim_eq]
  rcases (hw i).2 with ⟨h0, h1⟩ | ⟨h0, h1⟩
  · unfold fluxOfDim
    rw [if_pos h0, if_pos h0]
    exact shState_one _
  · exact shState_same (hw i).1 h1 (fluxOfDim D i)

theorem sh_num (i : Fin k) (h0 : D.omega i ≠ 0) :
    (numOpIso D m' i).submatrix (shState (hw i).1) (shState (hw i).1) = numOpIso D m i := by
  rw [numOfDim_eq, numOfDim_eq]
  rcases (hw i).2 with ⟨h0', h1⟩ | ⟨h0, h1⟩
  · exact absurd h0' h0
  · exact shState_same (hw i).1 h1 (numOfDim D i)

theorem sh_exp (i : Fin nJ) (j : Fin k) :
    (expFactor D m' i j).submatrix (shState (hw j).1) (shState (hw j).1) = expFactor D m i j := by
  rw [expOfDim_eq, expOfDim_eq]
  rcases (hw j).2 with ⟨h0, h1⟩ | ⟨h0, h1⟩
  · unfold expOfDim
    rw [if_pos h0, if_pos h0]
    exact shState_dOp _ _
  · exact shState_same (hw j).1 h1 (expOfDim D i j)

/-- the product states of the smaller basis inside the larger one -/
def shIdx (x : Idx m) : Idx m' := fun i => shState (hw i).1 (x i)

theorem shIdx_inj : Function.Injective (shIdx hw) := by
  intro x y hxy
  funext i
  exact shState_inj _ (congrFun hxy i)

/-- compression to the smaller basis -/
def shComp : Op m' →+ Op m where
  toFun H := H.submatrix (shIdx hw) (shIdx hw)
  map_zero' := rfl
  map_add' _ _ := rfl

theorem shComp_smul (z : ℂ) (A : Op m') : shComp hw (z • A) = z • shComp hw A := rfl

theorem shComp_conj (A : Op m') : shComp hw Aᴴ = (shComp hw A)ᴴ := rfl

theorem shComp_tens (A : Factors m') (B : Factors m)
    (h : ∀ i, (A i).submatrix (shState (hw i).1) (shState (hw i).1) = B i) : shComp hw (tens A) = tens B := by
  ext x y
  show (tens A) (shIdx hw x) (shIdx hw y) = (tens B) x y
  unfold tens
  rw [of_apply, of_apply]
  exact Finset.prod_congr rfl fun i _ => by rw [← h i]; rfl

theorem shComp_single (i : Fin k) (A : Matrix (Fin (m' i)) (Fin (m' i)) ℂ) (B : Matrix (Fin (m i)) (Fin (m i)) ℂ)
    (h : A.submatrix (shState (hw i).1) (shState (hw i).1) = B) : shComp hw (single m' i A) = single m i B := by
  refine shComp_tens hw _ _ fun j => ?_
  by_cases hj : j = i
  · subst hj; rw [Function.update_self, Function.update_self]; exact h
  · rw [Function.update_of_ne hj, Function.update_of_ne hj]; exact shState_one _

theorem shComp_QQ (i j : Fin k) :
    shComp hw ((buildMem D m' ng').Q i * (buildMem D m' ng').Q j) = (buildMem D m ng).Q i * (buildMem D m ng).Q j := by
  simp only [buildMem_Q]
  by_cases hij : i = j
  · subst hij
    rw [single_mul_self, single_mul_self]
    exact shComp_single hw i _ _ (sh_charge_sq hw i)
  · rw [single_mul hij, single_mul hij]
    refine shComp_tens hw _ _ fun l => ?_
    by_cases hlj : l = j
    · subst hlj; rw [Function.update_self, Function.update_self]; exact sh_charge hw l
    · rw [Function.update_of_ne hlj, Function.update_of_ne hlj]
      by_cases hli : l = i
      · subst hli; rw [Function.update_self, Function.update_self]; exact sh_charge hw l
      · rw [Function.update_of_ne hli, Function.update_of_ne hli]; exact shState_one _

theorem shComp_N (i : Fin k) (h0 : D.omega i ≠ 0) : shComp hw ((buildMem D m' ng').N i) = (buildMem D m ng).N i := by
  rw [buildMem_N, buildMem_N]
  exact shComp_single hw i _ _ (sh_num hw i h0)

theorem shComp_phi (i : Fin k) : shComp hw ((buildMem D m' ng').phi i) = (buildMem D m ng).phi i := by
  rw [buildMem_phi, buildMem_phi]
  exact shComp_single hw i _ _ (sh_flux hw i)

theorem shComp_cos (i : Fin nJ) (x : ℝ) :
    shComp hw (cosOp (buildMem D m' ng') i x) = cosOp (buildMem D m ng) i x := by
  have h : shComp hw ((buildMem D m' ng').exp i) = (buildMem D m ng).exp i :=
    shComp_tens hw _ _ fun j => sh_exp hw i j
  unfold cosOp
  rw [shComp_smul, map_add, shComp_conj, shComp_smul, h]

theorem shComp_lc : shComp hw (lcHamil D (buildMem D m' ng')) = lcHamil D (buildMem D m ng) := by
  rw [lcHamil_pairs, lcHamil_pairs, map_sum]
  refine Finset.sum_congr rfl fun i _ => ?_
  rw [map_sum]
  refine Finset.sum_congr rfl fun j _ => ?_
  split
  · unfold lcPair
    split
    · split
      · rw [shComp_smul, shComp_QQ]
      · rename_i h0
        rw [shComp_smul, shComp_N hw _ h0]
    · rw [shComp_smul, shComp_QQ]
  · exact map_zero _

end

section
variable {nJ n b : ℕ}

/-- the Hamiltonian in a smaller charge basis is a principal submatrix of the Hamiltonian with shifted offsets in the
larger one -/
theorem shComp_ham (C : Matrix (Fin n) (Fin n) ℝ) (M : Modes nJ n) (hk : M.keep.length ≤ n)
    {m m' : Fin M.keep.length → ℕ} {ng ng' : Fin M.keep.length → ℝ} {o : Fin M.keep.length → ℕ}
    (hw : Shifts M.data m m' ng ng' o) (val : ElemId → ℝ)
    (phi : Fin b → ℝ) (inds : List (IndKey b)) (juns : List (JunKey b nJ)) (hv : ∀ key ∈ inds, ValidEdge n key.edge)
    {H : Op m} {H' : Op m'} (hH : fullHamiltonian C M m ng val phi inds juns = .ok H)
    (hH' : fullHamiltonian C M m' ng' val phi inds juns = .ok H') :
    H = H'.submatrix (shIdx hw) (shIdx hw) := by
  unfold fullHamiltonian at hH hH'
  rw [hamiltonianOf_eq C M hk _ _ _ _ _ _ hv] at hH hH'
  rw [← Except.ok.inj hH, ← Except.ok.inj hH']
  show _ = shComp hw _
  rw [map_add, map_add, shComp_lc, map_list_sum, map_list_sum, List.map_map, List.map_map]
  congr 3
  · refine List.map_congr_left fun key hkey => ?_
    show _ = shComp hw (_ • _)
    rw [shComp_smul, indOpOf_eq C M hk _ (hv key hkey), indOpOf_eq C M hk _ (hv key hkey), map_sum]
    congr 1
    refine Finset.sum_congr rfl fun i _ => ?_
    rw [shComp_smul, shComp_phi]
  · refine List.map_congr_left fun key _ => ?_
    show _ = shComp hw (_ • _)
    rw [shComp_smul, shComp_cos]

end
end SQ
