import Verif.Lemmas.Interlace
import Verif.Lemmas.LcState
import Verif.Props.Ops

/-!
# The Hamiltonian in a larger charge basis
-/

namespace SQ
open Matrix Complex SQ.Spec

/-! ### one mode -/

/-- the states of a charge basis inside a larger one with the same centre -/
def upState {N N' : ℕ} (h : N ≤ N') (x : Fin N) : Fin N' := ⟨x + (N' - N) / 2, by have := x.isLt; omega⟩

theorem upState_inj {N N' : ℕ} (h : N ≤ N') : Function.Injective (upState h) := by
  intro x y hxy
  have := congrArg Fin.val hxy
  simp only [upState] at this
  exact Fin.ext (by omega)

theorem upState_same {N N' : ℕ} (h : N ≤ N') (e : N' = N) (A : ∀ N, Matrix (Fin N) (Fin N) ℂ) :
    (A N').submatrix (upState h) (upState h) = A N := by
  subst e
  have : upState h = id := by
    funext x
    apply Fin.ext
    simp [upState]
  rw [this, submatrix_id_id]

theorem upState_diag {N N' d : ℕ} (h : N ≤ N') (e : N' = N + 2 * d) (f : ℂ → ℂ) :
    (diagonal (fun i : Fin N' => f ((i : ℂ) - ((N' : ℂ) - 1) / 2))).submatrix (upState h) (upState h) =
      diagonal (fun i : Fin N => f ((i : ℂ) - ((N : ℂ) - 1) / 2)) := by
  rw [submatrix_diagonal _ _ (upState_inj h)]
  congr 1
  funext x
  simp only [Function.comp, upState]
  have : (N' - N) / 2 = d := by omega
  rw [this, e]
  congr 1
  push_cast
  ring

theorem upState_one {N N' : ℕ} (h : N ≤ N') :
    (1 : Matrix (Fin N') (Fin N') ℂ).submatrix (upState h) (upState h) = 1 :=
  submatrix_one _ (upState_inj h)

theorem upState_dOp {N N' : ℕ} (h : N ≤ N') (w : ℝ) :
    (dOp N' w).submatrix (upState h) (upState h) = dOp N w := by
  have hd : (Matrix.of fun r c : Fin N' => if (c : ℤ) - 1 = r then (1 : ℂ) else 0).submatrix (upState h) (upState h) =
      Matrix.of fun r c : Fin N => if (c : ℤ) - 1 = r then (1 : ℂ) else 0 := by
    ext r c
    simp only [submatrix_apply, of_apply, upState]
    congr 1
    push_cast
    apply propext
    constructor <;> intro h <;> omega
  unfold dOp
  split
  · exact upState_one h
  · simp only
    split
    · exact hd
    · rw [← conjTranspose_submatrix, hd]

section
variable {nJ k : ℕ}

/-- `chargeOpIso` as a function of the dimension -/
noncomputable def chargeOfDim (D : ModeData nJ k) (ng : Fin k → ℝ) (i : Fin k) (N : ℕ) : Matrix (Fin N) (Fin N) ℂ :=
  open Classical in
  if D.omega i = 0 then
    ((2 * eCharge / √hbar : ℝ) : ℂ) • (qCharge N - ((ng i : ℝ) : ℂ) • 1)
  else if N = 1 then 0
  else (-I * ((√(0.5 / D.impedance i) : ℝ) : ℂ)) • (qDestroy N - qCreate N)

theorem chargeOfDim_eq (D : ModeData nJ k) (m : Fin k → ℕ) (ng : Fin k → ℝ) (i : Fin k) :
    chargeOpIso D m ng i = chargeOfDim D ng i (m i) := rfl

noncomputable def fluxOfDim (D : ModeData nJ k) (i : Fin k) (N : ℕ) : Matrix (Fin N) (Fin N) ℂ :=
  open Classical in
  if D.omega i = 0 then 1
  else if N = 1 then 0
  else ((√(0.5 * D.impedance i) : ℝ) : ℂ) • (qDestroy N + qCreate N)

theorem fluxOfDim_eq (D : ModeData nJ k) (m : Fin k → ℕ) (i : Fin k) :
    fluxOpIso D m i = fluxOfDim D i (m i) := rfl

noncomputable def numOfDim (D : ModeData nJ k) (i : Fin k) (N : ℕ) : Matrix (Fin N) (Fin N) ℂ :=
  open Classical in
  if D.omega i = 0 then qCharge N else qNum N

theorem numOfDim_eq (D : ModeData nJ k) (m : Fin k → ℕ) (i : Fin k) :
    numOpIso D m i = numOfDim D i (m i) := rfl

noncomputable def expOfDim (D : ModeData nJ k) (i : Fin nJ) (j : Fin k) (N : ℕ) : Matrix (Fin N) (Fin N) ℂ :=
  open Classical in
  if D.omega j = 0 then dOp N (D.w i j)
  else if N = 1 then 1
  else qDisplace N (D.alpha i j)

theorem expOfDim_eq (D : ModeData nJ k) (m : Fin k → ℕ) (i : Fin nJ) (j : Fin k) :
    expFactor D m i j = expOfDim D i j (m j) := rfl

theorem chargeOfDim_charge {D : ModeData nJ k} {i : Fin k} (h : D.omega i = 0) (ng : Fin k → ℝ) (N : ℕ) :
    chargeOfDim D ng i N = diagonal (fun x : Fin N =>
      ((2 * eCharge / √hbar : ℝ) : ℂ) * ((x : ℂ) - ((N : ℂ) - 1) / 2 - ((ng i : ℝ) : ℂ))) := by
  unfold chargeOfDim
  rw [if_pos h]
  unfold qCharge
  rw [smul_one_eq_diagonal, diagonal_sub, ← diagonal_smul]
  rfl

/-- The dimensions `m'` are those of `m` except that charge modes may have more states, symmetrically. -/
def Widens (D : ModeData nJ k) (m m' : Fin k → ℕ) : Prop :=
  ∀ i, (D.omega i = 0 ∧ ∃ d, m' i = m i + 2 * d) ∨ (D.omega i ≠ 0 ∧ m' i = m i)

theorem Widens.le {D : ModeData nJ k} {m m' : Fin k → ℕ} (h : Widens D m m') (i : Fin k) : m i ≤ m' i := by
  rcases h i with ⟨-, d, h1⟩ | ⟨-, h1⟩ <;> omega

variable {D : ModeData nJ k} {m m' : Fin k → ℕ} (hw : Widens D m m')
include hw

theorem up_charge (ng : Fin k → ℝ) (i : Fin k) :
    (chargeOpIso D m' ng i).submatrix (upState (hw.le i)) (upState (hw.le i)) = chargeOpIso D m ng i := by
  rw [chargeOfDim_eq, chargeOfDim_eq]
  rcases hw i with ⟨h0, d, h1⟩ | ⟨h0, h1⟩
  · rw [chargeOfDim_charge h0, chargeOfDim_charge h0]
    exact upState_diag (hw.le i) h1 (fun z => ((2 * eCharge / √hbar : ℝ) : ℂ) * (z - ((ng i : ℝ) : ℂ)))
  · exact upState_same (hw.le i) h1 (chargeOfDim D ng i)

theorem up_charge_sq (ng : Fin k → ℝ) (i : Fin k) :
    (chargeOpIso D m' ng i * chargeOpIso D m' ng i).submatrix (upState (hw.le i)) (upState (hw.le i)) =
      chargeOpIso D m ng i * chargeOpIso D m ng i := by
  rw [chargeOfDim_eq, chargeOfDim_eq]
  rcases hw i with ⟨h0, d, h1⟩ | ⟨h0, h1⟩
  · rw [chargeOfDim_charge h0, chargeOfDim_charge h0, diagonal_mul_diagonal, diagonal_mul_diagonal]
    exact upState_diag (hw.le i) h1 (fun z => ((2 * eCharge / √hbar : ℝ) : ℂ) * (z - ((ng i : ℝ) : ℂ)) *
      (((2 * eCharge / √hbar : ℝ) : ℂ) * (z - ((ng i : ℝ) : ℂ))))
  · exact upState_same (hw.le i) h1 (fun N => chargeOfDim D ng i N * chargeOfDim D ng i N)

theorem up_flux (i : Fin k) :
    (fluxOpIso D m' i).submatrix (upState (hw.le i)) (upState (hw.le i)) = fluxOpIso D m i := by
  rw [fluxOfDim_eq, fluxOfDim_eq]
  rcases hw i with ⟨h0, d, h1⟩ | ⟨h0, h1⟩
  · unfold fluxOfDim
    rw [if_pos h0, if_pos h0]
    exact upState_one _
  · exact upState_same (hw.le i) h1 (fluxOfDim D i)

theorem up_num (i : Fin k) :
    (numOpIso D m' i).submatrix (upState (hw.le i)) (upState (hw.le i)) = numOpIso D m i := by
  rw [numOfDim_eq, numOfDim_eq]
  rcases hw i with ⟨h0, d, h1⟩ | ⟨h0, h1⟩
  · unfold numOfDim
    rw [if_pos h0, if_pos h0]
    exact upState_diag _ h1 id
  · exact upState_same (hw.le i) h1 (numOfDim D i)

theorem up_exp (i : Fin nJ) (j : Fin k) :
    (expFactor D m' i j).submatrix (upState (hw.le j)) (upState (hw.le j)) = expFactor D m i j := by
  rw [expOfDim_eq, expOfDim_eq]
  rcases hw j with ⟨h0, d, h1⟩ | ⟨h0, h1⟩
  · unfold expOfDim
    rw [if_pos h0, if_pos h0]
    exact upState_dOp _ _
  · exact upState_same (hw.le j) h1 (expOfDim D i j)

/-! ### all modes -/

/-- the product states of the smaller basis inside the larger one -/
def upIdx (x : Idx m) : Idx m' := fun i => upState (hw.le i) (x i)

theorem upIdx_inj : Function.Injective (upIdx hw) := by
  intro x y hxy
  funext i
  exact upState_inj _ (congrFun hxy i)

/-- compression to the smaller basis -/
def compress : Op m' →+ Op m where
  toFun H := H.submatrix (upIdx hw) (upIdx hw)
  map_zero' := rfl
  map_add' _ _ := rfl

theorem compress_smul (z : ℂ) (A : Op m') : compress hw (z • A) = z • compress hw A := rfl

theorem compress_conj (A : Op m') : compress hw Aᴴ = (compress hw A)ᴴ := rfl

theorem compress_one : compress hw 1 = 1 := submatrix_one _ (upIdx_inj hw)

theorem compress_tens (A : Factors m') (B : Factors m)
    (h : ∀ i, (A i).submatrix (upState (hw.le i)) (upState (hw.le i)) = B i) : compress hw (tens A) = tens B := by
  ext x y
  show (tens A) (upIdx hw x) (upIdx hw y) = (tens B) x y
  unfold tens
  rw [of_apply, of_apply]
  exact Finset.prod_congr rfl fun i _ => by rw [← h i]; rfl

theorem compress_single (i : Fin k) (A : Matrix (Fin (m' i)) (Fin (m' i)) ℂ) (B : Matrix (Fin (m i)) (Fin (m i)) ℂ)
    (h : A.submatrix (upState (hw.le i)) (upState (hw.le i)) = B) : compress hw (single m' i A) = single m i B := by
  refine compress_tens hw _ _ fun j => ?_
  by_cases hj : j = i
  · subst hj; rw [Function.update_self, Function.update_self]; exact h
  · rw [Function.update_of_ne hj, Function.update_of_ne hj]; exact upState_one _

theorem compress_Q (ng : Fin k → ℝ) (i : Fin k) : compress hw ((buildMem D m' ng).Q i) = (buildMem D m ng).Q i := by
  rw [buildMem_Q, buildMem_Q]
  exact compress_single hw i _ _ (up_charge hw ng i)

theorem compress_QQ (ng : Fin k → ℝ) (i j : Fin k) :
    compress hw ((buildMem D m' ng).Q i * (buildMem D m' ng).Q j) = (buildMem D m ng).Q i * (buildMem D m ng).Q j := by
  simp only [buildMem_Q]
  by_cases hij : i = j
  · subst hij
    rw [single_mul_self, single_mul_self]
    exact compress_single hw i _ _ (up_charge_sq hw ng i)
  · rw [single_mul hij, single_mul hij]
    refine compress_tens hw _ _ fun l => ?_
    by_cases hlj : l = j
    · subst hlj; rw [Function.update_self, Function.update_self]; exact up_charge hw ng l
    · rw [Function.update_of_ne hlj, Function.update_of_ne hlj]
      by_cases hli : l = i
      · subst hli; rw [Function.update_self, Function.update_self]; exact up_charge hw ng l
      · rw [Function.update_of_ne hli, Function.update_of_ne hli]; exact upState_one _

theorem compress_N (ng : Fin k → ℝ) (i : Fin k) : compress hw ((buildMem D m' ng).N i) = (buildMem D m ng).N i := by
  rw [buildMem_N, buildMem_N]
  exact compress_single hw i _ _ (up_num hw i)

theorem compress_phi (ng : Fin k → ℝ) (i : Fin k) : compress hw ((buildMem D m' ng).phi i) = (buildMem D m ng).phi i := by
  rw [buildMem_phi, buildMem_phi]
  exact compress_single hw i _ _ (up_flux hw i)

theorem compress_cos (ng : Fin k → ℝ) (i : Fin nJ) (x : ℝ) :
    compress hw (cosOp (buildMem D m' ng) i x) = cosOp (buildMem D m ng) i x := by
  have h : compress hw ((buildMem D m' ng).exp i) = (buildMem D m ng).exp i :=
    compress_tens hw _ _ fun j => up_exp hw i j
  unfold cosOp
  rw [compress_smul, map_add, compress_conj, compress_smul, h]

theorem compress_lc (ng : Fin k → ℝ) : compress hw (lcHamil D (buildMem D m' ng)) = lcHamil D (buildMem D m ng) := by
  rw [lcHamil_pairs, lcHamil_pairs, map_sum]
  refine Finset.sum_congr rfl fun i _ => ?_
  rw [map_sum]
  refine Finset.sum_congr rfl fun j _ => ?_
  split
  · unfold lcPair
    split
    · split
      · rw [compress_smul, compress_QQ]
      · rw [compress_smul, compress_N]
    · rw [compress_smul, compress_QQ]
  · exact map_zero _

end

section
variable {nJ n b : ℕ}

/-- the Hamiltonian in a smaller charge basis is a principal submatrix of the Hamiltonian in the larger one -/
theorem compress_ham (C : Matrix (Fin n) (Fin n) ℝ) (M : Modes nJ n) (hk : M.keep.length ≤ n)
    {m m' : Fin M.keep.length → ℕ} (hw : Widens M.data m m') (ng : Fin M.keep.length → ℝ) (val : ElemId → ℝ)
    (phi : Fin b → ℝ) (inds : List (IndKey b)) (juns : List (JunKey b nJ)) (hv : ∀ key ∈ inds, ValidEdge n key.edge)
    {H : Op m} {H' : Op m'} (hH : fullHamiltonian C M m ng val phi inds juns = .ok H)
    (hH' : fullHamiltonian C M m' ng val phi inds juns = .ok H') :
    H = H'.submatrix (upIdx hw) (upIdx hw) := by
  unfold fullHamiltonian at hH hH'
  rw [hamiltonianOf_eq C M hk _ _ _ _ _ _ hv] at hH hH'
  rw [← Except.ok.inj hH, ← Except.ok.inj hH']
  show _ = compress hw _
  rw [map_add, map_add, compress_lc, map_list_sum, map_list_sum, List.map_map, List.map_map]
  congr 3
  · refine List.map_congr_left fun key hkey => ?_
    show _ = compress hw (_ • _)
    rw [compress_smul, indOpOf_eq C M hk _ (hv key hkey), indOpOf_eq C M hk _ (hv key hkey), map_sum]
    congr 1
    refine Finset.sum_congr rfl fun i _ => ?_
    rw [compress_smul, compress_phi]
  · refine List.map_congr_left fun key _ => ?_
    show _ = compress hw (_ • _)
    rw [compress_smul, compress_cos]

end

/-! ### bounds -/

section
variable {nJ k : ℕ}

theorem Bounded.tens {m : Fin k → ℕ} {A : Factors m} {K : Fin k → ℝ} (h : ∀ i, Bounded (A i) (K i)) :
    Bounded (SQ.tens A) (∏ i, K i) := by
  have key : ∀ f : ∀ i, Fin (m i) → ℝ, ∑ y : Idx m, ∏ i, f i (y i) = ∏ i, ∑ y, f i y := by
    intro f
    rw [Finset.prod_univ_sum, Fintype.piFinset_univ]
  constructor
  · intro x
    have : ∀ y : Idx m, ‖SQ.tens A x y‖ = ∏ i, ‖A i (x i) (y i)‖ := fun y => by
      unfold SQ.tens; rw [of_apply, norm_prod]
    simp only [this]
    rw [key (fun i y => ‖A i (x i) y‖)]
    exact Finset.prod_le_prod (fun i _ => Finset.sum_nonneg fun _ _ => norm_nonneg _) fun i _ => (h i).1 (x i)
  · intro y
    have : ∀ x : Idx m, ‖SQ.tens A x y‖ = ∏ i, ‖A i (x i) (y i)‖ := fun x => by
      unfold SQ.tens; rw [of_apply, norm_prod]
    simp only [this]
    rw [key (fun i x => ‖A i x (y i)‖)]
    exact Finset.prod_le_prod (fun i _ => Finset.sum_nonneg fun _ _ => norm_nonneg _) fun i _ => (h i).2 (y i)

theorem Bounded.one {ι : Type*} [Fintype ι] [DecidableEq ι] : Bounded (1 : Matrix ι ι ℂ) 1 := by
  constructor
  · intro a
    rw [Finset.sum_eq_single a]
    · simp
    · intro b _ hb; rw [one_apply_ne hb.symm]; simp
    · intro h; exact absurd (Finset.mem_univ _) h
  · intro a
    rw [Finset.sum_eq_single a]
    · simp
    · intro b _ hb; rw [one_apply_ne hb]; simp
    · intro h; exact absurd (Finset.mem_univ _) h

theorem Bounded.single {m : Fin k → ℕ} {i : Fin k} {A : Matrix (Fin (m i)) (Fin (m i)) ℂ} {K : ℝ} (h : Bounded A K) :
    Bounded (SQ.single m i A) K := by
  have := Bounded.tens (m := m) (A := Function.update (fun _ => 1) i A) (K := Function.update (fun _ => 1) i K) (fun j => by
    by_cases hj : j = i
    · subst hj; simpa using h
    · rw [Function.update_of_ne hj, Function.update_of_ne hj]; exact Bounded.one)
  rw [Finset.prod_update_of_mem (Finset.mem_univ _), Finset.prod_const_one, mul_one] at this
  exact this

theorem Bounded.dOp (N : ℕ) (w : ℝ) : Bounded (SQ.dOp N w) 1 := by
  have hd : Bounded (Matrix.of fun r c : Fin N => if (c : ℤ) - 1 = r then (1 : ℂ) else 0) 1 := by
    have key : ∀ (p : Fin N → Prop) [DecidablePred p], (∀ a b, p a → p b → a = b) →
        ∑ x, ‖(if p x then (1 : ℂ) else 0)‖ ≤ 1 := by
      intro p _ hp
      have : ∀ x, ‖(if p x then (1 : ℂ) else 0)‖ = if p x then (1 : ℝ) else 0 := fun x => by split <;> simp
      simp only [this]
      rw [Finset.sum_boole]
      have : (Finset.univ.filter p).card ≤ 1 := Finset.card_le_one.2 (fun a ha b hb =>
        hp a b (Finset.mem_filter.1 ha).2 (Finset.mem_filter.1 hb).2)
      exact_mod_cast this
    constructor
    · intro r
      exact key (fun c => (c : ℤ) - 1 = r) (fun a b h1 h2 => Fin.ext (by omega))
    · intro c
      exact key (fun r => (c : ℤ) - 1 = r) (fun a b h1 h2 => Fin.ext (by omega))
  unfold SQ.dOp
  split
  · exact Bounded.one
  · simp only
    split
    · exact hd
    · exact hd.conj

theorem Bounded.braket_re {ι : Type*} [Fintype ι] {A : Matrix ι ι ℂ} {K : ℝ} (h : Bounded A K) (v : ι → ℂ) :
    -K * nsq v ≤ (braket v A v).re := by
  have := (abs_le.1 ((abs_re_le_norm _).trans (h.braket_le v))).1
  linarith

/-- the bound of the exponential operator of a junction does not depend on the number of charge states -/
theorem bounded_exp (D : ModeData nJ k) (m0 : Fin k → ℕ) (i : Fin nJ) : ∃ K, ∀ (m : Fin k → ℕ) (ng : Fin k → ℝ),
    (∀ j, D.omega j ≠ 0 → m j = m0 j) → Bounded ((buildMem D m ng).exp i) K := by
  classical
  refine ⟨∏ j, if D.omega j = 0 then 1 else entrySum (expOfDim D i j (m0 j)), fun m ng hm => ?_⟩
  refine Bounded.tens fun j => ?_
  rw [expOfDim_eq]
  by_cases h : D.omega j = 0
  · rw [if_pos h]
    unfold expOfDim
    rw [if_pos h]
    exact Bounded.dOp _ _
  · rw [if_neg h, ← hm j h]
    exact Bounded.entry _

theorem bounded_phi (D : ModeData nJ k) (m0 : Fin k → ℕ) (i : Fin k) : ∃ K, ∀ (m : Fin k → ℕ) (ng : Fin k → ℝ),
    (∀ j, D.omega j ≠ 0 → m j = m0 j) → Bounded ((buildMem D m ng).phi i) K := by
  classical
  refine ⟨if D.omega i = 0 then 1 else entrySum (fluxOfDim D i (m0 i)), fun m ng hm => ?_⟩
  rw [buildMem_phi]
  refine Bounded.single ?_
  rw [fluxOfDim_eq]
  by_cases h : D.omega i = 0
  · rw [if_pos h]
    unfold fluxOfDim
    rw [if_pos h]
    exact Bounded.one
  · rw [if_neg h, ← hm i h]
    exact Bounded.entry _

theorem bounded_N (D : ModeData nJ k) (m0 : Fin k → ℕ) (i : Fin k) (h : D.omega i ≠ 0) :
    ∃ K, ∀ (m : Fin k → ℕ) (ng : Fin k → ℝ),
      (∀ j, D.omega j ≠ 0 → m j = m0 j) → Bounded ((buildMem D m ng).N i) K := by
  refine ⟨entrySum (numOfDim D i (m0 i)), fun m ng hm => ?_⟩
  rw [buildMem_N]
  refine Bounded.single ?_
  rw [numOfDim_eq, ← hm i h]
  exact Bounded.entry _

theorem bounded_cos (D : ModeData nJ k) (m0 : Fin k → ℕ) (i : Fin nJ) (x : ℝ) : ∃ K, ∀ (m : Fin k → ℕ) (ng : Fin k → ℝ),
    (∀ j, D.omega j ≠ 0 → m j = m0 j) → Bounded (cosOp (buildMem D m ng) i x) K := by
  obtain ⟨K, hK⟩ := bounded_exp D m0 i
  refine ⟨‖(1 / 2 : ℂ)‖ * (‖phase x‖ * K + ‖phase x‖ * K), fun m ng hm => ?_⟩
  unfold cosOp
  exact (((hK m ng hm).smul (phase x)).add ((hK m ng hm).smul (phase x)).conj).smul (1 / 2)

theorem braket_diagonal {ι : Type*} [Fintype ι] [DecidableEq ι] (d : ι → ℂ) (v : ι → ℂ) :
    braket v (diagonal d) v = ∑ a, d a * ((‖v a‖ ^ 2 : ℝ) : ℂ) := by
  unfold braket
  refine Finset.sum_congr rfl fun a _ => ?_
  rw [Finset.sum_eq_single a]
  · rw [diagonal_apply_eq]
    have : (starRingEnd ℂ) (v a) * v a = ((‖v a‖ ^ 2 : ℝ) : ℂ) := by
      rw [mul_comm, mul_conj, normSq_eq_norm_sq]
    rw [← this]; ring
  · intro b _ hb; rw [diagonal_apply_ne _ hb.symm]; ring
  · intro h; exact absurd (Finset.mem_univ _) h

/-- the charging energy is not negative -/
theorem charging_nonneg (D : ModeData nJ k) (hp : D.cInv.PosSemidef)
    (hu : ∀ i j, i ≠ j → D.omega i ≠ 0 → D.cInv i j = 0 ∧ D.cInv j i = 0) (m : Fin k → ℕ) (ng : Fin k → ℝ)
    (v : Idx m → ℂ) :
    0 ≤ (braket v ((1 / 2 : ℂ) • ∑ i, ∑ j, (open Classical in if i = j ∧ D.omega i ≠ 0 then 0
        else ((D.cInv i j : ℝ) : ℂ) • ((buildMem D m ng).Q i * (buildMem D m ng).Q j))) v).re := by
  classical
  let q : Idx m → Fin k → ℝ := fun x i => if D.omega i = 0 then
    2 * eCharge / √hbar * ((x i : ℝ) - ((m i : ℝ) - 1) / 2 - ng i) else 0
  have hQ : ∀ i, D.omega i = 0 → (buildMem D m ng).Q i = diagonal (fun x : Idx m => ((q x i : ℝ) : ℂ)) := by
    intro i hi
    rw [buildMem_Q, chargeOfDim_eq, chargeOfDim_charge hi, single_diagonal]
    congr 1
    funext x
    simp only [q, if_pos hi]
    push_cast
    ring
  have hop : ((1 / 2 : ℂ) • ∑ i, ∑ j, (if i = j ∧ D.omega i ≠ 0 then 0
        else ((D.cInv i j : ℝ) : ℂ) • ((buildMem D m ng).Q i * (buildMem D m ng).Q j)) : Op m) =
      diagonal (fun x : Idx m => ((1 / 2 * ∑ i, ∑ j, D.cInv i j * (q x i * q x j) : ℝ) : ℂ)) := by
    have : ∀ i j, (if i = j ∧ D.omega i ≠ 0 then 0
        else ((D.cInv i j : ℝ) : ℂ) • ((buildMem D m ng).Q i * (buildMem D m ng).Q j) : Op m) =
        diagonal (fun x : Idx m => ((D.cInv i j * (q x i * q x j) : ℝ) : ℂ)) := by
      intro i j
      by_cases hi : D.omega i = 0
      · by_cases hj : D.omega j = 0
        · rw [if_neg (fun h => h.2 hi), hQ i hi, hQ j hj, diagonal_mul_diagonal, ← diagonal_smul]
          congr 1
          funext x
          simp
        · have hij : i ≠ j := fun h => hj (h ▸ hi)
          rw [if_neg (fun h => h.2 hi), (hu j i hij.symm hj).2]
          simp
      · by_cases hij : i = j
        · rw [if_pos ⟨hij, hi⟩]
          have : ∀ x, q x i = 0 := fun x => by simp only [q, if_neg hi]
          simp [this]
        · rw [if_neg (fun h => hij h.1), (hu i j hij hi).1]
          simp
    simp only [this]
    ext x y
    rw [Matrix.smul_apply, Matrix.sum_apply]
    simp only [Matrix.sum_apply, diagonal_apply]
    by_cases hxy : x = y
    · subst hxy; simp
    · simp [hxy]
  rw [hop, braket_diagonal, re_sum]
  refine Finset.sum_nonneg fun x _ => ?_
  rw [← ofReal_mul, ofReal_re]
  refine mul_nonneg (mul_nonneg (by norm_num) ?_) (sq_nonneg _)
  have := hp.dotProduct_mulVec_nonneg (q x)
  simp only [star_trivial, dotProduct, mulVec, Finset.mul_sum] at this
  refine this.trans (le_of_eq ?_)
  exact Finset.sum_congr rfl fun i _ => Finset.sum_congr rfl fun j _ => by ring

end

section
variable {nJ n b : ℕ}

theorem braket_addOp {ι : Type*} [Fintype ι] (v : ι → ℂ) (A B : Matrix ι ι ℂ) :
    braket v (A + B) v = braket v A v + braket v B v := by
  unfold braket
  rw [← Finset.sum_add_distrib]
  refine Finset.sum_congr rfl fun a _ => ?_
  rw [← Finset.sum_add_distrib]
  refine Finset.sum_congr rfl fun b _ => ?_
  rw [Matrix.add_apply]; ring

/-- The Hamiltonian is bounded from below, whatever the number of charge states. -/
theorem ham_below (C : Matrix (Fin n) (Fin n) ℝ) (M : Modes nJ n) (hk : M.keep.length ≤ n)
    (hp : M.cInv.PosSemidef) (hu : ∀ i j, i ≠ j → M.omega i ≠ 0 → M.cInv i j = 0 ∧ M.cInv j i = 0)
    (m0 : Fin M.keep.length → ℕ) (ng : Fin M.keep.length → ℝ) (val : ElemId → ℝ)
    (phi : Fin b → ℝ) (inds : List (IndKey b)) (juns : List (JunKey b nJ)) (hv : ∀ key ∈ inds, ValidEdge n key.edge) :
    ∃ K : ℝ, ∀ m : Fin M.keep.length → ℕ, (∀ j, M.omega j ≠ 0 → m j = m0 j) → ∀ H : Op m,
      fullHamiltonian C M m ng val phi inds juns = .ok H → ∀ v, -K * nsq v ≤ (braket v H v).re := by
  classical
  choose Kp hKp using bounded_phi M.data m0
  choose Kc hKc using bounded_cos M.data m0
  have hN : ∀ i : Fin M.keep.length, ∃ K, ∀ (m : Fin M.keep.length → ℕ) (ng : Fin M.keep.length → ℝ),
      (∀ j, M.data.omega j ≠ 0 → m j = m0 j) →
      Bounded (if M.data.omega i ≠ 0 then ((M.data.omega i : ℝ) : ℂ) • (buildMem M.data m ng).N i else 0) K := by
    intro i
    by_cases h : M.data.omega i = 0
    · refine ⟨0, fun m ng _ => ?_⟩
      rw [if_neg (not_not.2 h)]
      exact Bounded.zero
    · obtain ⟨K, hK⟩ := bounded_N M.data m0 i h
      refine ⟨‖((M.data.omega i : ℝ) : ℂ)‖ * K, fun m ng hm => ?_⟩
      rw [if_pos h]
      exact (hK m ng hm).smul _
  choose Kn hKn using hN
  refine ⟨(inds.map fun key => ‖((1 / val key.el * phi key.bId * (Phi0 / 2 / Real.pi) / √hbar : ℝ) : ℂ)‖ *
      ∑ i : Fin M.keep.length,
        ‖((coupleAt "inductive" (fun r => M.S r ⟨i, lt_of_lt_of_le i.isLt hk⟩) key.edge : ℝ) : ℂ)‖ * Kp i).sum +
      (juns.map fun key => ‖-(val key.el : ℂ)‖ * Kc key.wId (phi key.bId)).sum + ∑ i, Kn i, ?_⟩
  intro m hm H hH v
  unfold fullHamiltonian at hH
  rw [hamiltonianOf_eq C M hk _ _ _ _ _ _ hv] at hH
  rw [← Except.ok.inj hH, C39_lc_hamiltonian M.data hp.isHermitian m ng, ← add_assoc, braket_addOp, add_re]
  have h1 := charging_nonneg M.data hp hu m ng v
  have h2 := Bounded.braket_re (((Bounded.listSum inds (K := fun key =>
      ‖((1 / val key.el * phi key.bId * (Phi0 / 2 / Real.pi) / √hbar : ℝ) : ℂ)‖ *
      ∑ i : Fin M.keep.length,
        ‖((coupleAt "inductive" (fun r => M.S r ⟨i, lt_of_lt_of_le i.isLt hk⟩) key.edge : ℝ) : ℂ)‖ * Kp i)
      (f := fun key => ((1 / val key.el * phi key.bId * (Phi0 / 2 / Real.pi) / √hbar : ℝ) : ℂ) •
        indOpOf C M (buildMem M.data m ng) key) (fun key hkey => by
        rw [indOpOf_eq C M hk _ (hv key hkey)]
        exact (Bounded.sum _ fun i _ => (hKp i m ng hm).smul _).smul _)).add
    (Bounded.listSum juns (f := fun key => (-(val key.el : ℂ)) • cosOp (buildMem M.data m ng) key.wId (phi key.bId))
      (fun key _ => (hKc key.wId (phi key.bId) m ng hm).smul _))).add
    (Bounded.sum Finset.univ fun i _ => hKn i m ng hm)) v
  linarith

end

end SQ
