import Verif.Spec.Symbolic
import Verif.Lemmas.Grad
import Verif.Props.Ops
import Verif.Lemmas.LcBuild
import Verif.Lemmas.LcState

/-!
# C70: the symbolic Hamiltonian of `description()`
-/

namespace SQ
open Matrix Real Spec

variable {n nJ k b nl : ℕ}

theorem create_destroy (N : ℕ) : qCreate N * qDestroy N = qNum N := by
  ext x y
  unfold qCreate qNum
  rw [mul_apply, diagonal_apply]
  simp only [conjTranspose_apply, qDestroy, of_apply]
  by_cases hx : (x : ℕ) = 0
  · rw [Finset.sum_eq_zero]
    · by_cases h : x = y
      · rw [if_pos h, hx]; simp
      · rw [if_neg h]
    · intro z _
      rw [if_neg (by omega)]; simp
  · have hz : (x : ℕ) - 1 < N := by have := x.isLt; omega
    rw [Finset.sum_eq_single ⟨(x : ℕ) - 1, hz⟩]
    · by_cases h : x = y
      · subst h
        rw [if_pos (by simp only; omega), if_pos rfl]
        simp only [RCLike.star_def, Complex.conj_ofReal]
        rw [← Complex.ofReal_mul, Real.mul_self_sqrt (by positivity)]
        simp
      · rw [if_neg h, if_neg (c := _ = (y : ℕ)) (by simp only; intro h2; exact h (Fin.ext (by omega)))]
        simp
    · intro z _ hne
      rw [if_neg (by intro h2; exact hne (Fin.ext (by simp only; omega)))]
      simp
    · intro h; exact absurd (Finset.mem_univ _) h

theorem onMode_eq (m : Fin k → ℕ) (i : Fin k) (A : Matrix (Fin (m i)) (Fin (m i)) ℂ) :
    onMode m i A = single m i A := rfl

theorem single_smul (m : Fin k → ℕ) (i : Fin k) (c : ℂ) (A : Matrix (Fin (m i)) (Fin (m i)) ℂ) :
    single m i (c • A) = c • single m i A := tens_update_smul _ _ _ _

theorem single_sub (m : Fin k → ℕ) (i : Fin k) (A B : Matrix (Fin (m i)) (Fin (m i)) ℂ) :
    single m i (A - B) = single m i A - single m i B := tens_update_sub _ _ _ _

/-- the number of harmonic modes, when they come first, separates harmonic from charge modes -/
theorem harDim_iff {k : ℕ} {omega : Fin k → ℝ} (h : ∀ i j, i ≤ j → omega i = 0 → omega j = 0) (i : Fin k) :
    open Classical in
    (i : ℕ) < (Finset.univ.filter (fun i => omega i ≠ 0)).card ↔ omega i ≠ 0 := by
  classical
  constructor
  · intro hlt h0
    have hsub : (Finset.univ.filter (fun i => omega i ≠ 0)) ⊆ Finset.univ.filter (fun j : Fin k => j < i) := by
      intro j hj
      rw [Finset.mem_filter] at hj ⊢
      refine ⟨Finset.mem_univ _, ?_⟩
      by_contra hc
      exact hj.2 (h i j (not_lt.1 hc) h0)
    have := Finset.card_le_card hsub
    have h2 : (Finset.univ.filter (fun j : Fin k => j < i)).card = i := by
      rw [Finset.filter_gt_eq_Iio]; simp
    rw [h2] at this
    have h3 : (i : ℕ) < (Finset.univ.filter (fun i => omega i ≠ 0)).card := by convert hlt
    omega
  · intro h0
    have hsub : Finset.univ.filter (fun j : Fin k => j ≤ i) ⊆ (Finset.univ.filter (fun i => omega i ≠ 0)) := by
      intro j hj
      rw [Finset.mem_filter] at hj ⊢
      refine ⟨Finset.mem_univ _, fun hc => h0 (h j i hj.2 hc)⟩
    have := Finset.card_le_card hsub
    have h2 : (Finset.univ.filter (fun j : Fin k => j ≤ i)).card = i + 1 := by
      rw [Finset.filter_ge_eq_Iic]; simp
    rw [h2] at this
    have h3 : (i : ℕ) < (Finset.univ.filter (fun i => omega i ≠ 0)).card := by omega
    convert h3

theorem sum_filter_finRange {V : Type*} [AddCommMonoid V] (p : Fin k → Bool) (f : Fin k → V) :
    (((List.finRange k).filter p).map f).sum = ∑ i, if p i then f i else 0 := by
  rw [← finRange_map_sum]
  induction List.finRange k with
  | nil => rfl
  | cons x xs ih =>
    rw [List.filter_cons]
    by_cases h : p x <;> simp [h, ih]

/-- the charge operators entering the symbolic Hamiltonian: `n_i - ng_j` -/
noncomputable def numOff (m : Fin k → ℕ) (ng : Fin k → ℝ) (i j : Fin k) : Op m :=
  single m i (qCharge (m i)) - ((ng j : ℝ) : ℂ) • 1

/-- the charging energy missing from (or in excess in) the symbolic Hamiltonian: for every pair of
charge modes i < j, (4e²/ħ) cInv_ij (n_i - ng_i)(n_j - n_i) -/
noncomputable def symDeviation (D : ModeData nJ k) (m : Fin k → ℕ) (ng : Fin k → ℝ) : Op m :=
  open Classical in
  ∑ i, ∑ j, if i < j ∧ D.omega i = 0 ∧ D.omega j = 0 then
    ((4 * eCharge ^ 2 / hbar * D.cInv i j : ℝ) : ℂ) •
      (numOff m ng i i * (single m j (qCharge (m j)) - single m i (qCharge (m i)))) else 0

theorem symCharge_Q (D : ModeData nJ k) (m : Fin k → ℕ) (ng : Fin k → ℝ) {i : Fin k} (hi : D.omega i = 0) :
    (buildMem D m ng).Q i = ((2 * eCharge / √hbar : ℝ) : ℂ) • numOff m ng i i := by
  rw [buildMem_Q]
  unfold chargeOpIso
  rw [if_pos hi, single_smul, single_sub, single_smul, single_one]
  rfl

/-- LC part of the Hamiltonian against the harmonic and charge terms of the symbolic one -/
theorem lc_symbolic (B : Build) (uf : ℝ) (huf : uf ≠ 0) (vals : ElemId → ℝ) (flux : LoopId → ℝ)
    (ng : Fin B.M.keep.length → ℝ) (m : Fin B.M.keep.length → ℕ)
    (hfirst : ∀ i j, i ≤ j → B.M.omega i = 0 → B.M.omega j = 0)
    (hdec : ∀ i j, i ≠ j → B.M.omega i ≠ 0 → B.M.cInv i j = 0) :
    lcHamil B.M.data (buildMem B.M.data m ng) =
      evalSum (B.descrip uf vals flux ng) uf m (harModeTerms (B.descrip uf vals flux ng)) +
      evalSum (B.descrip uf vals flux ng) uf m (chargeModeTerms (B.descrip uf vals flux ng)) +
      symDeviation B.M.data m ng := by
  classical
  set c := B.descrip uf vals flux ng with hc
  have hd : ∀ i : Fin B.M.keep.length, (i : ℕ) < c.harDim ↔ B.M.omega i ≠ 0 := fun i => harDim_iff hfirst i
  have h1 : evalSum c uf m (harModeTerms c) =
      ∑ i, if B.M.omega i = 0 then 0 else ((B.M.omega i : ℝ) : ℂ) • (buildMem B.M.data m ng).N i := by
    unfold evalSum harModeTerms
    rw [List.map_map, sum_filter_finRange]
    apply Finset.sum_congr rfl
    intro i _
    simp only [decide_eq_true_eq, hd, Function.comp]
    by_cases h0 : B.M.omega i = 0
    · rw [if_neg (not_not.2 h0), if_pos h0]
    · rw [if_pos h0, if_neg h0]
      simp only [evalSym, onMode_eq]
      rw [Matrix.smul_mul, Matrix.one_mul, Matrix.smul_mul, single_mul_self, create_destroy, buildMem_N]
      have e1 : numOpIso B.M.data m i = qNum (m i) := by unfold numOpIso; exact if_neg h0
      rw [e1]
      congr 2
      change 2 * π * uf * (B.M.omega i / (2 * π * uf)) = B.M.omega i
      field_simp
  have h2 : evalSum c uf m (chargeModeTerms c) =
      ∑ i, ∑ j, if B.M.omega i = 0 ∧ i ≤ j then
        ((4 * eCharge ^ 2 / hbar * quadCInv B.M.cInv i j : ℝ) : ℂ) • (numOff m ng i i * numOff m ng i j) else 0 := by
    unfold evalSum chargeModeTerms
    rw [List.map_flatMap, List.flatMap_def, List.sum_flatten, List.map_map, sum_filter_finRange]
    apply Finset.sum_congr rfl
    intro i _
    by_cases h0 : B.M.omega i = 0
    · have hp : c.harDim ≤ (i : ℕ) := by
        by_contra hcon
        exact (hd i).1 (by omega) h0
      simp only [decide_eq_true_eq, hp, if_true, Function.comp, List.map_map]
      rw [sum_filter_finRange]
      apply Finset.sum_congr rfl
      intro j _
      simp only [decide_eq_true_eq, h0, true_and]
      by_cases hij : i ≤ j
      · rw [if_pos hij, if_pos hij]
        simp only [Function.comp, evalSym, onMode_eq]
        rw [Matrix.smul_mul, Matrix.one_mul, Matrix.smul_mul]
        congr 2
        change 2 * π * uf * (((2 * eCharge) ^ 2 / (hbar * 2 * π * uf)) * quadCInv B.M.cInv i j) = _
        have := hbar_pos
        field_simp
        ring
      · rw [if_neg hij, if_neg hij]
    · have hp : ¬ c.harDim ≤ (i : ℕ) := by
        have := (hd i).2 h0
        omega
      simp only [decide_eq_true_eq, hp, if_false]
      rw [Finset.sum_eq_zero]
      intro j _
      rw [if_neg (fun h => h0 h.1)]
  rw [h1, h2, lcHamil_pairs]
  unfold symDeviation
  rw [← Finset.sum_add_distrib, ← Finset.sum_add_distrib]
  apply Finset.sum_congr rfl
  intro i _
  have h3 : (if B.M.omega i = 0 then 0 else ((B.M.omega i : ℝ) : ℂ) • (buildMem B.M.data m ng).N i) =
      ∑ j, if i = j then (if B.M.omega i = 0 then 0 else ((B.M.omega i : ℝ) : ℂ) • (buildMem B.M.data m ng).N i) else 0 := by
    rw [Finset.sum_ite_eq]; simp
  rw [h3, ← Finset.sum_add_distrib, ← Finset.sum_add_distrib]
  apply Finset.sum_congr rfl
  intro j _
  have hq : ((2 * eCharge / √hbar : ℝ) : ℂ) * ((2 * eCharge / √hbar : ℝ) : ℂ) = ((4 * eCharge ^ 2 / hbar : ℝ) : ℂ) := by
    rw [← Complex.ofReal_mul]
    congr 1
    rw [div_mul_div_comm, Real.mul_self_sqrt hbar_pos.le]
    ring
  unfold lcPair
  have hD : B.M.data.omega = B.M.omega := rfl
  have hD2 : B.M.data.cInv = B.M.cInv := rfl
  rw [hD, hD2]
  by_cases hij : i = j
  · subst hij
    simp only [le_refl, if_true, and_true, lt_irrefl, false_and, if_false, add_zero]
    by_cases h0 : B.M.omega i = 0
    · rw [if_pos h0, if_pos h0, if_pos h0, symCharge_Q B.M.data m ng h0, Matrix.smul_mul, Matrix.mul_smul,
        smul_smul, smul_smul, mul_assoc, hq, zero_add, ← Complex.ofReal_mul]
      congr 2
      unfold quadCInv
      simp only [of_apply, if_true]
      ring
    · rw [if_neg h0, if_neg h0, if_neg h0, add_zero]
  · rw [if_neg hij, if_neg hij, zero_add]
    by_cases hle : i ≤ j
    · have hlt : i < j := lt_of_le_of_ne hle hij
      rw [if_pos hle]
      by_cases h0 : B.M.omega i = 0
      · have h0j := hfirst i j hle h0
        rw [if_pos ⟨h0, hle⟩, if_pos ⟨hlt, h0, h0j⟩, symCharge_Q B.M.data m ng h0, symCharge_Q B.M.data m ng h0j,
          Matrix.smul_mul, Matrix.mul_smul, smul_smul, smul_smul, mul_assoc, hq, ← Complex.ofReal_mul]
        have e : quadCInv B.M.cInv i j = B.M.cInv i j := by unfold quadCInv; simp [hij]
        rw [e, mul_comm (B.M.cInv i j), ← smul_add, ← Matrix.mul_add]
        congr 2
        unfold numOff
        abel
      · rw [if_neg (fun h => h0 h.1), if_neg (fun h => h0 h.2.1), hdec i j hij h0]
        simp
    · rw [if_neg hle, if_neg (fun h => hle h.2), if_neg (fun h => hle h.1.le), add_zero]

/-! ### inductive part -/

theorem sum_filterMap_zipIdx {α β V : Type*} [AddCommMonoid V] (l : List α) (g : α × ℕ → Option β) (ev : β → V)
    (h : α → V) (hg : ∀ (x : α) (i : ℕ), l[i]? = some x → (g (x, i)).elim 0 ev = h x) :
    ((l.zipIdx.filterMap g).map ev).sum = (l.map h).sum := by
  have h1 : ∀ L : List (α × ℕ), ((L.filterMap g).map ev).sum = (L.map (fun q => (g q).elim 0 ev)).sum := by
    intro L
    induction L with
    | nil => rfl
    | cons q L ih =>
      rw [List.filterMap_cons]
      cases hq : g q with
      | none => simp [hq, ih]
      | some y => simp [hq, ih]
  rw [h1]
  have h2 : l.zipIdx.map (fun q => (g q).elim 0 ev) = l.zipIdx.map (h ∘ Prod.fst) := by
    apply List.map_congr_left
    rintro ⟨x, i⟩ hx
    exact hg x i (List.mk_mem_zipIdx_iff_getElem?.1 hx)
  rw [h2, ← List.map_map, List.zipIdx_map_fst]

theorem listed_map {α : Type*} (l : List α) (f : α → Except PyErr ℝ) {i : ℕ} {x : α} {v : ℝ} (h : l[i]? = some x)
    (hv : f x = .ok v) : listed (l.map f) i = v := by
  unfold listed
  rw [List.getElem?_map, h]
  simp [hv]

theorem indHz {v : ℝ} (hv : v ≠ 0) :
    indGetValue "Hz" ⟨v, 0⟩ = .ok ((Phi0 / 2 / π) ^ 2 / v / (2 * π * hbar)) := by
  unfold indGetValue
  have h1 : henryList.has "Hz" = false := by decide
  have h2 : freqList.has "Hz" = true := by decide
  have h3 : freqList.get "Hz" = .ok 1 := rfl
  rw [h1, h2, h3]
  simp [pyDiv, hv]

theorem jjHz (v : ℝ) : jjGetValue "Hz" ⟨v, 0⟩ = .ok v := by
  unfold jjGetValue
  have h2 : freqList.has "Hz" = true := by decide
  have h3 : freqList.get "Hz" = .ok 1 := rfl
  rw [h2, h3]
  simp [pyDiv]

theorem extPhase_eq (B : Build) (uf : ℝ) (vals : ElemId → ℝ) (flux : LoopId → ℝ)
    (ng : Fin B.M.keep.length → ℝ) (q : Fin B.nB) :
    extPhase (B.descrip uf vals flux ng) (B.B q) = B.fluxes flux q := by
  unfold extPhase Build.fluxes
  rw [extFlux_sum]
  apply Finset.sum_congr rfl
  intro l _
  change B.B q l * (2 * π * (flux (B.loops.get l) / 2 / π)) = _
  have := Real.pi_pos
  field_simp

theorem symW_eq (B : Build) (hk : B.M.keep.length ≤ B.n) (uf : ℝ) (vals : ElemId → ℝ) (flux : LoopId → ℝ)
    (ng : Fin B.M.keep.length → ℝ) {e : Edge} (he : ValidEdge B.n e) {i : Fin B.M.keep.length}
    (hi : (i : ℕ) < (B.descrip uf vals flux ng).harDim) :
    symW (B.descrip uf vals flux ng) e i =
      coupleAt "inductive" (fun r => B.M.S r ⟨i, lt_of_lt_of_le i.isLt hk⟩) e := by
  obtain ⟨x, y⟩ := e
  obtain ⟨hne, hx, hy⟩ := he
  simp only at hne hx hy
  have hi' : (i : ℕ) < B.n := lt_of_lt_of_le i.isLt hk
  have key : ∀ r, 1 ≤ r → r ≤ B.n → entryAt B.M.S (r - 1) i = pot (fun r => B.M.S r ⟨i, hi'⟩) r := by
    intro r h1 h2
    obtain ⟨r, rfl⟩ : ∃ a, r = a + 1 := ⟨r - 1, by omega⟩
    unfold entryAt pot
    rw [dif_pos ⟨by omega, hi'⟩]
    change _ = if h : r < B.n then B.M.S ⟨r, h⟩ ⟨i, hi'⟩ else 0
    rw [dif_pos (show r < B.n by omega)]
    rfl
  have hS : (B.descrip uf vals flux ng).S = B.M.S := rfl
  unfold symW coupleAt
  simp only [hi, if_true, hS]
  by_cases h0 : x = 0 ∨ y = 0
  · rw [if_pos h0, if_pos h0, key _ (by omega) (by omega)]
    congr 1
    omega
  · rw [if_neg h0, if_neg h0, if_neg (by decide), key _ (by omega) (by omega), key _ (by omega) (by omega)]

/-- flux operator of a harmonic mode against φ_zp (a + a†) -/
theorem zp_flux (D : ModeData nJ k) (m : Fin k → ℕ) {i : Fin k} (hi : D.omega i ≠ 0) :
    ((D.phiZp i : ℝ) : ℂ) • (qDestroy (m i) + qCreate (m i)) =
      ((2 * π / Phi0 * √hbar : ℝ) : ℂ) • fluxOpIso D m i := by
  unfold fluxOpIso
  rw [if_neg hi]
  by_cases h1 : m i = 1
  · rw [if_pos h1]
    have h0 : ∀ N : ℕ, N = 1 → qDestroy N = 0 := by
      rintro _ rfl
      ext x y
      simp [qDestroy]
    unfold qCreate
    rw [h0 _ h1]
    simp
  · rw [if_neg h1, smul_smul, ← Complex.ofReal_mul]
    congr 2
    unfold ModeData.phiZp
    rw [mul_assoc (2 * π / Phi0), ← Real.sqrt_mul hbar_pos.le]
    congr 2
    norm_num
    ring

theorem phase_factors (D : ModeData nJ k) (m : Fin k → ℕ) (c : Descrip n nJ k b nl) (q : Fin nJ)
    (hd : ∀ i : Fin k, (i : ℕ) < c.harDim ↔ D.omega i ≠ 0) (hz : ∀ i, c.phiZp i = D.phiZp i)
    (hw : ∀ i, D.omega i = 0 → D.w q i = -1 ∨ D.w q i = 0 ∨ D.w q i = 1) :
    modePhase c m (D.w q) = expFactor D m q := by
  funext i
  unfold modePhase expFactor
  by_cases h0 : D.omega i = 0
  · have hn : ¬ (i : ℕ) < c.harDim := fun h => (hd i).1 h h0
    rw [if_neg hn, if_pos h0]
    ext x y
    unfold dOp
    rw [of_apply]
    rcases hw i h0 with h | h | h
    · rw [h, if_neg (show ¬ (-1 : ℝ) = 0 by norm_num), if_pos (show (-1 : ℝ) < 0 by norm_num), of_apply]
      apply if_congr _ rfl rfl
      constructor
      · intro e
        have : ((x : ℕ) : ℝ) + 1 = (y : ℕ) := by rw [e]; ring
        have : (x : ℕ) + 1 = y := by exact_mod_cast this
        omega
      · intro e
        have : (x : ℕ) + 1 = y := by omega
        rw [← this]; push_cast; ring
    · rw [h, if_pos rfl, one_apply]
      apply if_congr _ rfl rfl
      rw [add_zero, Nat.cast_inj, Fin.ext_iff]
    · rw [h, if_neg (show ¬ (1 : ℝ) = 0 by norm_num), if_neg (show ¬ (1 : ℝ) < 0 by norm_num), conjTranspose_apply,
        of_apply]
      have e : (((x : ℕ) : ℝ) = (y : ℕ) + 1) ↔ ((x : ℕ) : ℤ) - 1 = ((y : ℕ) : ℤ) := by
        constructor
        · intro e
          have : (x : ℕ) = y + 1 := by exact_mod_cast e
          omega
        · intro e
          have : (x : ℕ) = y + 1 := by omega
          rw [this]; push_cast; ring
      by_cases hxy : ((x : ℕ) : ℤ) - 1 = ((y : ℕ) : ℤ)
      · rw [if_pos (e.2 hxy), if_pos hxy]; simp
      · rw [if_neg (fun h => hxy (e.1 h)), if_neg hxy]; simp
  · rw [if_pos ((hd i).2 h0), if_neg h0, hz]
    have hdis : qDisplace (m i) (D.alpha q i) =
        NormedSpace.exp ((Complex.I * ((D.w q i * D.phiZp i : ℝ) : ℂ)) • (qDestroy (m i) + qCreate (m i))) := by
      unfold qDisplace ModeData.alpha
      congr 1
      simp only [map_mul, Complex.conj_I, Complex.conj_ofReal]
      rw [add_comm (qDestroy (m i)), smul_add, sub_eq_add_neg, ← neg_smul]
      congr 2
      · push_cast; ring
      · push_cast; ring
    by_cases h1 : m i = 1
    · rw [if_pos h1]
      have h0' : ∀ N : ℕ, N = 1 → qDestroy N = 0 := by
        rintro _ rfl
        ext x y
        simp [qDestroy]
      unfold qCreate
      rw [h0' _ h1]
      simp
    · rw [if_neg h1, hdis]

/-- C70: for circuits whose harmonic modes come first and are capacitively decoupled (all constructed
circuits, C78), whose charge modes do not enter the inductors (C34) and have junction couplings -1, 0 or 1
(C28), the Hamiltonian is the symbolic one of `description()` plus, for every pair of charge modes
i < j, the term (4e²/ħ) cInv_ij (n_i - ng_i)(n_j - n_i). -/
theorem C70_deviation (B : Build) (uf : ℝ) (huf : uf ≠ 0) (vals : ElemId → ℝ) (flux : LoopId → ℝ)
    (ng : Fin B.M.keep.length → ℝ) (m : Fin B.M.keep.length → ℕ) (hk : B.M.keep.length ≤ B.n)
    (hfirst : ∀ i j, i ≤ j → B.M.omega i = 0 → B.M.omega j = 0)
    (hdec : ∀ i j, i ≠ j → B.M.omega i ≠ 0 → B.M.cInv i j = 0)
    (hind : ∀ key ∈ B.inds, ValidEdge B.n key.edge ∧ vals key.el ≠ 0 ∧ ∀ i, B.M.omega i = 0 →
      coupleAt "inductive" (fun r => B.M.S r ⟨i, lt_of_lt_of_le i.isLt hk⟩) key.edge = 0)
    (hjun : ∀ key ∈ B.juns, ∀ i, B.M.omega i = 0 →
      B.M.w key.wId i = -1 ∨ B.M.w key.wId i = 0 ∨ B.M.w key.wId i = 1) :
    let c := B.descrip uf vals flux ng
    fullHamiltonian B.C B.M m ng vals (B.fluxes flux) B.inds B.juns =
      .ok (evalSum c uf m (constructHamiltonian c B.inds B.juns) + symDeviation B.M.data m ng) := by
  classical
  intro c
  have hd : ∀ i : Fin B.M.keep.length, (i : ℕ) < c.harDim ↔ B.M.omega i ≠ 0 := fun i => harDim_iff hfirst i
  have hI : evalSum c uf m (inductiveTerms c B.inds) = (B.inds.map (fun key =>
      ((1 / vals key.el * B.fluxes flux key.bId * (Phi0 / 2 / π) / √hbar : ℝ) : ℂ) •
        ∑ i : Fin B.M.keep.length,
          ((coupleAt "inductive" (fun r => B.M.S r ⟨i, lt_of_lt_of_le i.isLt hk⟩) key.edge : ℝ) : ℂ) •
            (buildMem B.M.data m ng).phi i)).sum := by
    unfold evalSum inductiveTerms
    apply sum_filterMap_zipIdx
    intro key i hi
    obtain ⟨hv, hval, hch⟩ := hind key (List.mem_of_getElem? hi)
    by_cases hB : ∑ l, |c.B key.bId l| = 0
    · rw [if_pos hB]
      have h0 : B.fluxes flux key.bId = 0 := by
        unfold Build.fluxes
        rw [extFlux_sum]
        apply Finset.sum_eq_zero
        intro l hl
        have := (Finset.sum_eq_zero_iff_of_nonneg (fun l _ => abs_nonneg _)).1 hB l hl
        rw [abs_eq_zero] at this
        change B.B key.bId l = 0 at this
        rw [this, mul_zero]
      rw [h0]
      simp
    · rw [if_neg hB]
      simp only [Option.elim, evalSym]
      have hEL : listed c.EL i = (Phi0 / 2 / π) ^ 2 / vals key.el / (2 * π * hbar) / uf := by
        apply listed_map B.inds _ hi
        rw [indHz hval]
      have hφ : (∑ j : Fin B.M.keep.length, if (j : ℕ) < c.harDim then
            ((symW c key.edge j * c.phiZp j : ℝ) : ℂ) • onMode m j (qDestroy (m j) + qCreate (m j)) else 0) =
          ((2 * π / Phi0 * √hbar : ℝ) : ℂ) • ∑ j : Fin B.M.keep.length,
            ((coupleAt "inductive" (fun r => B.M.S r ⟨j, lt_of_lt_of_le j.isLt hk⟩) key.edge : ℝ) : ℂ) •
              (buildMem B.M.data m ng).phi j := by
        rw [Finset.smul_sum]
        apply Finset.sum_congr rfl
        intro j _
        by_cases h0 : B.M.omega j = 0
        · rw [if_neg (fun h => (hd j).1 h h0), hch j h0]
          simp
        · have hj := (hd j).2 h0
          rw [if_pos hj, symW_eq B hk uf vals flux ng hv hj, onMode_eq, Complex.ofReal_mul, mul_smul,
            ← single_smul, show c.phiZp j = B.M.data.phiZp j from rfl, zp_flux B.M.data m h0, single_smul,
            buildMem_phi, smul_comm]
      have hP : extPhase c (c.B key.bId) = B.fluxes flux key.bId := extPhase_eq B uf vals flux ng key.bId
      rw [hφ, hEL, hP]
      rw [Matrix.smul_mul, Matrix.one_mul, Matrix.mul_smul, Matrix.mul_one, smul_smul, smul_smul,
        ← Complex.ofReal_mul, ← Complex.ofReal_mul]
      congr 2
      have h1 := hbar_pos
      have h2 := Phi0_pos
      have h3 := Real.pi_pos
      have h4 : √hbar ≠ 0 := (Real.sqrt_pos.2 h1).ne'
      have h5 : hbar = √hbar * √hbar := (Real.mul_self_sqrt h1.le).symm
      generalize √hbar = s at h4 h5 ⊢
      rw [h5]
      field_simp
  have hJ : evalSum c uf m (jjTerms c B.juns) = (B.juns.map (fun key =>
      (-(vals key.el : ℂ)) • cosOp (buildMem B.M.data m ng) key.wId (B.fluxes flux key.bId))).sum := by
    unfold evalSum jjTerms
    have := sum_filterMap_zipIdx B.juns (fun q => some (SymExpr.mul (.neg (.EJ q.2))
      (.cos (.add (.phis (c.W q.1.wId)) (.exts (c.B q.1.bId)))))) (evalSym c uf m) (fun key =>
      (-(vals key.el : ℂ)) • cosOp (buildMem B.M.data m ng) key.wId (B.fluxes flux key.bId)) ?_
    · rw [← this]
      congr 2
      exact (List.filterMap_eq_map (f := fun q : JunKey B.nB B.nJ × ℕ => SymExpr.mul (.neg (.EJ q.2))
        (.cos (.add (.phis (c.W q.1.wId)) (.exts (c.B q.1.bId)))))).symm ▸ rfl
    · intro key i hi
      simp only [Option.elim, evalSym]
      have hEJ : listed c.EJ i = vals key.el / (2 * π * uf) := by
        apply listed_map B.juns _ hi
        rw [jjHz]
      have hE : modePhase c m (c.W key.wId) = expFactor B.M.data m key.wId :=
        phase_factors B.M.data m c key.wId hd (fun _ => rfl) (hjun key (List.mem_of_getElem? hi))
      have hP : extPhase c (c.B key.bId) = B.fluxes flux key.bId := extPhase_eq B uf vals flux ng key.bId
      rw [hE, hP, hEJ, Matrix.neg_mul, Matrix.smul_mul, Matrix.one_mul, ← neg_smul]
      congr 2
      have h3 := Real.pi_pos
      congr 1
      field_simp
  unfold fullHamiltonian hamiltonianOf indHamil
  simp only
  rw [indTerms_ok B.C B.M hk _ vals _ B.inds (fun key hkey => (hind key hkey).1)]
  simp only
  rw [junTerms_eq, lc_symbolic B uf huf vals flux ng m hfirst hdec, ← hI, ← hJ]
  congr 1
  have hsplit : evalSum c uf m (constructHamiltonian c B.inds B.juns) =
      evalSum c uf m (harModeTerms c) + evalSum c uf m (chargeModeTerms c) +
      evalSum c uf m (inductiveTerms c B.inds) + evalSum c uf m (jjTerms c B.juns) := by
    unfold evalSum constructHamiltonian
    simp only [List.map_append, List.sum_append]
  rw [hsplit]
  abel

theorem symDeviation_zero (D : ModeData nJ k) (m : Fin k → ℕ) (ng : Fin k → ℝ)
    (h : ∀ i j, i < j → D.omega i = 0 → D.omega j = 0 → D.cInv i j = 0) : symDeviation D m ng = 0 := by
  unfold symDeviation
  apply Finset.sum_eq_zero
  intro i _
  apply Finset.sum_eq_zero
  intro j _
  split
  · rename_i h'
    rw [h i j h'.1 h'.2.1 h'.2.2]; simp
  · rfl

/-- C70: the symbolic Hamiltonian is the numerical one when no two charge modes are capacitively coupled
(in particular with at most one charge mode).  Missing: coupled charge modes, where it is false
(`C70_refuted`). -/
theorem C70_partial (B : Build) (uf : ℝ) (huf : uf ≠ 0) (vals : ElemId → ℝ) (flux : LoopId → ℝ)
    (ng : Fin B.M.keep.length → ℝ) (m : Fin B.M.keep.length → ℕ) (hk : B.M.keep.length ≤ B.n)
    (hfirst : ∀ i j, i ≤ j → B.M.omega i = 0 → B.M.omega j = 0)
    (hdec : ∀ i j, i ≠ j → B.M.omega i ≠ 0 → B.M.cInv i j = 0)
    (hind : ∀ key ∈ B.inds, ValidEdge B.n key.edge ∧ vals key.el ≠ 0 ∧ ∀ i, B.M.omega i = 0 →
      coupleAt "inductive" (fun r => B.M.S r ⟨i, lt_of_lt_of_le i.isLt hk⟩) key.edge = 0)
    (hjun : ∀ key ∈ B.juns, ∀ i, B.M.omega i = 0 →
      B.M.w key.wId i = -1 ∨ B.M.w key.wId i = 0 ∨ B.M.w key.wId i = 1)
    (hunc : ∀ i j, i < j → B.M.omega i = 0 → B.M.omega j = 0 → B.M.cInv i j = 0) :
    let c := B.descrip uf vals flux ng
    fullHamiltonian B.C B.M m ng vals (B.fluxes flux) B.inds B.juns =
      .ok (evalSum c uf m (constructHamiltonian c B.inds B.juns)) := by
  intro c
  have h0 : symDeviation B.M.data m ng = 0 := symDeviation_zero _ m ng hunc
  have := C70_deviation B uf huf vals flux ng m hk hfirst hdec hind hjun
  simp only [h0, add_zero] at this
  exact this

/-- charge number of mode `p` in the basis state `x` -/
noncomputable def chargeOf {m : Fin k → ℕ} (x : Idx m) (p : Fin k) : ℂ := ((x p : ℕ) : ℂ) - ((m p : ℂ) - 1) / 2

theorem symDeviation_diag (D : ModeData nJ k) (m : Fin k → ℕ) (ng : Fin k → ℝ) (x : Idx m) :
    open Classical in
    symDeviation D m ng x x = ∑ i, ∑ j, if i < j ∧ D.omega i = 0 ∧ D.omega j = 0 then
      ((4 * eCharge ^ 2 / hbar * D.cInv i j : ℝ) : ℂ) * ((chargeOf x i - ng i) * (chargeOf x j - chargeOf x i)) else 0 := by
  classical
  have hs : ∀ p, single m p (qCharge (m p)) = diagonal (fun x : Idx m => chargeOf x p) := by
    intro p
    unfold qCharge
    rw [single_diagonal]
    rfl
  unfold symDeviation
  rw [Matrix.sum_apply]
  apply Finset.sum_congr rfl
  intro i _
  rw [Matrix.sum_apply]
  apply Finset.sum_congr rfl
  intro j _
  split
  · unfold numOff
    rw [hs, hs, ← diagonal_one, ← diagonal_smul, diagonal_sub, diagonal_sub, diagonal_mul_diagonal, Matrix.smul_apply,
      diagonal_apply_eq]
    simp
  · rfl

theorem symDeviation_ne (D : ModeData nJ k) (m : Fin k → ℕ) (ng : Fin k → ℝ) (hpos : ∀ i, 1 ≤ m i) {i j : Fin k}
    (hij : i < j) (hi : D.omega i = 0) (hj : D.omega j = 0) (hmi : 2 ≤ m i) (hmj : 2 ≤ m j) (hc : D.cInv i j ≠ 0) :
    symDeviation D m ng ≠ 0 := by
  classical
  intro h0
  let x : ℕ → ℕ → Idx m := fun a b p =>
    if hp : p = i ∧ a < 2 then ⟨a, hp.1 ▸ lt_of_lt_of_le hp.2 hmi⟩
    else if hp : p = j ∧ b < 2 then ⟨b, hp.1 ▸ lt_of_lt_of_le hp.2 hmj⟩ else ⟨0, hpos p⟩
  have hxi : ∀ a b, a < 2 → ((x a b i : ℕ)) = a := by
    intro a b ha
    simp only [x]
    rw [dif_pos ⟨trivial, ha⟩]
  have hxj : ∀ a b, b < 2 → ((x a b j : ℕ)) = b := by
    intro a b hb
    simp only [x]
    rw [dif_neg (fun h => hij.ne' h.1), dif_pos ⟨trivial, hb⟩]
  have hxo : ∀ a b p, p ≠ i → p ≠ j → ((x a b p : ℕ)) = 0 := by
    intro a b p h1 h2
    simp only [x]
    rw [dif_neg (fun h => h1 h.1), dif_neg (fun h => h2 h.1)]
  have hz : ∀ a b, symDeviation D m ng (x a b) (x a b) = 0 := by intro a b; rw [h0]; rfl
  let t : ℕ → ℕ → Fin k → Fin k → ℂ := fun a b p q => if p < q ∧ D.omega p = 0 ∧ D.omega q = 0 then
      ((4 * eCharge ^ 2 / hbar * D.cInv p q : ℝ) : ℂ) *
        ((chargeOf (x a b) p - ng p) * (chargeOf (x a b) q - chargeOf (x a b) p)) else 0
  have hsum : ∀ a b, ∑ p, ∑ q, t a b p q = 0 := by
    intro a b
    rw [← hz a b, symDeviation_diag]
  have hmix : ∑ p, ∑ q, (t 1 1 p q - t 1 0 p q - t 0 1 p q + t 0 0 p q) = 0 := by
    simp only [Finset.sum_add_distrib, Finset.sum_sub_distrib, hsum]
    simp
  have hone : ∀ p q, t 1 1 p q - t 1 0 p q - t 0 1 p q + t 0 0 p q =
      if p = i ∧ q = j then ((4 * eCharge ^ 2 / hbar * D.cInv i j : ℝ) : ℂ) else 0 := by
    intro p q
    simp only [t]
    by_cases hpq : p < q ∧ D.omega p = 0 ∧ D.omega q = 0
    · simp only [if_pos hpq, chargeOf]
      by_cases hp : p = i
      · subst hp
        by_cases hq : q = j
        · subst hq
          rw [if_pos ⟨rfl, rfl⟩, hxi 1 1 (by omega), hxi 1 0 (by omega), hxi 0 1 (by omega), hxi 0 0 (by omega),
            hxj 1 1 (by omega), hxj 1 0 (by omega), hxj 0 1 (by omega), hxj 0 0 (by omega)]
          push_cast
          ring
        · rw [if_neg (fun h => hq h.2), hxi 1 1 (by omega), hxi 1 0 (by omega), hxi 0 1 (by omega),
            hxi 0 0 (by omega), hxo 1 1 q hpq.1.ne' hq, hxo 1 0 q hpq.1.ne' hq, hxo 0 1 q hpq.1.ne' hq,
            hxo 0 0 q hpq.1.ne' hq]
          ring
      · rw [if_neg (fun h => hp h.1)]
        by_cases hpj : p = j
        · subst hpj
          have hqi : q ≠ i := (lt_trans hij hpq.1).ne'
          rw [hxj 1 1 (by omega), hxj 1 0 (by omega), hxj 0 1 (by omega),
            hxj 0 0 (by omega), hxo 1 1 q hqi hpq.1.ne', hxo 1 0 q hqi hpq.1.ne', hxo 0 1 q hqi hpq.1.ne',
            hxo 0 0 q hqi hpq.1.ne']
          ring
        · rw [hxo 1 1 p hp hpj, hxo 1 0 p hp hpj, hxo 0 1 p hp hpj, hxo 0 0 p hp hpj]
          by_cases hqi : q = i
          · subst hqi
            rw [hxi 1 1 (by omega), hxi 1 0 (by omega), hxi 0 1 (by omega), hxi 0 0 (by omega)]
            ring
          · by_cases hqj : q = j
            · subst hqj
              rw [hxj 1 1 (by omega), hxj 1 0 (by omega), hxj 0 1 (by omega), hxj 0 0 (by omega)]
              ring
            · rw [hxo 1 1 q hqi hqj, hxo 1 0 q hqi hqj, hxo 0 1 q hqi hqj, hxo 0 0 q hqi hqj]
              ring
    · simp only [if_neg hpq]
      rw [if_neg]
      · ring
      · rintro ⟨rfl, rfl⟩
        exact hpq ⟨hij, hi, hj⟩
  simp only [hone] at hmix
  rw [Finset.sum_eq_single i, Finset.sum_eq_single j, if_pos ⟨rfl, rfl⟩] at hmix
  · rw [Complex.ofReal_eq_zero] at hmix
    have h1 := hbar_pos
    have h2 := eCharge_pos
    have : 4 * eCharge ^ 2 / hbar ≠ 0 := by positivity
    exact (mul_ne_zero this hc) hmix
  · intro q _ hq; exact if_neg (fun h => hq h.2)
  · intro h; exact absurd (Finset.mem_univ _) h
  · intro p _ hp
    exact Finset.sum_eq_zero (fun q _ => if_neg (fun h => hp h.1))
  · intro h; exact absurd (Finset.mem_univ _) h

/-- The deviation vanishes only if it has no coupled pair: whenever two charge modes i < j with at least two
charge states each are capacitively coupled, the symbolic Hamiltonian is not the numerical one. -/
theorem C70_refuted (B : Build) (uf : ℝ) (huf : uf ≠ 0) (vals : ElemId → ℝ) (flux : LoopId → ℝ)
    (ng : Fin B.M.keep.length → ℝ) (m : Fin B.M.keep.length → ℕ) (hk : B.M.keep.length ≤ B.n)
    (hfirst : ∀ i j, i ≤ j → B.M.omega i = 0 → B.M.omega j = 0)
    (hdec : ∀ i j, i ≠ j → B.M.omega i ≠ 0 → B.M.cInv i j = 0)
    (hind : ∀ key ∈ B.inds, ValidEdge B.n key.edge ∧ vals key.el ≠ 0 ∧ ∀ i, B.M.omega i = 0 →
      coupleAt "inductive" (fun r => B.M.S r ⟨i, lt_of_lt_of_le i.isLt hk⟩) key.edge = 0)
    (hjun : ∀ key ∈ B.juns, ∀ i, B.M.omega i = 0 →
      B.M.w key.wId i = -1 ∨ B.M.w key.wId i = 0 ∨ B.M.w key.wId i = 1)
    (hpos : ∀ i, 1 ≤ m i) (i j : Fin B.M.keep.length) (hij : i < j) (hi : B.M.omega i = 0)
    (hmi : 2 ≤ m i) (hmj : 2 ≤ m j) (hc : B.M.cInv i j ≠ 0) :
    let c := B.descrip uf vals flux ng
    fullHamiltonian B.C B.M m ng vals (B.fluxes flux) B.inds B.juns ≠
      .ok (evalSum c uf m (constructHamiltonian c B.inds B.juns)) := by
  intro c heq
  have := C70_deviation B uf huf vals flux ng m hk hfirst hdec hind hjun
  simp only at this
  rw [heq] at this
  have h0 : symDeviation B.M.data m ng = 0 := by
    have h1 := Except.ok.inj this
    exact (left_eq_add.1 h1)
  exact symDeviation_ne B.M.data m ng hpos hij hi (hfirst i j hij.le hi) hmi hmj hc h0

end SQ
