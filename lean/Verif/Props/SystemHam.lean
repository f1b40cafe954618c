import Verif.Props.System
import Verif.Props.Ops

/-!
# Property C68: the Hamiltonian of a system
-/

namespace SQ
open Matrix Spec

/-- What is known of diagonalized circuits: symmetric capacitance matrix, Hermitian charge operators. -/
structure SubOK (S : SubCirc) : Prop where
  symm : ∀ p q, S.C p q = S.C q p
  herm : ∀ i, (S.Q i)ᴴ = S.Q i

theorem modeCharge_herm {sub : CircId → SubCirc} {cs : List CircId} (h : ∀ c ∈ cs, SubOK (sub c))
    (x : ModeIx sub cs) : (modeCharge sub cs x)ᴴ = modeCharge sub cs x := by
  unfold modeCharge
  rw [opInSys_single, single_conjTranspose]
  congr 1
  exact (h _ (List.get_mem _ _)).herm _

theorem modeCharge_comm {sub : CircId → SubCirc} {cs : List CircId}
    (h : ∀ c ∈ cs, ∀ i < (sub c).n, ∀ j < (sub c).n, Commute ((sub c).Q i) ((sub c).Q j)) (x y : ModeIx sub cs) :
    modeCharge sub cs x * modeCharge sub cs y = modeCharge sub cs y * modeCharge sub cs x := by
  obtain ⟨s, i⟩ := x
  obtain ⟨t, j⟩ := y
  by_cases hst : s = t
  · subst hst
    unfold modeCharge
    rw [opInSys_single, opInSys_single, single_mul_self, single_mul_self]
    congr 1
    exact (h _ (List.get_mem _ _) _ i.2 _ j.2).eq
  · exact C67_commute hst _ _

/-- coefficients of the interaction: Rᵀ (C⁻¹ − C₀⁻¹) R -/
noncomputable def interactionCoef (sub : CircId → SubCirc) (cps : List Couple) (M : ℕ → ℕ → ℝ) : ℕ → ℕ → ℝ :=
  transCoef (blockDiag ((getAllCircuits cps).map (fun c => ((sub c).nodes, (sub c).R))))
    ((toMat (sysNodes sub (getAllCircuits cps)) M)⁻¹
      - (toMat (sysNodes sub (getAllCircuits cps)) (bareCap sub (getAllCircuits cps)))⁻¹)

theorem hInt_ok {sub : CircId → SubCirc} {cps : List Couple} {u : ℝ} {X : Op (sysDims sub (getAllCircuits cps))}
    (h : hInt sub cps u = .ok X) :
    ∃ M, capMatrix sub cps = .ok M ∧ X = ((1 / (2 * Real.pi * u) : ℝ) : ℂ) •
      sysQuadQ sub (getAllCircuits cps) (interactionCoef sub cps M) := by
  simp only [hInt] at h
  split at h
  · exact absurd h (by simp)
  · rename_i M hM
    refine ⟨M, hM, ?_⟩
    split at h
    · exact absurd h (by simp)
    · rename_i Ci hCi
      split at h
      · exact absurd h (by simp)
      · rename_i C0 hC0
        cases h
        unfold npInv at hCi hC0
        split at hCi
        · exact absurd hCi (by simp)
        · split at hC0
          · exact absurd hC0 (by simp)
          · cases hCi; cases hC0
            rfl

theorem interactionCoef_symm {sub : CircId → SubCirc} {cps : List Couple} {M : ℕ → ℕ → ℝ}
    (hok : ∀ c ∈ getAllCircuits cps, SubOK (sub c)) (hM : capMatrix sub cps = .ok M) (a b : ℕ) :
    interactionCoef sub cps M a b = interactionCoef sub cps M b a := by
  have hs := C66_symmetric sub cps (fun c hc => (hok c hc).symm) hM
  have h0 := bareCap_symm (fun c hc => (hok c hc).symm)
  refine transCoef_symm _ ?_ a b
  have e1 : (toMat (sysNodes sub (getAllCircuits cps)) M)ᵀ = toMat (sysNodes sub (getAllCircuits cps)) M := by
    ext p q; exact hs q p
  have e2 : (toMat (sysNodes sub (getAllCircuits cps)) (bareCap sub (getAllCircuits cps)))ᵀ
      = toMat (sysNodes sub (getAllCircuits cps)) (bareCap sub (getAllCircuits cps)) := by
    ext p q; exact h0 q p
  rw [Matrix.transpose_sub, Matrix.transpose_nonsing_inv, Matrix.transpose_nonsing_inv, e1, e2]

theorem sysQuadQ_modes (sub : CircId → SubCirc) (cs : List CircId) (hnd : cs.Nodup) (A : ℕ → ℕ → ℝ) :
    sysQuadQ sub cs A = ∑ x : ModeIx sub cs, ∑ y : ModeIx sub cs,
      (if modeIdx sub cs x = modeIdx sub cs y then (1 / 2 : ℂ) • ((A (modeIdx sub cs x) (modeIdx sub cs y) : ℝ) : ℂ) •
          (modeCharge sub cs x * modeCharge sub cs y)
        else if modeIdx sub cs x < modeIdx sub cs y then
          ((A (modeIdx sub cs x) (modeIdx sub cs y) : ℝ) : ℂ) • (modeCharge sub cs x * modeCharge sub cs y)
        else 0) := by
  unfold sysQuadQ
  rw [sum_modes sub cs hnd]
  refine Finset.sum_congr rfl (fun x _ => ?_)
  rw [sum_modes sub cs hnd]
  refine Finset.sum_congr rfl (fun y _ => ?_)
  rw [sysQQ_eq sub cs hnd]
  by_cases h : modeIdx sub cs x = modeIdx sub cs y
  · rw [if_pos h, if_pos h, smul_smul, h]
    congr 1
    push_cast
    norm_num
  · rw [if_neg h, if_neg h]

theorem upper_sum' {ι β : Type*} [Fintype ι] [AddCommGroup β] [Module ℂ β] (f : ι → ℕ) (hf : Function.Injective f)
    (h : ι → ι → β) (hs : ∀ i j, h i j = h j i) :
    ∑ i, ∑ j, (if f i = f j then (1 / 2 : ℂ) • h i j else if f i < f j then h i j else 0)
      = (1 / 2 : ℂ) • ∑ i, ∑ j, h i j := by
  let _ : LinearOrder ι := LinearOrder.lift' f hf
  have := upper_sum Finset.univ h (fun i _ j _ => hs i j)
  rw [← this]
  refine Finset.sum_congr rfl (fun i _ => Finset.sum_congr rfl (fun j _ => ?_))
  by_cases hij : i = j
  · rw [if_pos (congrArg f hij), if_pos hij]
  · rw [if_neg (fun h => hij (hf h)), if_neg hij]
    rfl

/-- The interaction Hamiltonian is ½ Σ A_xy Q_x Q_y over all pairs of modes, with
A = Rᵀ (C⁻¹ − C₀⁻¹) R, the difference of the capacitive energies with and without the coupling
capacitors — if the charge operators of every circuit commute. -/
theorem C68_quadratic_partial (sub : CircId → SubCirc) (cps : List Couple) (u : ℝ)
    (hok : ∀ c ∈ getAllCircuits cps, SubOK (sub c))
    (hcomm : ∀ c ∈ getAllCircuits cps, ∀ i < (sub c).n, ∀ j < (sub c).n,
      Commute ((sub c).Q i) ((sub c).Q j))
    {X : Op (sysDims sub (getAllCircuits cps))} (h : hInt sub cps u = .ok X) :
    ∃ M, capMatrix sub cps = .ok M ∧ X = ((1 / (2 * Real.pi * u) : ℝ) : ℂ) • (1 / 2 : ℂ) •
      ∑ x : ModeIx sub (getAllCircuits cps), ∑ y : ModeIx sub (getAllCircuits cps),
        ((interactionCoef sub cps M (modeIdx sub _ x) (modeIdx sub _ y) : ℝ) : ℂ) •
          (modeCharge sub _ x * modeCharge sub _ y) := by
  obtain ⟨M, hM, rfl⟩ := hInt_ok h
  refine ⟨M, hM, ?_⟩
  have hnd := (C65_circuits cps).1
  rw [sysQuadQ_modes sub _ hnd]
  congr 1
  refine upper_sum' (modeIdx sub (getAllCircuits cps)) (modeIdx_inj sub _ hnd)
    (fun x y => ((interactionCoef sub cps M (modeIdx sub _ x) (modeIdx sub _ y) : ℝ) : ℂ) •
          (modeCharge sub _ x * modeCharge sub _ y)) (fun x y => ?_)
  rw [modeCharge_comm hcomm x y, interactionCoef_symm hok hM]

theorem hLocal_herm (sub : CircId → SubCirc) (cs : List CircId) : (hLocal sub cs)ᴴ = hLocal sub cs := by
  unfold hLocal
  rw [Matrix.conjTranspose_sum]
  refine Finset.sum_congr rfl (fun s _ => ?_)
  rw [opInSys_single, single_conjTranspose]
  congr 1
  rw [Matrix.diagonal_conjTranspose]
  congr 1
  funext i
  simp

/-- The deviation of the Hamiltonian from Hermitian: the commutators of charge operators of one circuit,
weighted with the coefficients above the diagonal. -/
theorem C68_deviation (sub : CircId → SubCirc) (cps : List Couple) (u : ℝ)
    (hok : ∀ c ∈ getAllCircuits cps, SubOK (sub c)) {H : Op (sysDims sub (getAllCircuits cps))}
    (h : sysHamiltonian sub cps u = .ok H) :
    ∃ M, capMatrix sub cps = .ok M ∧ H - Hᴴ = ((1 / (2 * Real.pi * u) : ℝ) : ℂ) •
      ∑ x : ModeIx sub (getAllCircuits cps), ∑ y : ModeIx sub (getAllCircuits cps),
        if modeIdx sub _ x < modeIdx sub _ y ∧ x.1 = y.1 then
          ((interactionCoef sub cps M (modeIdx sub _ x) (modeIdx sub _ y) : ℝ) : ℂ) •
            (modeCharge sub _ x * modeCharge sub _ y - modeCharge sub _ y * modeCharge sub _ x)
        else 0 := by
  unfold sysHamiltonian at h
  cases hX : hInt sub cps u with
  | error e => rw [hX] at h; exact absurd h (by simp [Except.map])
  | ok X =>
    rw [hX] at h
    simp only [Except.map] at h
    cases h
    obtain ⟨M, hM, rfl⟩ := hInt_ok hX
    refine ⟨M, hM, ?_⟩
    have hnd := (C65_circuits cps).1
    rw [Matrix.conjTranspose_add, hLocal_herm, add_sub_add_left_eq_sub, Matrix.conjTranspose_smul,
      Complex.star_def, Complex.conj_ofReal, ← smul_sub]
    congr 1
    rw [sysQuadQ_modes sub _ hnd, Matrix.conjTranspose_sum, ← Finset.sum_sub_distrib]
    refine Finset.sum_congr rfl (fun x _ => ?_)
    rw [Matrix.conjTranspose_sum, ← Finset.sum_sub_distrib]
    refine Finset.sum_congr rfl (fun y _ => ?_)
    have hsm : ∀ (a : ℝ) (P Q : Op (sysDims sub (getAllCircuits cps))), Pᴴ = P → Qᴴ = Q →
        ((a : ℂ) • (P * Q))ᴴ = (a : ℂ) • (Q * P) := by
      intro a P Q hP hQ
      rw [Matrix.conjTranspose_smul, Complex.star_def, Complex.conj_ofReal, Matrix.conjTranspose_mul, hP, hQ]
    have hx := modeCharge_herm hok x
    have hy := modeCharge_herm hok y
    by_cases hxy : modeIdx sub (getAllCircuits cps) x = modeIdx sub (getAllCircuits cps) y
    · have : x = y := modeIdx_inj sub _ hnd hxy
      subst this
      rw [if_pos rfl, if_neg (fun h => lt_irrefl _ h.1), Matrix.conjTranspose_smul, hsm _ _ _ hx hx]
      have : star (1 / 2 : ℂ) = 1 / 2 := by
        rw [show (1 / 2 : ℂ) = ((1 / 2 : ℝ) : ℂ) by push_cast; rfl, Complex.star_def, Complex.conj_ofReal]
      rw [this, sub_self]
    · rw [if_neg hxy]
      by_cases hlt : modeIdx sub (getAllCircuits cps) x < modeIdx sub (getAllCircuits cps) y
      · rw [if_pos hlt, hsm _ _ _ hx hy, ← smul_sub]
        by_cases hs : x.1 = y.1
        · rw [if_pos ⟨hlt, hs⟩]
        · rw [if_neg (fun h => hs h.2)]
          have : modeCharge sub (getAllCircuits cps) x * modeCharge sub (getAllCircuits cps) y
              = modeCharge sub (getAllCircuits cps) y * modeCharge sub (getAllCircuits cps) x :=
            C67_commute hs _ _
          rw [this, sub_self, smul_zero]
      · rw [if_neg hlt, if_neg (fun h => hlt h.1), Matrix.conjTranspose_zero, sub_zero]

/-- C68, as far as it holds: the Hamiltonian is Hermitian if the charge operators of every circuit
commute (in the basis of the retained eigenstates). Missing: circuits with several modes and truncated
eigenbases, for which it is false. -/
theorem C68_partial (sub : CircId → SubCirc) (cps : List Couple) (u : ℝ)
    (hok : ∀ c ∈ getAllCircuits cps, SubOK (sub c))
    (hcomm : ∀ c ∈ getAllCircuits cps, ∀ i < (sub c).n, ∀ j < (sub c).n,
      Commute ((sub c).Q i) ((sub c).Q j))
    {H : Op (sysDims sub (getAllCircuits cps))} (h : sysHamiltonian sub cps u = .ok H) : Hᴴ = H := by
  obtain ⟨M, hM, hd⟩ := C68_deviation sub cps u hok h
  have : H - Hᴴ = 0 := by
    rw [hd, Finset.sum_eq_zero, smul_zero]
    intro x _
    refine Finset.sum_eq_zero (fun y _ => ?_)
    rw [modeCharge_comm hcomm x y, sub_self, smul_zero, ite_self]
  exact (sub_eq_zero.1 this).symm

/-- C68 for circuits with one mode each -/
theorem C68_single_mode (sub : CircId → SubCirc) (cps : List Couple) (u : ℝ)
    (hok : ∀ c ∈ getAllCircuits cps, SubOK (sub c)) (hn : ∀ c ∈ getAllCircuits cps, (sub c).n ≤ 1)
    {H : Op (sysDims sub (getAllCircuits cps))} (h : sysHamiltonian sub cps u = .ok H) : Hᴴ = H := by
  refine C68_partial sub cps u hok (fun c hc i hi j hj => ?_) h
  have := hn c hc
  rw [show i = j by omega]

/-- two qubits joined by a capacitor meet the hypotheses of `C68_single_mode`, and their Hamiltonian
exists -/
example : let q : SubCirc := ⟨1, 1, fun _ _ => 1, fun _ _ => 1, [0, 1], fun _ => !![0, 1; 1, 0]⟩
    SubOK q ∧ q.n ≤ 1 ∧ ∃ H, sysHamiltonian (fun _ => q) [⟨0, 1, 1, 1, some 1⟩] 1 = .ok H := by
  intro q
  refine ⟨⟨fun _ _ => rfl, fun _ => ?_⟩, le_refl _, ?_⟩
  · show (!![0, 1; 1, 0] : Matrix (Fin 2) (Fin 2) ℂ)ᴴ = !![0, 1; 1, 0]
    ext i j
    fin_cases i <;> fin_cases j <;> simp
  · have hb : ∀ p r : Fin 2, bareCap (fun _ => q) [0, 1] p r = if p = r then 1 else 0 := by
      intro p r
      fin_cases p <;> fin_cases r <;> simp [bareCap, blockDiag, q]
    have h1 : (toMat 2 (incAt (incAt (incAt (incAt (bareCap (fun _ => q) [0, 1]) 0 0 1) 1 1 1) 0 1 (-1)) 1 0 (-1))).det
        ≠ 0 := by
      have e : toMat 2 (incAt (incAt (incAt (incAt (bareCap (fun _ => q) [0, 1]) 0 0 1) 1 1 1) 0 1 (-1)) 1 0 (-1))
          = !![2, -1; -1, 2] := by
        ext p r
        have := hb p r
        simp only [toMat, Matrix.of_apply, incAt, this]
        fin_cases p <;> fin_cases r <;> norm_num
      rw [e, Matrix.det_fin_two_of]
      norm_num
    have h2 : (toMat 2 (bareCap (fun _ => q) [0, 1])).det ≠ 0 := by
      have e : toMat 2 (bareCap (fun _ => q) [0, 1]) = 1 := by
        ext p r
        rw [Matrix.one_apply]
        exact hb p r
      rw [e, Matrix.det_one]
      exact one_ne_zero
    have hcap : capMatrix (fun _ => q) [⟨0, 1, 1, 1, some 1⟩] = .ok
        (incAt (incAt (incAt (incAt (bareCap (fun _ => q) [0, 1]) 0 0 1) 1 1 1) 0 1 (-1)) 1 0 (-1)) := rfl
    have h1' := h1
    unfold sysHamiltonian hInt npInv
    simp only [hcap]
    rw [if_neg (show ¬ (toMat (sysNodes (fun _ => q) (getAllCircuits [⟨0, 1, 1, 1, some 1⟩])) _).det = 0 from h1),
      if_neg (show ¬ (toMat (sysNodes (fun _ => q) (getAllCircuits [⟨0, 1, 1, 1, some 1⟩]))
        (bareCap (fun _ => q) (getAllCircuits [⟨0, 1, 1, 1, some 1⟩]))).det = 0 from h2)]
    exact ⟨_, rfl⟩

/-! ### charge operators of a circuit in its eigenbasis -/

section eigenbasis
variable (b : Build) {m : Fin b.M.keep.length → ℕ} (mem : OpMem b.nJ m) (fr : List ℝ)
  (vecs : Fin fr.length → Idx m → ℂ)

/-- The charge operators in the eigenbasis are Hermitian, and the capacitance matrix is symmetric. -/
theorem C68_build_ok (hC : b.Cᵀ = b.C) (hQ : ∀ i, (mem.Q i)ᴴ = mem.Q i) : SubOK (b.sub mem fr vecs) where
  symm := by
    intro p q
    show (if h : p < b.n ∧ q < b.n then b.C ⟨p, h.1⟩ ⟨q, h.2⟩ else 0)
      = if h : q < b.n ∧ p < b.n then b.C ⟨q, h.1⟩ ⟨p, h.2⟩ else 0
    by_cases h : p < b.n ∧ q < b.n
    · rw [dif_pos h, dif_pos h.symm]
      conv_lhs => rw [← hC, Matrix.transpose_apply]
    · rw [dif_neg h, dif_neg (fun h' => h h'.symm)]
  herm := by
    intro i
    show (if h : i < b.M.keep.length then
        (Matrix.of fun x y => star (vecs x) ⬝ᵥ (mem.Q ⟨i, h⟩ *ᵥ vecs y) : Matrix (Fin fr.length) (Fin fr.length) ℂ)
      else 0)ᴴ = if h : i < b.M.keep.length then
        (Matrix.of fun x y => star (vecs x) ⬝ᵥ (mem.Q ⟨i, h⟩ *ᵥ vecs y) : Matrix (Fin fr.length) (Fin fr.length) ℂ)
      else 0
    by_cases h : i < b.M.keep.length
    · rw [dif_pos h]
      ext x y
      rw [Matrix.conjTranspose_apply, Matrix.of_apply, Matrix.of_apply, Matrix.star_dotProduct, star_star, Matrix.star_mulVec,
        hQ, Matrix.dotProduct_mulVec]
    · rw [dif_neg h, Matrix.conjTranspose_zero]

/-- If no eigenstate was dropped, the charge operators in the eigenbasis commute when those in the
original basis do, so `C68_partial` applies. -/
theorem C68_complete_basis (horth : ∀ x y, star (vecs x) ⬝ᵥ vecs y = if x = y then 1 else 0)
    (hcard : fr.length = Fintype.card (Idx m)) (hQ : ∀ i j, Commute (mem.Q i) (mem.Q j)) (i j : ℕ)
    (hi : i < (b.sub mem fr vecs).n) (hj : j < (b.sub mem fr vecs).n) :
    Commute ((b.sub mem fr vecs).Q i) ((b.sub mem fr vecs).Q j) := by
  let V : Matrix (Idx m) (Fin fr.length) ℂ := Matrix.of fun x a => vecs a x
  have hV : Vᴴ * V = 1 := by
    ext a c
    rw [Matrix.mul_apply, Matrix.one_apply, ← horth a c]
    rfl
  have hV' : V * Vᴴ = 1 :=
    (Matrix.mul_eq_one_comm_of_card_eq (Fin fr.length) (Idx m) ℂ (by simpa using hcard)).1 hV
  have hq : ∀ l (hl : l < b.M.keep.length), (b.sub mem fr vecs).Q l = Vᴴ * mem.Q ⟨l, hl⟩ * V := by
    intro l hl
    show (if h : l < b.M.keep.length then
        (Matrix.of fun x y => star (vecs x) ⬝ᵥ (mem.Q ⟨l, h⟩ *ᵥ vecs y) : Matrix (Fin fr.length) (Fin fr.length) ℂ)
      else 0) = _
    rw [dif_pos hl]
    ext a c
    rw [Matrix.of_apply, Matrix.dotProduct_mulVec, Matrix.mul_apply]
    rfl
  have hi' : i < b.M.keep.length := hi
  have hj' : j < b.M.keep.length := hj
  unfold Commute SemiconjBy
  rw [hq i hi', hq j hj']
  have e : ∀ P Q : Op m, Vᴴ * P * V * (Vᴴ * Q * V) = Vᴴ * (P * Q) * V := by
    intro P Q
    calc Vᴴ * P * V * (Vᴴ * Q * V) = Vᴴ * P * (V * Vᴴ) * Q * V := by simp only [Matrix.mul_assoc]
      _ = Vᴴ * (P * Q) * V := by rw [hV', Matrix.mul_one]; simp only [Matrix.mul_assoc]
  exact (e _ _).trans (by rw [(hQ _ _).eq]; exact (e _ _).symm)

end eigenbasis

/-! ### a system whose Hamiltonian is not Hermitian -/

/-- two LC oscillators (C = L = 1) between nodes 1, 2 and ground, as built under PyTorch, where modes
not coupled to a junction are kept -/
noncomputable def twoLC : Build where
  n := 2
  nJ := 0
  nB := 0
  C := 1
  loops := []
  B := 0
  inds := []
  juns := []
  M := { keep := [0, 1], cInv := 1, l := 1, w := 0, omega := fun _ => 1, S := 1, R := 1 }

/-- two states for each mode -/
abbrev twoDims : Fin twoLC.M.keep.length → ℕ := fun _ => 2

noncomputable abbrev twoMem : OpMem twoLC.nJ twoDims := buildMem twoLC.M.data twoDims (fun _ => 0)

/-- occupation numbers of the three lowest states: no photon, one in the first mode, one in the second -/
def occ : Fin 3 → Fin 2 → Fin 2 := fun a i => if (a : ℕ) = (i : ℕ) + 1 then 1 else 0

theorem occ_inj : Function.Injective occ := by decide

/-- the same as basis states of the tensor product -/
abbrev occIdx (a : Fin 3) : Idx twoDims := occ a

/-- the circuit with its three lowest eigenstates -/
noncomputable def twoSub : SubCirc := twoLC.sub twoMem [0, 1, 1] (fun a => Pi.single (occIdx a) 1)

theorem twoSub_Q (i : Fin 2) (a b : Fin 3) : twoSub.Q i a b = twoMem.Q i (occIdx a) (occIdx b) := by
  show (if h : (i : ℕ) < 2 then (Matrix.of fun x y => star (Pi.single (occIdx x) (1 : ℂ)) ⬝ᵥ
    (twoMem.Q ⟨i, h⟩ *ᵥ Pi.single (occIdx y) 1) : Matrix (Fin 3) (Fin 3) ℂ) else 0) a b = _
  rw [dif_pos i.2, Matrix.of_apply, Matrix.mulVec_single_one, ← Pi.single_star, star_one, single_one_dotProduct]
  rfl

theorem two_chargeOp (i : Fin twoLC.M.keep.length) :
    chargeOpIso twoLC.M.data twoDims (fun _ => 0) i = (-Complex.I * ((√(0.5 / 1) : ℝ) : ℂ)) •
      (qDestroy 2 - qCreate 2) := by
  have himp : twoLC.M.data.impedance i = 1 := by
    have : ∀ j : Fin 2, √((1 : Matrix (Fin 2) (Fin 2) ℝ) j j / (1 : Matrix (Fin 2) (Fin 2) ℝ) j j) = 1 := by
      intro j; simp
    exact this i
  unfold chargeOpIso
  rw [if_neg (show ¬ (twoLC.M.data.omega i = 0) from one_ne_zero), if_neg (by norm_num), himp]

theorem two_Q (i : Fin 2) (a b : Fin 3) :
    twoSub.Q i a b = if ∀ j : Fin 2, j ≠ i → occ a j = occ b j then
      (-Complex.I * ((√(0.5 / 1) : ℝ) : ℂ)) * (qDestroy 2 - qCreate 2) (occ a i) (occ b i) else 0 := by
  rw [twoSub_Q]
  refine (C38_local twoLC.M.data twoDims (fun _ => 0) i (occIdx a) (occIdx b)).trans ?_
  have h1 := congrFun₂ (two_chargeOp i) (occ a i) (occ b i)
  by_cases h : ∀ j : Fin 2, j ≠ i → occ a j = occ b j
  · exact (if_pos h).trans (h1.trans (if_pos h).symm)
  · exact (if_neg h).trans (if_neg h).symm

theorem sqrt_half_ne : (-Complex.I * ((√(0.5 / 1) : ℝ) : ℂ)) ≠ 0 := by
  refine mul_ne_zero (neg_ne_zero.2 Complex.I_ne_zero) ?_
  rw [Complex.ofReal_ne_zero]
  exact (Real.sqrt_pos.2 (by norm_num)).ne'

/-- matrix elements of the charge operators between the three states -/
theorem two_elements (i : Fin 2) (a b : Fin 3) :
    twoSub.Q i a b ≠ 0 ↔ (a = 0 ∧ (b : ℕ) = i + 1) ∨ (b = 0 ∧ (a : ℕ) = i + 1) := by
  rw [two_Q]
  have h := sqrt_half_ne
  fin_cases i <;> fin_cases a <;> fin_cases b <;>
    simp [occ, qDestroy, qCreate, Matrix.conjTranspose_apply, Fin.forall_fin_two] at h ⊢ <;> exact h

/-- The three states are normalized, orthogonal eigenstates of the circuit's Hamiltonian, with
frequencies 0, 1, 1; the remaining basis state has frequency 2. -/
theorem two_hamiltonian : lcHamil twoLC.M.data twoMem = diagonal (fun x : Idx twoDims => ∑ i, ((x i : ℕ) : ℂ)) := by
  have hs : twoLC.M.data.cInv.IsSymm := Matrix.isSymm_one
  refine (C39_lc_hamiltonian twoLC.M.data hs twoDims (fun _ => 0)).trans ?_
  have h2 : ∑ i, ∑ j, (if i = j ∧ twoLC.M.data.omega i ≠ 0 then 0
        else ((twoLC.M.data.cInv i j : ℝ) : ℂ) • (twoMem.Q i * twoMem.Q j)) = 0 := by
    refine Finset.sum_eq_zero (fun i _ => Finset.sum_eq_zero (fun j _ => ?_))
    by_cases hij : i = j
    · rw [if_pos ⟨hij, one_ne_zero⟩]
    · have hc : twoLC.M.data.cInv i j = 0 := Matrix.one_apply_ne hij
      rw [if_neg (fun h => hij h.1), hc, Complex.ofReal_zero, zero_smul]
  have h2' := congrArg (fun X => (1 / 2 : ℂ) • X) h2
  simp only [smul_zero] at h2'
  refine (congrArg₂ (· + ·) rfl h2').trans ?_
  simp only [add_zero]
  have hN : ∀ (i : Fin twoLC.M.keep.length) (x y : Idx twoDims),
      (if twoLC.M.data.omega i ≠ 0 then ((twoLC.M.data.omega i : ℝ) : ℂ) • twoMem.N i else 0) x y
        = if x = y then ((x i : ℕ) : ℂ) else 0 := by
    intro i x y
    have h1 : twoLC.M.data.omega i = 1 := rfl
    rw [if_pos (by rw [h1]; exact one_ne_zero), h1, Complex.ofReal_one, one_smul, buildMem_N, ← opInSys_single,
      C67_embedding]
    have h2 : numOpIso twoLC.M.data twoDims i = qNum 2 := by
      unfold numOpIso
      rw [if_neg (by rw [h1]; exact one_ne_zero)]
    rw [h2]
    by_cases hxy : x = y
    · subst hxy
      rw [if_pos (fun _ _ => rfl), if_pos rfl]
      exact Matrix.diagonal_apply_eq _ _
    · rw [if_neg hxy]
      by_cases h : ∀ j, j ≠ i → x j = y j
      · rw [if_pos h]
        refine Matrix.diagonal_apply_ne _ (fun hi => hxy (funext fun j => ?_))
        by_cases hj : j = i
        · subst hj; exact hi
        · exact h j hj
      · rw [if_neg h]
  ext x y
  rw [Matrix.sum_apply]
  refine (Finset.sum_congr rfl (fun i _ => hN i x y)).trans ?_
  by_cases hxy : x = y
  · subst hxy
    rw [Matrix.diagonal_apply_eq]
    simp only [if_true]
  · rw [Matrix.diagonal_apply_ne _ hxy]
    simp only [if_neg hxy, Finset.sum_const_zero]

/-- the two circuits: `twoLC` with its three lowest states, and a one-node circuit of which one state
(without charge) is kept -/
noncomputable def badSub : CircId → SubCirc := fun c => if c = 0 then twoSub else oneNode 1 [0]

/-- the node of the second circuit is coupled to both nodes of the first -/
noncomputable def badCouples : List Couple := [⟨0, 1, 1, 1, some 1⟩, ⟨0, 2, 1, 1, some 1⟩]

theorem bad_circuits : getAllCircuits badCouples = [0, 1] := by
  rw [getAllCircuits_eq]
  simp [badCouples, mentions, firstUses]

def badCap : Matrix (Fin 3) (Fin 3) ℝ := !![2, 0, -1; 0, 2, -1; -1, -1, 3]

theorem bad_bare : ∀ p q : Fin 3, bareCap badSub [0, 1] p q = if p = q then 1 else 0 := by
  have e0 : ∀ p q : Fin 2, (badSub 0).C p q = if p = q then 1 else 0 := by
    intro p q
    show (if h : (p : ℕ) < 2 ∧ (q : ℕ) < 2 then (1 : Matrix (Fin 2) (Fin 2) ℝ) ⟨p, h.1⟩ ⟨q, h.2⟩ else 0) = _
    rw [dif_pos ⟨p.2, q.2⟩, Matrix.one_apply]
  have e1 : ∀ p q, (badSub 1).C p q = 1 := fun _ _ => rfl
  have n0 : (badSub 0).nodes = 2 := rfl
  have n1 : (badSub 1).nodes = 1 := rfl
  intro p q
  have a := e0 0 0; have b := e0 0 1; have c := e0 1 0; have d := e0 1 1
  simp at a b c d
  fin_cases p <;> fin_cases q <;> simp [bareCap, blockDiag, n0, n1, e1, a, b, c, d]

theorem bad_cap : ∃ M, capMatrix badSub badCouples = .ok M ∧ toMat 3 M = badCap := by
  have h0 : nodeIdxInSys (fun c => (badSub c).n) [0, 1] 0 1 = 0 := rfl
  have h1 : nodeIdxInSys (fun c => (badSub c).n) [0, 1] 0 2 = 1 := rfl
  have h2 : nodeIdxInSys (fun c => (badSub c).n) [0, 1] 1 1 = 2 := rfl
  let join : ℕ → (ℕ → ℕ → ℝ) → ℕ → ℕ → ℝ := fun i M =>
    incAt (incAt (incAt (incAt M i i 1) 2 2 1) i 2 (-1)) 2 i (-1)
  refine ⟨join 1 (join 0 (bareCap badSub [0, 1])), ?_, ?_⟩
  · unfold capMatrix
    rw [bad_circuits]
    simp only [badCouples, addCouples, addCouple, h0, h1, h2]
    rfl
  · have hb := bad_bare
    ext p q
    have := hb p q
    simp only [toMat, Matrix.of_apply, join, incAt, this]
    fin_cases p <;> fin_cases q <;> norm_num [badCap]

/-- the inverse of the coupled capacitance matrix has 1/8 between the nodes of the first circuit -/
theorem bad_coef {M : ℕ → ℕ → ℝ} (hM : toMat 3 M = badCap) (hb : toMat 3 (bareCap badSub [0, 1]) = 1)
    : interactionCoef badSub badCouples M 0 1 = 1 / 8 := by
  have hinv : badCap⁻¹ = (1 / 8 : ℝ) • !![5, 1, 2; 1, 5, 2; 2, 2, 4] := by
    apply Matrix.inv_eq_right_inv
    ext p q
    fin_cases p <;> fin_cases q <;> simp [badCap, Matrix.mul_apply, Fin.sum_univ_three] <;> norm_num
  unfold interactionCoef
  rw [bad_circuits]
  have hR : ∀ (p : Fin 3) (a : ℕ), a < 2 →
      blockDiag ([0, 1].map (fun c => ((badSub c).nodes, (badSub c).R))) p a = if (p : ℕ) = a then 1 else 0 := by
    have e0 : ∀ p q : Fin 2, (badSub 0).R p q = if p = q then 1 else 0 := by
      intro p q
      show (if h : (p : ℕ) < 2 ∧ (q : ℕ) < 2 then (1 : Matrix (Fin 2) (Fin 2) ℝ) ⟨p, h.1⟩ ⟨q, h.2⟩ else 0) = _
      rw [dif_pos ⟨p.2, q.2⟩, Matrix.one_apply]
    have n0 : (badSub 0).nodes = 2 := rfl
    have a := e0 0 0; have b := e0 0 1; have c := e0 1 0; have d := e0 1 1
    simp at a b c d
    intro p q hq
    interval_cases q <;> fin_cases p <;> simp [blockDiag, n0, a, b, c, d]
  show transCoef (N := 3) _ ((toMat 3 M)⁻¹ - (toMat 3 (bareCap badSub [0, 1]))⁻¹) 0 1 = 1 / 8
  unfold transCoef
  simp only [hR _ 0 (by norm_num), hR _ 1 (by norm_num), hM, hb, hinv]
  simp [Fin.sum_univ_three]

theorem bad_ok (c : CircId) : SubOK (badSub c) := by
  unfold badSub
  split
  · exact C68_build_ok twoLC twoMem [0, 1, 1] _ Matrix.transpose_one (fun i => Q_herm _ _ _ i)
  · exact ⟨fun _ _ => rfl, fun _ => Matrix.conjTranspose_zero⟩

theorem commutator_entry (P Q : Matrix (Fin 3) (Fin 3) ℂ)
    (hP : ∀ a b, P a b ≠ 0 ↔ (a = 0 ∧ (b : ℕ) = 1) ∨ (b = 0 ∧ (a : ℕ) = 1))
    (hQ : ∀ a b, Q a b ≠ 0 ↔ (a = 0 ∧ (b : ℕ) = 2) ∨ (b = 0 ∧ (a : ℕ) = 2)) : (P * Q - Q * P) 1 2 ≠ 0 := by
  have h0 : ∀ a b : Fin 3, ¬ ((a = 0 ∧ (b : ℕ) = 1) ∨ (b = 0 ∧ (a : ℕ) = 1)) → P a b = 0 := by
    intro a b h
    by_contra hne
    exact h ((hP a b).1 hne)
  have h1 : ∀ a b : Fin 3, ¬ ((a = 0 ∧ (b : ℕ) = 2) ∨ (b = 0 ∧ (a : ℕ) = 2)) → Q a b = 0 := by
    intro a b h
    by_contra hne
    exact h ((hQ a b).1 hne)
  rw [Matrix.sub_apply, Matrix.mul_apply, Matrix.mul_apply, Fin.sum_univ_three, Fin.sum_univ_three,
    h0 1 1 (by decide), h0 1 2 (by decide), h1 1 0 (by decide), h1 1 1 (by decide), h1 1 2 (by decide)]
  have := mul_ne_zero ((hP 1 0).2 (by decide)) ((hQ 0 2).2 (by decide))
  simpa using this

theorem bad_commutator : (twoSub.Q 0 * twoSub.Q 1 - twoSub.Q 1 * twoSub.Q 0) (1 : Fin 3) (2 : Fin 3) ≠ 0 :=
  commutator_entry (twoSub.Q 0) (twoSub.Q 1) (two_elements 0) (two_elements 1)

theorem single_sub {k : ℕ} {m : Fin k → ℕ} (i : Fin k) (A B : Matrix (Fin (m i)) (Fin (m i)) ℂ) :
    single m i (A - B) = single m i A - single m i B := by
  ext x y
  rw [Matrix.sub_apply, ← opInSys_single, ← opInSys_single, ← opInSys_single, C67_embedding, C67_embedding,
    C67_embedding]
  by_cases h : ∀ j, j ≠ i → x j = y j
  · simp only [if_pos h, Matrix.sub_apply]
  · simp only [if_neg h, sub_zero]

theorem opInSys_commutator {k : ℕ} {d : Fin k → ℕ} (i : Fin k) (A B : Matrix (Fin (d i)) (Fin (d i)) ℂ) :
    opInSys i A * opInSys i B - opInSys i B * opInSys i A = opInSys i (A * B - B * A) := by
  rw [opInSys_single, opInSys_single, single_mul_self, single_mul_self, opInSys_single, single_sub]

theorem bad_sum {cs : List CircId} (hcs : cs = [0, 1]) (A : ℕ → ℕ → ℝ) (hA : A 0 1 ≠ 0) :
    ∑ x : ModeIx badSub cs, ∑ y : ModeIx badSub cs,
        (if modeIdx badSub _ x < modeIdx badSub _ y ∧ x.1 = y.1 then
          ((A (modeIdx badSub _ x) (modeIdx badSub _ y) : ℝ) : ℂ) •
            (modeCharge badSub _ x * modeCharge badSub _ y - modeCharge badSub _ y * modeCharge badSub _ x)
        else 0) ≠ 0 := by
  subst hcs
  let x0 : ModeIx badSub [0, 1] := ⟨⟨0, by decide⟩, (0 : Fin 2)⟩
  let y0 : ModeIx badSub [0, 1] := ⟨⟨0, by decide⟩, (1 : Fin 2)⟩
  have hx : modeIdx badSub [0, 1] x0 = 0 := rfl
  have hy : modeIdx badSub [0, 1] y0 = 1 := rfl
  have only : ∀ x y : ModeIx badSub [0, 1], modeIdx badSub _ x < modeIdx badSub _ y ∧ x.1 = y.1 →
      x = x0 ∧ y = y0 := by
    rintro ⟨s, i⟩ ⟨t, j⟩ ⟨h, hst⟩
    simp only at hst
    subst hst
    have hij : (i : ℕ) < j := by simpa [modeIdx] using h
    obtain ⟨s, hs⟩ := s
    have hs' : s < 2 := hs
    interval_cases s
    · have hj : (j : ℕ) < 2 := j.2
      refine ⟨?_, ?_⟩
      · exact Sigma.ext rfl (heq_of_eq (Fin.ext (by show (i : ℕ) = 0; omega)))
      · exact Sigma.ext rfl (heq_of_eq (Fin.ext (by show (j : ℕ) = 1; omega)))
    · have hj : (j : ℕ) < 1 := j.2
      omega
  rw [Finset.sum_eq_single x0, Finset.sum_eq_single y0]
  · rw [if_pos ⟨by rw [hx, hy]; norm_num, rfl⟩, hx, hy]
    refine smul_ne_zero (Complex.ofReal_ne_zero.2 hA) (fun h0 => bad_commutator ?_)
    let X : Idx (sysDims badSub [0, 1]) := fun s => match s with
      | ⟨0, _⟩ => (1 : Fin 3)
      | ⟨1, _⟩ => (0 : Fin 1)
    let Y : Idx (sysDims badSub [0, 1]) := fun s => match s with
      | ⟨0, _⟩ => (2 : Fin 3)
      | ⟨1, _⟩ => (0 : Fin 1)
    have hc : modeCharge badSub [0, 1] x0 * modeCharge badSub [0, 1] y0
        - modeCharge badSub [0, 1] y0 * modeCharge badSub [0, 1] x0
        = opInSys (d := sysDims badSub [0, 1]) ⟨0, by decide⟩
          (twoSub.Q 0 * twoSub.Q 1 - twoSub.Q 1 * twoSub.Q 0) :=
      opInSys_commutator (d := sysDims badSub [0, 1]) ⟨0, by decide⟩ (twoSub.Q 0) (twoSub.Q 1)
    have h1 := (C67_embedding (d := sysDims badSub [0, 1]) ⟨0, by decide⟩
      (twoSub.Q 0 * twoSub.Q 1 - twoSub.Q 1 * twoSub.Q 0) X Y).symm
    rw [if_pos] at h1
    · refine Eq.trans h1 ?_
      rw [← hc, h0]
      rfl
    · rintro ⟨s, hs⟩ hne
      have hs' : s < 2 := hs
      interval_cases s
      · exact absurd rfl hne
      · rfl
  · intro y _ hne
    rw [if_neg (fun h => hne (only _ _ h).2)]
  · intro h; exact absurd (Finset.mem_univ _) h
  · intro x _ hne
    refine Finset.sum_eq_zero (fun y _ => ?_)
    rw [if_neg (fun h => hne (only _ _ h).1)]
  · intro h; exact absurd (Finset.mem_univ _) h

/-- C68 is false in general: the interaction of a circuit with two modes and a truncated eigenbasis
contributes A₀₁ Q₀ Q₁ without its conjugate. All circuits satisfy `SubOK`, all couplings are between
nodes, no mode was removed. -/
theorem C68_refuted :
    ∃ (sub : CircId → SubCirc) (cps : List Couple) (H : Op (sysDims sub (getAllCircuits cps))),
      (∀ c, SubOK (sub c) ∧ (sub c).n = (sub c).nodes) ∧ (∀ cp ∈ cps, ValidCouple sub cp) ∧
      sysHamiltonian sub cps 1 = .ok H ∧ Hᴴ ≠ H := by
  obtain ⟨M, hM, hM3⟩ := bad_cap
  have hb : toMat 3 (bareCap badSub [0, 1]) = 1 := by
    ext p q
    rw [Matrix.one_apply]
    exact bad_bare p q
  have hdet1 : (toMat (sysNodes badSub (getAllCircuits badCouples)) M).det ≠ 0 := by
    rw [bad_circuits]
    show (toMat 3 M).det ≠ 0
    rw [hM3]
    simp [badCap, Matrix.det_fin_three]
    norm_num
  have hdet2 : (toMat (sysNodes badSub (getAllCircuits badCouples)) (bareCap badSub (getAllCircuits badCouples))).det
      ≠ 0 := by
    rw [bad_circuits]
    show (toMat 3 (bareCap badSub [0, 1])).det ≠ 0
    rw [hb, Matrix.det_one]
    exact one_ne_zero
  have hH : ∃ H, sysHamiltonian badSub badCouples 1 = .ok H := by
    unfold sysHamiltonian hInt npInv
    simp only [hM, if_neg hdet1, if_neg hdet2]
    exact ⟨_, rfl⟩
  obtain ⟨H, hH⟩ := hH
  refine ⟨badSub, badCouples, H, fun c => ⟨bad_ok c, ?_⟩, ?_, hH, fun heq => ?_⟩
  · unfold badSub
    split <;> rfl
  · intro cp hcp
    simp only [badCouples, List.mem_cons, List.not_mem_nil, or_false] at hcp
    have n0 : (badSub 0).nodes = 2 := rfl
    have n1 : (badSub 1).nodes = 1 := rfl
    rcases hcp with rfl | rfl <;> simp [ValidCouple, n0, n1]
  · obtain ⟨M', hM', hd⟩ := C68_deviation badSub badCouples 1 (fun c _ => bad_ok c) hH
    rw [hM] at hM'
    cases hM'
    rw [heq, sub_self] at hd
    have hs := bad_sum bad_circuits (interactionCoef badSub badCouples M) (by rw [bad_coef hM3 hb]; norm_num)
    refine smul_ne_zero ?_ hs hd.symm
    rw [Complex.ofReal_ne_zero]
    positivity

end SQ
