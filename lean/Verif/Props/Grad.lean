import Verif.Lemmas.Grad
import Verif.Lemmas.LcState
import Verif.Props.CircuitState
import Verif.Lemmas.CircuitState

/-! # C57, C58: derivatives of the Hamiltonian -/

namespace SQ
open Matrix Complex Spec

variable {nJ n b nl : ℕ}

/-! ## C57 fluxes and junction energies -/

/-- The operator used as derivative with respect to the flux of a loop is the derivative of
`hamiltonian()` as a function of that flux, entry by entry. -/
theorem C57_flux (C : Matrix (Fin n) (Fin n) ℝ) (M : Modes nJ n) (hk : M.keep.length ≤ n)
    {m : Fin M.keep.length → ℕ} (mem : OpMem nJ m) (lc : Op m) (val : ElemId → ℝ)
    (B : Matrix (Fin b) (Fin nl) ℝ) (loopVals : Fin nl → ℝ) (P : ElemId → Matrix (Fin n) (Fin n) ℝ)
    (inds : List (IndKey b)) (juns : List (JunKey b nJ))
    (hv : ∀ key ∈ inds, ValidEdge n key.edge) (l : Fin nl) (bId : Option (Fin b)) :
    ∃ H : ℝ → Op m,
      (∀ t, hamiltonianOf C M mem lc val (extFlux B (Function.update loopVals l t)) inds juns
        = .ok (H t)) ∧
      HasDerivOp H (partialH C M mem val B loopVals P inds juns bId (.loop l)) (loopVals l) := by
  refine ⟨_, fun t => hamiltonianOf_eq C M hk mem lc val _ inds juns hv, ?_⟩
  have h1 := hasDerivOp_list_sum inds
    (fun key t => ((1 / val key.el * extFlux B (Function.update loopVals l t) key.bId *
      (Phi0 / 2 / Real.pi) / √hbar : ℝ) : ℂ) • indOpOf C M mem key)
    (fun key => ((B key.bId l / val key.el * Phi0 / √hbar / 2 / Real.pi : ℝ) : ℂ) •
      indOpOf C M mem key) (x := loopVals l) (fun key _ => by
        refine hasDerivOp_smul_const ?_ _
        refine ((((extFlux_deriv B loopVals l key.bId (loopVals l)).const_mul (1 / val key.el)).mul_const
          (Phi0 / 2 / Real.pi)).div_const (√hbar)).congr_deriv ?_
        ring)
  have h2 := hasDerivOp_list_sum juns
    (fun key t => (-(val key.el : ℂ)) •
      cosOp mem key.wId (extFlux B (Function.update loopVals l t) key.bId))
    (fun key => ((B key.bId l * val key.el : ℝ) : ℂ) • sinOp mem key.wId (extFlux B loopVals key.bId))
    (x := loopVals l) (fun key _ => by
        have h := hasDerivOp_const_smul (-(val key.el : ℂ))
          (cosOp_deriv mem key.wId (extFlux_deriv B loopVals l key.bId (loopVals l)))
        rw [Function.update_eq_self, smul_smul] at h
        convert h using 2
        push_cast; ring)
  have h3 := hasDerivOp_add (hasDerivOp_add h1 h2) (hasDerivOp_const (x := loopVals l) lc)
  rw [add_zero] at h3
  convert h3 using 1
  simp only [partialH]
  rw [foldl_add_sum, foldl_add_sum, zero_add]

/-- The operator used as derivative with respect to the energy of a junction is the derivative of
`hamiltonian()` as a function of that energy; the junction may sit on several branches. -/
theorem C57_junction (C : Matrix (Fin n) (Fin n) ℝ) (M : Modes nJ n) (hk : M.keep.length ≤ n)
    {m : Fin M.keep.length → ℕ} (mem : OpMem nJ m) (lc : Op m) (val : ElemId → ℝ)
    (B : Matrix (Fin b) (Fin nl) ℝ) (loopVals : Fin nl → ℝ) (P : ElemId → Matrix (Fin n) (Fin n) ℝ)
    (inds : List (IndKey b)) (juns : List (JunKey b nJ))
    (hv : ∀ key ∈ inds, ValidEdge n key.edge) (i : ElemId) (hi : ∀ key ∈ inds, key.el ≠ i) :
    ∃ H : ℝ → Op m,
      (∀ t, hamiltonianOf C M mem lc (Function.update val i t) (extFlux B loopVals) inds juns
        = .ok (H t)) ∧
      HasDerivOp H (partialH C M mem val B loopVals P inds juns none (.jun i)) (val i) := by
  refine ⟨_, fun t => hamiltonianOf_eq C M hk mem lc _ _ inds juns hv, ?_⟩
  have h1 : ∀ t, (inds.map (fun key => ((1 / Function.update val i t key.el *
      extFlux B loopVals key.bId * (Phi0 / 2 / Real.pi) / √hbar : ℝ) : ℂ) • indOpOf C M mem key))
      = inds.map (fun key => ((1 / val key.el * extFlux B loopVals key.bId * (Phi0 / 2 / Real.pi) /
        √hbar : ℝ) : ℂ) • indOpOf C M mem key) := by
    intro t
    exact List.map_congr_left fun key hkey => by rw [Function.update_of_ne (hi key hkey)]
  simp only [h1]
  have h2 := hasDerivOp_list_sum juns
    (fun key t => (-(Function.update val i t key.el : ℂ)) •
      cosOp mem key.wId (extFlux B loopVals key.bId))
    (fun key => if key.el = i ∧ (none = (none : Option (Fin b)) ∨ none = some key.bId)
      then (-1 : ℂ) • cosOp mem key.wId (extFlux B loopVals key.bId) else 0)
    (x := val i) (fun key _ => by
        by_cases hi : key.el = i
        · subst hi
          simp only [Function.update_self, true_or, and_self, if_true]
          have := hasDerivOp_smul_const (hasDerivAt_id (val key.el)).neg
            (cosOp mem key.wId (extFlux B loopVals key.bId))
          simpa using this
        · simp only [hi, false_and, if_false, Function.update_of_ne hi]
          exact hasDerivOp_const _)
  have h3 : ∀ K : Op m, HasDerivOp (fun t => K + (juns.map (fun key =>
      (-(Function.update val i t key.el : ℂ)) • cosOp mem key.wId (extFlux B loopVals key.bId))).sum + lc)
      (partialH C M mem val B loopVals P inds juns none (.jun i)) (val i) := by
    intro K
    have h := hasDerivOp_add (hasDerivOp_add (hasDerivOp_const (x := val i) K) h2)
      (hasDerivOp_const (x := val i) lc)
    rw [add_zero, zero_add] at h
    convert h using 1
    simp only [partialH]
    rw [foldl_if_sum, zero_add]
  exact h3 _

/-- Both for the Hamiltonian of a constructed circuit: any circuit without self-loops, any truncation,
charge offsets, element values and fluxes. -/
theorem C57_circuit (c : CircSpec) (hs : NoSelfLoops c.els) (v0 : ElemId → ℝ) (bd : Build)
    (hb : buildCirc c v0 = .ok bd) (m : Fin bd.M.keep.length → ℕ) (ng : Fin bd.M.keep.length → ℝ)
    (val : ElemId → ℝ) (fluxes : Fin bd.loops.length → ℝ) (P : ElemId → Matrix (Fin bd.n) (Fin bd.n) ℝ) :
    (∀ l, ∃ H : ℝ → Op m,
      (∀ t, fullHamiltonian bd.C bd.M m ng val (extFlux bd.B (Function.update fluxes l t)) bd.inds bd.juns
        = .ok (H t)) ∧
      HasDerivOp H (partialH bd.C bd.M (buildMem bd.M.data m ng) val bd.B fluxes P bd.inds bd.juns none
        (.loop l)) (fluxes l)) ∧
    (∀ i, (∀ key ∈ bd.inds, key.el ≠ i) → ∃ H : ℝ → Op m,
      (∀ t, fullHamiltonian bd.C bd.M m ng (Function.update val i t) (extFlux bd.B fluxes) bd.inds bd.juns
        = .ok (H t)) ∧
      HasDerivOp H (partialH bd.C bd.M (buildMem bd.M.data m ng) val bd.B fluxes P bd.inds bd.juns none
        (.jun i)) (val i)) := by
  obtain ⟨h1, h2⟩ := build_valid hs hb
  exact ⟨fun l => C57_flux _ _ h1 _ _ _ _ _ P _ _ h2 l none,
    fun i hi => C57_junction _ _ h1 _ _ _ _ _ P _ _ h2 i hi⟩

/-- one harmonic mode with an inductor and a junction closing a loop -/
noncomputable def exModes : Modes 1 1 where
  keep := [0]
  cInv := 1
  l := 1
  w := 1
  omega := fun _ => 1
  S := 1
  R := 1

/-- an inductor and a junction on the same pair of nodes, the flux of the loop being at the junction
with weight 1/4 and at the inductor with weight 3/4 -/
example (mem : OpMem 1 (fun _ : Fin exModes.keep.length => 5)) (lc) (val : ElemId → ℝ) (P) :
    ∃ H : ℝ → Op _, (∀ t, hamiltonianOf 1 exModes mem lc val
        (extFlux !![3/4; 1/4] (Function.update (fun _ : Fin 1 => 7) 0 t)) [⟨(0, 1), 0, 0⟩]
        [⟨(0, 1), 1, 1, 0⟩] = .ok (H t)) ∧
      HasDerivOp H (partialH 1 exModes mem val !![3/4; 1/4] (fun _ : Fin 1 => 7) P [⟨(0, 1), 0, 0⟩]
        [⟨(0, 1), 1, 1, 0⟩] none (.loop 0)) 7 :=
  C57_flux 1 exModes (by simp [exModes]) mem lc val _ (fun _ => 7) P _ _ (by
    intro key hk
    rw [List.mem_singleton] at hk
    subst hk
    exact ⟨by simp, by simp, by simp⟩) 0 none

/-- one junction object on both of two branches -/
example (mem : OpMem 1 (fun _ : Fin exModes.keep.length => 5)) (lc) (val : ElemId → ℝ) (P) :
    ∃ H : ℝ → Op _, (∀ t, hamiltonianOf 1 exModes mem lc (Function.update val 1 t)
        (extFlux !![3/4; 1/4] (fun _ : Fin 1 => 7)) []
        [⟨(0, 1), 1, 1, 0⟩, ⟨(0, 1), 1, 0, 0⟩] = .ok (H t)) ∧
      HasDerivOp H (partialH 1 exModes mem val !![3/4; 1/4] (fun _ : Fin 1 => 7) P []
        [⟨(0, 1), 1, 1, 0⟩, ⟨(0, 1), 1, 0, 0⟩] none (.jun 1)) (val 1) :=
  C57_junction 1 exModes (by simp [exModes]) mem lc val _ (fun _ => 7) P _ _ (by simp) 1 (by simp)

/-- the LC/junction circuit is constructed and has no self-loops -/
example {sv : SvdFn} (hsv : SvdSpec sv) {argsort : ArgsortFn} (ha : ArgsortSpec argsort)
    (argmax : ∀ k, ArgmaxFn k) :
    ∃ bd, buildCirc (lcSpec true sv argsort argmax) lcVals = .ok bd ∧
      NoSelfLoops (lcSpec true sv argsort argmax).els ∧ bd.juns.length = 1 ∧ bd.inds.length = 1 :=
  ⟨_, lc_build_init hsv ha argmax true, lc_noSelf true, rfl, rfl⟩

/-! ## C58 capacitances and inductances -/

/-- With the coordinate transformation `R` held fixed, the coefficients used for a capacitor are the
derivative of `Rᵀ C⁻¹ R`, if the recorded sensitivity is the derivative of `C`. -/
theorem C58_capacitor (C : ℝ → Matrix (Fin n) (Fin n) ℝ) (P R : Matrix (Fin n) (Fin n) ℝ) (x : ℝ)
    (h : HasDerivMat C P x) (hdet : (C x).det ≠ 0) :
    HasDerivMat (fun t => Rᵀ * (C t)⁻¹ * R) (capCoef (C x) R P) x := by
  have := hasDerivMat_mul_const (hasDerivMat_inv h hdet) Rᵀ R
  convert this using 1
  unfold capCoef
  simp only [Matrix.mul_assoc, Matrix.neg_mul, Matrix.mul_neg]

/-- The same for an inductor and `Sᵀ L S`; the recorded sensitivity of an inductor is minus the
derivative of `L`. -/
theorem C58_inductor (L : ℝ → Matrix (Fin n) (Fin n) ℝ) (P S : Matrix (Fin n) (Fin n) ℝ) (x : ℝ)
    (h : HasDerivMat L (-P) x) : HasDerivMat (fun t => Sᵀ * L t * S) (indCoef S P) x := by
  have := hasDerivMat_mul_const h Sᵀ S
  convert this using 1
  unfold indCoef
  simp only [Matrix.neg_mul, Matrix.mul_neg]

/-- For the matrices and sensitivities that construction computes from a circuit (PyTorch engine):
`A v` is the outcome with the value of object `i` set to `v`. -/
theorem C58_constructed (fd : FluxDist) (O : Objs) (n : ℕ)
    (h : LoopId → LoopObj) (els : Elements) (hv : ValidElements n els) (hwt : WellTyped O)
    (i : ElemId) (A : ℝ → Acc n)
    (hA : ∀ v, v ≠ 0 → traverse true fd (setVal O i v) n h els = .ok (A v))
    (v : ℝ) (hv0 : v ≠ 0) (R S : Matrix (Fin n) (Fin n) ℝ) :
    ((O.elem i).kind = .cap → (A v).cMat.det ≠ 0 →
      HasDerivMat (fun x => Rᵀ * (A x).cMat⁻¹ * R)
        (capCoef (A v).cMat R ((A v).st.partialMats i)) v) ∧
    ((O.elem i).kind = .ind →
      HasDerivMat (fun x => Sᵀ * (A x).lMat * S) (indCoef S ((A v).st.partialMats i)) v) :=
  ⟨fun hk hd => C58_capacitor (fun x => (A x).cMat) _ R v (fun r c =>
      (C20_sensitivity_is_derivative fd O n h els hv hwt i A hA v hv0 r c).1 hk) hd,
   fun hk => C58_inductor (fun x => (A x).lMat) _ S v (fun r c =>
      (C20_sensitivity_is_derivative fd O n h els hv hwt i A hA v hv0 r c).2 hk)⟩

/-- Charging energy `½ Σ A_ij Q_i Q_j` of the retained modes for node coefficients `A`. -/
noncomputable def Spec.chargingEnergy {M : Modes nJ n} {m : Fin M.keep.length → ℕ} (mem : OpMem nJ m)
    (A : Matrix (Fin n) (Fin n) ℝ) : Op m :=
  (1 / 2 : ℂ) • ∑ i, ∑ j, ((A (M.keep.get i) (M.keep.get j) : ℝ) : ℂ) • (mem.Q i * mem.Q j)

/-- Inductive energy `½ Σ A_ij φ_i φ_j` of the retained modes. -/
noncomputable def Spec.inductiveEnergy {M : Modes nJ n} {m : Fin M.keep.length → ℕ} (mem : OpMem nJ m)
    (A : Matrix (Fin n) (Fin n) ℝ) : Op m :=
  (1 / 2 : ℂ) • ∑ i, ∑ j, ((A (M.keep.get i) (M.keep.get j) : ℝ) : ℂ) • (mem.phi i * mem.phi j)

theorem headBlock_aligned {M : Modes nJ n} (hal : Aligned M) (A : Matrix (Fin n) (Fin n) ℝ)
    (i j : Fin M.keep.length) : headBlock M.keep.length A i j = A (M.keep.get i) (M.keep.get j) := by
  have hi : (i : ℕ) < n := by rw [← hal i]; exact (M.keep.get i).isLt
  have hj : (j : ℕ) < n := by rw [← hal j]; exact (M.keep.get j).isLt
  simp only [headBlock, Matrix.of_apply, hi, hj, and_self, dite_true]
  congr 1
  · exact Fin.ext (hal i).symm
  · exact Fin.ext (hal j).symm

theorem energy_deriv {ι κ : Type*} [Fintype κ] {A : ℝ → κ → κ → ℝ} {A' : κ → κ → ℝ} {x : ℝ}
    (h : ∀ i j, HasDerivAt (fun t => A t i j) (A' i j) x) (X : κ → κ → Matrix ι ι ℂ) :
    HasDerivOp (fun t => (1 / 2 : ℂ) • ∑ i, ∑ j, ((A t i j : ℝ) : ℂ) • X i j)
      ((1 / 2 : ℂ) • ∑ i, ∑ j, ((A' i j : ℝ) : ℂ) • X i j) x := by
  refine hasDerivOp_const_smul _ ?_
  intro a b
  simp only [Matrix.sum_apply, Matrix.smul_apply, smul_eq_mul]
  exact HasDerivAt.fun_sum fun i _ => HasDerivAt.fun_sum fun j _ =>
    ((h i j).ofReal_comp).mul_const _

/-- The operator used as derivative with respect to a capacitor is the derivative of the charging
energy of the retained modes at fixed coordinate transformation, when the retained modes are the first
ones. (Missing for the full claim: circuits with removed modes; there it fails, `C58_refuted`.) -/
theorem C58_charging_energy_partial (C : ℝ → Matrix (Fin n) (Fin n) ℝ) (M : Modes nJ n)
    (hal : Aligned M) (m : Fin M.keep.length → ℕ) (ng : Fin M.keep.length → ℝ) (val : ElemId → ℝ)
    (B : Matrix (Fin b) (Fin nl) ℝ) (loopVals : Fin nl → ℝ) (P : ElemId → Matrix (Fin n) (Fin n) ℝ)
    (inds : List (IndKey b)) (juns : List (JunKey b nJ)) (i : ElemId) (x : ℝ)
    (h : HasDerivMat C (P i) x) (hC : (C x).IsSymm) (hP : (P i).IsSymm) (hdet : (C x).det ≠ 0) :
    HasDerivOp (fun t => chargingEnergy (buildMem M.data m ng) (M.Rᵀ * (C t)⁻¹ * M.R))
      (partialH (C x) M (buildMem M.data m ng) val B loopVals P inds juns none (.cap i)) x := by
  have hd := C58_capacitor C (P i) M.R x h hdet
  have he := energy_deriv (x := x)
    (A := fun t i j => (M.Rᵀ * (C t)⁻¹ * M.R) (M.keep.get i) (M.keep.get j))
    (A' := fun a c => capCoef (C x) M.R (P i) (M.keep.get a) (M.keep.get c))
    (fun a c => hd (M.keep.get a) (M.keep.get c))
    (fun i j => (buildMem M.data m ng).Q i * (buildMem M.data m ng).Q j)
  suffices hEq : partialH (C x) M (buildMem M.data m ng) val B loopVals P inds juns none (.cap i)
      = (1 / 2 : ℂ) • ∑ a, ∑ c, ((capCoef (C x) M.R (P i) (M.keep.get a) (M.keep.get c) : ℝ) : ℂ) •
        ((buildMem M.data m ng).Q a * (buildMem M.data m ng).Q c) by
    rw [hEq]; exact he
  simp only [partialH]
  have hsym : (capCoef (C x) M.R (P i)).IsSymm := by
    unfold capCoef Matrix.IsSymm
    have h1 : ((C x)⁻¹)ᵀ = (C x)⁻¹ := by rw [Matrix.transpose_nonsing_inv, hC]
    simp only [Matrix.transpose_mul, Matrix.transpose_neg, Matrix.transpose_transpose, h1, hP.eq,
      Matrix.mul_assoc, Matrix.neg_mul]
  have hs2 : (headBlock M.keep.length (capCoef (C x) M.R (P i))).IsSymm := by
    ext a c
    rw [Matrix.transpose_apply, headBlock_aligned hal, headBlock_aligned hal]
    exact hsym.apply _ _
  rw [C39_quadratic_form M.data m ng _ hs2]
  simp only [headBlock_aligned hal]

/-- The operator used as derivative with respect to an inductor is the derivative of the inductive
energy of the retained modes plus the flux terms of the inductors, at fixed coordinate transformation,
when the retained modes are the first ones. -/
theorem C58_inductive_energy_partial (L : ℝ → Matrix (Fin n) (Fin n) ℝ) (C : Matrix (Fin n) (Fin n) ℝ)
    (M : Modes nJ n)
    (hal : Aligned M) (m : Fin M.keep.length → ℕ) (ng : Fin M.keep.length → ℝ) (val : ElemId → ℝ)
    (B : Matrix (Fin b) (Fin nl) ℝ) (loopVals : Fin nl → ℝ) (P : ElemId → Matrix (Fin n) (Fin n) ℝ)
    (inds : List (IndKey b)) (juns : List (JunKey b nJ)) (i : ElemId)
    (hv : ∀ key ∈ inds, ValidEdge n key.edge) (hval : val i ≠ 0)
    (h : HasDerivMat L (-(P i)) (val i)) (hP : (P i).IsSymm) (hk : M.keep.length ≤ n) :
    ∃ F : ℝ → Op m,
      (∀ t, indTerms C M (buildMem M.data m ng) (Function.update val i t) (extFlux B loopVals) inds 0
        = .ok (F t)) ∧
      HasDerivOp (fun t => inductiveEnergy (buildMem M.data m ng) (M.Sᵀ * L t * M.S) + F t)
        (partialH C M (buildMem M.data m ng) val B loopVals P inds juns none (.ind i)) (val i) := by
  have hterms : ∀ t, indTerms C M (buildMem M.data m ng) (Function.update val i t)
      (extFlux B loopVals) inds 0 = .ok ((inds.map (fun key =>
        ((1 / Function.update val i t key.el * extFlux B loopVals key.bId * (Phi0 / 2 / Real.pi)
          / √hbar : ℝ) : ℂ) • indOpOf C M (buildMem M.data m ng) key)).sum) := by
    intro t
    rw [indTerms_ok C M hk _ _ _ _ hv, zero_add]
    congr 2
    exact List.map_congr_left fun key hkey => by rw [indOpOf_eq C M hk _ (hv key hkey)]
  refine ⟨_, hterms, ?_⟩
  have hd := C58_inductor L (P i) M.S (val i) h
  have he := energy_deriv (x := val i)
    (A := fun t a c => (M.Sᵀ * L t * M.S) (M.keep.get a) (M.keep.get c))
    (A' := fun a c => indCoef M.S (P i) (M.keep.get a) (M.keep.get c))
    (fun a c => hd (M.keep.get a) (M.keep.get c))
    (fun i j => (buildMem M.data m ng).phi i * (buildMem M.data m ng).phi j)
  have hsym : (indCoef M.S (P i)).IsSymm := by
    unfold indCoef Matrix.IsSymm
    simp only [Matrix.transpose_mul, Matrix.transpose_neg, Matrix.transpose_transpose, hP.eq,
      Matrix.mul_assoc, Matrix.neg_mul]
  have hs2 : (headBlock M.keep.length (indCoef M.S (P i))).IsSymm := by
    ext a c
    rw [Matrix.transpose_apply, headBlock_aligned hal, headBlock_aligned hal]
    exact hsym.apply _ _
  have h2 := hasDerivOp_list_sum inds
    (fun key t => ((1 / Function.update val i t key.el * extFlux B loopVals key.bId *
      (Phi0 / 2 / Real.pi) / √hbar : ℝ) : ℂ) • indOpOf C M (buildMem M.data m ng) key)
    (fun key => if key.el = i then
      (-(((1 / val i ^ 2 / √hbar * (Phi0 / 2 / Real.pi) * extFlux B loopVals key.bId : ℝ)) : ℂ)) •
        indOpOf C M (buildMem M.data m ng) key else 0)
    (x := val i) (fun key _ => by
        by_cases hi : key.el = i
        · subst hi
          simp only [Function.update_self, if_true]
          have h1 := (((((hasDerivAt_inv hval)).mul_const (extFlux B loopVals key.bId)).mul_const
            (Phi0 / 2 / Real.pi)).div_const (√hbar))
          have h3 := hasDerivOp_smul_const h1 (indOpOf C M (buildMem M.data m ng) key)
          simp only [one_div]
          convert h3 using 2
          push_cast; ring
        · simp only [hi, if_false, Function.update_of_ne hi]
          exact hasDerivOp_const _)
  have h3 := hasDerivOp_add he h2
  suffices hEq : partialH C M (buildMem M.data m ng) val B loopVals P inds juns none (.ind i)
      = (1 / 2 : ℂ) • ∑ a, ∑ c, ((indCoef M.S (P i) (M.keep.get a) (M.keep.get c) : ℝ) : ℂ) •
        ((buildMem M.data m ng).phi a * (buildMem M.data m ng).phi c) +
        (inds.map (fun key => if key.el = i then
          (-(((1 / val i ^ 2 / √hbar * (Phi0 / 2 / Real.pi) * extFlux B loopVals key.bId : ℝ)) : ℂ)) •
            indOpOf C M (buildMem M.data m ng) key else 0)).sum by
    rw [hEq]; exact h3
  simp only [partialH]
  rw [foldl_if_sum, C39_quadratic_phi M.data m ng _ hs2]
  simp only [headBlock_aligned hal]

/-- capacitance matrix of the LC/junction circuit with a further capacitor of value `t - 1` on the
edge (0,2), in parallel with the junction -/
noncomputable def lcC (t : ℝ) : Matrix (Fin 2) (Fin 2) ℝ := diagonal ![1, t]

theorem lcC_deriv : HasDerivMat lcC (diagonal ![0, 1]) 1 := by
  intro a c
  fin_cases a <;> fin_cases c
  · simpa [lcC] using hasDerivAt_const (1 : ℝ) (1 : ℝ)
  · simpa [lcC] using hasDerivAt_const (1 : ℝ) (0 : ℝ)
  · simpa [lcC] using hasDerivAt_const (1 : ℝ) (0 : ℝ)
  · simpa [lcC] using hasDerivAt_id' (1 : ℝ)

/-- The claim fails where modes were removed. In the LC/junction circuit under NumPy the one retained
mode is the junction's; its charging energy changes with the capacitor in parallel to the junction,
but the operator used as derivative is zero (it is built from the coefficient of the removed mode). -/
theorem C58_refuted (ng : Fin (finishModes false lcFinal).keep.length → ℝ) (val : ElemId → ℝ)
    (B : Matrix (Fin b) (Fin nl) ℝ) (loopVals : Fin nl → ℝ) (inds : List (IndKey b))
    (juns : List (JunKey b 1)) (i : ElemId) :
    let M := finishModes false lcFinal
    let mem := buildMem M.data (fun _ => 3) ng
    ∃ D : Op (fun _ : Fin M.keep.length => 3), D ≠ 0 ∧
      HasDerivOp (fun t => chargingEnergy (M := M) mem (M.Rᵀ * (lcC t)⁻¹ * M.R)) D 1 ∧
      partialH (lcC 1) M mem val B loopVals (fun _ => diagonal ![0, 1]) inds juns none (.cap i) = 0 := by
  intro M mem
  have hlen : M.keep.length = 1 := by rw [lc_keep]; rfl
  have hR : M.R = 1 := by
    obtain ⟨keep, hM, -⟩ := finishModes_eq false lcFinal
    show (finishModes false lcFinal).R = 1
    rw [hM]; rfl
  have hget : ∀ i, M.keep.get i = 1 := by
    intro i
    have := List.get_mem M.keep i
    generalize M.keep.get i = x at this
    rw [lc_keep] at this
    simpa using this
  have hC1 : lcC 1 = 1 := by
    ext a c; fin_cases a <;> fin_cases c <;> simp [lcC]
  have hcap : capCoef (lcC 1) M.R (diagonal ![0, 1]) = -diagonal ![0, 1] := by
    unfold capCoef
    rw [hC1, hR]
    simp
  have hd := C58_capacitor lcC (diagonal ![0, 1]) M.R 1 lcC_deriv (by rw [hC1]; simp)
  rw [hcap] at hd
  have he := energy_deriv (x := 1)
    (A := fun t a c => (M.Rᵀ * (lcC t)⁻¹ * M.R) (M.keep.get a) (M.keep.get c))
    (A' := fun a c => (-diagonal ![0, 1] : Matrix (Fin 2) (Fin 2) ℝ) (M.keep.get a) (M.keep.get c))
    (fun a c => hd (M.keep.get a) (M.keep.get c))
    (fun i j => mem.Q i * mem.Q j)
  refine ⟨_, ?_, he, ?_⟩
  · let i0 : Fin M.keep.length := ⟨0, by omega⟩
    have huniv : (Finset.univ : Finset (Fin M.keep.length)) = {i0} := by
      ext j; simp only [Finset.mem_univ, Finset.mem_singleton, true_iff]
      exact Fin.ext (by have := j.isLt; show (j : ℕ) = 0; omega)
    have hom : M.data.omega i0 = 0 := (C34_refuted (V := ℂ) (fun _ => 0) (fun _ => 0)).1 i0
    have hQ : chargeOpIso M.data (fun _ => 3) ng i0 = diagonal (fun x : Fin 3 =>
        (((2 * eCharge / √hbar) * (((x : ℕ) : ℝ) - 1 - ng i0) : ℝ) : ℂ)) := by
      unfold chargeOpIso qCharge
      rw [if_pos hom]
      ext x y
      by_cases h : x = y
      · subst h
        simp; norm_num
      · simp [h]
    rw [huniv, Finset.sum_singleton, Finset.sum_singleton, hget i0]
    rw [show mem.Q i0 = _ from buildMem_Q M.data (fun _ => 3) ng i0, hQ, single_diagonal,
      diagonal_mul_diagonal]
    intro h
    have hpos : (2 * eCharge / √hbar : ℝ) ≠ 0 :=
      (div_pos (mul_pos two_pos eCharge_pos) (Real.sqrt_pos.2 hbar_pos)).ne'
    have hx : ∃ x : Fin 3, (((x : ℕ) : ℝ) - 1 - ng i0) ≠ 0 := by
      by_cases h1 : ng i0 = -1
      · exact ⟨2, by rw [h1]; norm_num⟩
      · refine ⟨0, fun h2 => h1 ?_⟩
        have : ((0 : ℕ) : ℝ) - 1 - ng i0 = 0 := h2
        push_cast at this; linarith
    obtain ⟨x, hx⟩ := hx
    have h1 := congrFun (congrFun h (fun _ => x)) (fun _ => x)
    simp only [Matrix.smul_apply, diagonal_apply_eq, Matrix.neg_apply, Matrix.zero_apply,
      smul_eq_mul, mul_eq_zero, ofReal_eq_zero] at h1
    simp [hpos, hx] at h1
  · simp only [partialH]
    rw [hcap]
    rw [show quadraticQ mem _ = _ from quadraticQ_pairs M.data (fun _ => 3) ng _]
    refine Finset.sum_eq_zero fun a _ => Finset.sum_eq_zero fun c _ => ?_
    have h0 : headBlock M.keep.length (-diagonal ![0, 1] : Matrix (Fin 2) (Fin 2) ℝ) a c = 0 := by
      have ha : (a : ℕ) = 0 := by have := a.isLt; omega
      have hc : (c : ℕ) = 0 := by have := c.isLt; omega
      simp [headBlock, ha, hc]
    rw [h0]
    simp

/-- `C58_charging_energy_partial` applies to the LC/junction circuit under PyTorch (both modes
retained) and the same capacitor -/
example (ng) (val : ElemId → ℝ) (B : Matrix (Fin 2) (Fin 1) ℝ) (loopVals) (inds juns i) :
    HasDerivOp (fun t => chargingEnergy (M := finishModes true lcFinal)
        (buildMem (finishModes true lcFinal).data (fun _ => 3) ng)
        ((finishModes true lcFinal).Rᵀ * (lcC t)⁻¹ * (finishModes true lcFinal).R))
      (partialH (lcC 1) (finishModes true lcFinal)
        (buildMem (finishModes true lcFinal).data (fun _ => 3) ng) val B loopVals
        (fun _ => diagonal ![0, 1]) inds juns none (.cap i)) 1 :=
  C58_charging_energy_partial lcC _ (C33_aligned_cases lcFinal).1 _ ng val B loopVals _ inds juns i 1
    lcC_deriv (by simp [lcC, Matrix.IsSymm]) (by simp [Matrix.IsSymm]) (by simp [lcC])

/-- an inductor of inductance `t` to ground: the susceptance is `1/t` and the recorded sensitivity
`1/t²`; here at `t = 2` -/
example (ng) (B : Matrix (Fin 2) (Fin 1) ℝ) (loopVals) :
    ∃ F : ℝ → Op _, (∀ t, indTerms 1 exModes (buildMem exModes.data (fun _ => 5) ng)
        (Function.update (fun _ => 2) 0 t) (extFlux B loopVals) [⟨(0, 1), 0, 0⟩] 0 = .ok (F t)) ∧
      HasDerivOp (fun t => inductiveEnergy (M := exModes) (buildMem exModes.data (fun _ => 5) ng)
        (exModes.Sᵀ * (fun t : ℝ => (t⁻¹ • 1 : Matrix (Fin 1) (Fin 1) ℝ)) t * exModes.S) + F t)
        (partialH 1 exModes (buildMem exModes.data (fun _ => 5) ng) (fun _ => 2) B loopVals
          (fun _ => ((2 : ℝ) ^ 2)⁻¹ • 1) [⟨(0, 1), 0, 0⟩] [] none (.ind 0)) 2 :=
  C58_inductive_energy_partial (fun t => t⁻¹ • 1) 1 exModes (by
      intro i
      have : (i : ℕ) = 0 := by have h := i.isLt; simp only [exModes, List.length_singleton] at h; omega
      rw [this]
      simp [exModes]) _ ng (fun _ => 2) B loopVals _ _ _ 0 (by
    intro key hk
    rw [List.mem_singleton] at hk
    subst hk
    exact ⟨by simp, by simp, by simp⟩) (by norm_num) (by
      intro a c
      have := (hasDerivAt_inv (two_ne_zero (α := ℝ))).mul_const ((1 : Matrix (Fin 1) (Fin 1) ℝ) a c)
      simpa using this) (by simp [Matrix.IsSymm]) (by simp [exModes])

end SQ
