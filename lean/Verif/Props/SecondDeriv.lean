import Verif.Props.Eigen
import Verif.Lemmas.BuildKeys

/-! # C61: second derivatives -/

namespace SQ
open Matrix Complex Spec

variable {nJ n b nl : ℕ}

theorem filter_fold_sum {V α : Type*} [AddCommMonoid V] (l : List α) (p : α → Prop) [DecidablePred p]
    (f : α → V) :
    (l.filter (fun x => p x)).foldl (fun acc x => acc + f x) 0
      = (l.map (fun x => if p x then f x else 0)).sum := by
  rw [foldl_add_sum, zero_add]
  induction l with
  | nil => rfl
  | cons a l ih =>
    rw [List.map_cons, List.sum_cons, ← ih]
    by_cases h : p a
    · simp [h]
    · simp [h]

theorem hasDerivOp_const_add {ι κ : Type*} {F : ℝ → Matrix ι κ ℂ} {F' : Matrix ι κ ℂ} {x : ℝ}
    (A : Matrix ι κ ℂ) (h : HasDerivOp F F' x) : HasDerivOp (fun t => A + F t) F' x :=
  fun a b => (h a b).const_add (A a b)

theorem hasDerivOp_add_const {ι κ : Type*} {F : ℝ → Matrix ι κ ℂ} {F' : Matrix ι κ ℂ} {x : ℝ}
    (A : Matrix ι κ ℂ) (h : HasDerivOp F F' x) : HasDerivOp (fun t => F t + A) F' x :=
  fun a b => (h a b).add_const (A a b)

theorem partialH_loop_eq (C : Matrix (Fin n) (Fin n) ℝ) (M : Modes nJ n)
    {m : Fin M.keep.length → ℕ} (mem : OpMem nJ m) (val : ElemId → ℝ)
    (B : Matrix (Fin b) (Fin nl) ℝ) (loopVals : Fin nl → ℝ) (P : ElemId → Matrix (Fin n) (Fin n) ℝ)
    (inds : List (IndKey b)) (juns : List (JunKey b nJ)) (l : Fin nl) (bId : Option (Fin b)) :
    partialH C M mem val B loopVals P inds juns bId (.loop l) =
      (inds.map (fun key => ((B key.bId l / val key.el * Phi0 / √hbar / 2 / Real.pi : ℝ) : ℂ) •
        indOpOf C M mem key)).sum +
      (juns.map (fun key => ((B key.bId l * val key.el : ℝ) : ℂ) •
        sinOp mem key.wId (extFlux B loopVals key.bId))).sum := by
  simp only [partialH]
  rw [foldl_add_sum, foldl_add_sum, zero_add]

/-! ## Flux channel -/

/-- The second derivative used for flux noise and a junction is the derivative of the flux derivative of
the Hamiltonian with respect to the energy of the junction (which may sit on several branches). -/
theorem C61_flux_junction (C : Matrix (Fin n) (Fin n) ℝ) (M : Modes nJ n)
    {m : Fin M.keep.length → ℕ} (mem : OpMem nJ m) (val : ElemId → ℝ)
    (B : Matrix (Fin b) (Fin nl) ℝ) (loopVals : Fin nl → ℝ) (P : ElemId → Matrix (Fin n) (Fin n) ℝ)
    (inds : List (IndKey b)) (juns : List (JunKey b nJ)) (l : Fin nl) (i : ElemId)
    (hi : ∀ key ∈ inds, key.el ≠ i) :
    HasDerivOp (fun t => partialH C M mem (Function.update val i t) B loopVals P inds juns none (.loop l))
      (partialSquaredHphi C M mem val B loopVals inds juns l (.jun i)) (val i) := by
  simp only [partialH_loop_eq, partialSquaredHphi]
  rw [filter_fold_sum]
  have h1 : ∀ t, (inds.map (fun key => ((B key.bId l / Function.update val i t key.el * Phi0 / √hbar / 2 /
      Real.pi : ℝ) : ℂ) • indOpOf C M mem key)) = inds.map (fun key =>
      ((B key.bId l / val key.el * Phi0 / √hbar / 2 / Real.pi : ℝ) : ℂ) • indOpOf C M mem key) := by
    intro t
    exact List.map_congr_left fun key hkey => by rw [Function.update_of_ne (hi key hkey)]
  simp only [h1]
  refine hasDerivOp_const_add _ ?_
  refine hasDerivOp_list_sum juns (fun key t => ((B key.bId l * Function.update val i t key.el : ℝ) : ℂ) •
        sinOp mem key.wId (extFlux B loopVals key.bId)) _ (x := val i) fun key _ => ?_
  by_cases h : key.el = i
  · subst h
    rw [if_pos rfl]
    simp only [Function.update_self]
    refine hasDerivOp_smul_const ?_ _
    simpa using (hasDerivAt_id (val key.el)).const_mul (B key.bId l)
  · rw [if_neg h]
    simp only [Function.update_of_ne h]
    exact hasDerivOp_const _

/-- The same for an inductor. -/
theorem C61_flux_inductor (C : Matrix (Fin n) (Fin n) ℝ) (M : Modes nJ n)
    {m : Fin M.keep.length → ℕ} (mem : OpMem nJ m) (val : ElemId → ℝ)
    (B : Matrix (Fin b) (Fin nl) ℝ) (loopVals : Fin nl → ℝ) (P : ElemId → Matrix (Fin n) (Fin n) ℝ)
    (inds : List (IndKey b)) (juns : List (JunKey b nJ)) (l : Fin nl) (i : ElemId)
    (hi : ∀ key ∈ juns, key.el ≠ i) (hv : val i ≠ 0) :
    HasDerivOp (fun t => partialH C M mem (Function.update val i t) B loopVals P inds juns none (.loop l))
      (partialSquaredHphi C M mem val B loopVals inds juns l (.ind i)) (val i) := by
  simp only [partialH_loop_eq, partialSquaredHphi]
  rw [filter_fold_sum]
  have h1 : ∀ t, (juns.map (fun key => ((B key.bId l * Function.update val i t key.el : ℝ) : ℂ) •
        sinOp mem key.wId (extFlux B loopVals key.bId))) = juns.map (fun key =>
      ((B key.bId l * val key.el : ℝ) : ℂ) • sinOp mem key.wId (extFlux B loopVals key.bId)) := by
    intro t
    exact List.map_congr_left fun key hkey => by rw [Function.update_of_ne (hi key hkey)]
  simp only [h1]
  refine hasDerivOp_add_const _ ?_
  refine hasDerivOp_list_sum inds (fun key t => ((B key.bId l / Function.update val i t key.el * Phi0 /
    √hbar / 2 / Real.pi : ℝ) : ℂ) • indOpOf C M mem key) _ (x := val i) fun key _ => ?_
  by_cases h : key.el = i
  · subst h
    rw [if_pos rfl]
    simp only [Function.update_self]
    refine hasDerivOp_smul_const ?_ _
    have h2 := (((((hasDerivAt_inv hv).const_mul (B key.bId l)).mul_const Phi0).div_const (√hbar)).div_const
      2).div_const Real.pi
    refine h2.congr_deriv ?_
    rw [div_neg, div_eq_mul_inv (B key.bId l)]
    ring
  · rw [if_neg h]
    simp only [Function.update_of_ne h]
    exact hasDerivOp_const _

/-- The same for the flux of a second loop, or of the same loop. -/
theorem C61_flux_loop (C : Matrix (Fin n) (Fin n) ℝ) (M : Modes nJ n)
    {m : Fin M.keep.length → ℕ} (mem : OpMem nJ m) (val : ElemId → ℝ)
    (B : Matrix (Fin b) (Fin nl) ℝ) (loopVals : Fin nl → ℝ) (P : ElemId → Matrix (Fin n) (Fin n) ℝ)
    (inds : List (IndKey b)) (juns : List (JunKey b nJ)) (l l2 : Fin nl) :
    HasDerivOp (fun t => partialH C M mem val B (Function.update loopVals l2 t) P inds juns none (.loop l))
      (partialSquaredHphi C M mem val B loopVals inds juns l (.loop l2)) (loopVals l2) := by
  simp only [partialH_loop_eq, partialSquaredHphi]
  rw [foldl_add_sum]
  rw [zero_add]
  refine hasDerivOp_const_add _ ?_
  refine hasDerivOp_list_sum juns (fun key t => ((B key.bId l * val key.el : ℝ) : ℂ) •
    sinOp mem key.wId (extFlux B (Function.update loopVals l2 t) key.bId)) _ (x := loopVals l2)
    fun key _ => ?_
  have h := hasDerivOp_const_smul ((B key.bId l * val key.el : ℝ) : ℂ)
    (sinOp_deriv mem key.wId (extFlux_deriv B loopVals l2 key.bId (loopVals l2)))
  rw [Function.update_eq_self, smul_smul] at h
  convert h using 2
  push_cast; ring

/-- A capacitor does not enter the flux derivative, and the second derivative used is zero. -/
theorem C61_flux_capacitor (C C' : Matrix (Fin n) (Fin n) ℝ) (M : Modes nJ n) (hk : M.keep.length ≤ n)
    {m : Fin M.keep.length → ℕ} (mem : OpMem nJ m) (val : ElemId → ℝ)
    (B : Matrix (Fin b) (Fin nl) ℝ) (loopVals : Fin nl → ℝ) (P : ElemId → Matrix (Fin n) (Fin n) ℝ)
    (inds : List (IndKey b)) (juns : List (JunKey b nJ)) (hv : ∀ key ∈ inds, ValidEdge n key.edge)
    (l : Fin nl) (i : ElemId) (hi : ∀ key ∈ inds, key.el ≠ i) (hj : ∀ key ∈ juns, key.el ≠ i) (t : ℝ) :
    partialH C' M mem (Function.update val i t) B loopVals P inds juns none (.loop l) =
      partialH C M mem val B loopVals P inds juns none (.loop l) ∧
    partialSquaredHphi C M mem val B loopVals inds juns l (.cap i) = 0 := by
  refine ⟨?_, rfl⟩
  simp only [partialH_loop_eq]
  congr 2
  · refine List.map_congr_left fun key hkey => ?_
    rw [Function.update_of_ne (hi key hkey), indOpOf_eq C M hk mem (hv key hkey),
      indOpOf_eq C' M hk mem (hv key hkey)]
  · exact List.map_congr_left fun key hkey => by rw [Function.update_of_ne (hj key hkey)]

/-! ## Critical-current channel -/

/-- the operator of a single junction branch -/
theorem partialH_branch (C : Matrix (Fin n) (Fin n) ℝ) (M : Modes nJ n)
    {m : Fin M.keep.length → ℕ} (mem : OpMem nJ m) (val : ElemId → ℝ)
    (B : Matrix (Fin b) (Fin nl) ℝ) (loopVals : Fin nl → ℝ) (P : ElemId → Matrix (Fin n) (Fin n) ℝ)
    (inds : List (IndKey b)) (juns : List (JunKey b nJ)) (hnd : (juns.map (·.bId)).Nodup)
    (key : JunKey b nJ) (hkey : key ∈ juns) :
    partialH C M mem val B loopVals P inds juns (some key.bId) (.jun key.el) =
      (-1 : ℂ) • cosOp mem key.wId (extFlux B loopVals key.bId) := by
  simp only [partialH]
  rw [foldl_if_sum, zero_add]
  induction juns with
  | nil => cases hkey
  | cons a juns ih =>
    rw [List.map_cons, List.nodup_cons] at hnd
    rw [List.map_cons, List.sum_cons]
    rcases List.mem_cons.1 hkey with h | h
    · subst h
      rw [if_pos ⟨rfl, Or.inr rfl⟩]
      have h0 : juns.map (fun x => if x.el = key.el ∧ (some key.bId = none ∨ some key.bId = some x.bId) then
          (-1 : ℂ) • cosOp mem x.wId (extFlux B loopVals x.bId) else 0) = juns.map (fun _ => 0) := by
        refine List.map_congr_left fun x hx => if_neg ?_
        rintro ⟨-, h2 | h2⟩
        · cases h2
        · exact hnd.1 (List.mem_map.2 ⟨x, hx, (Option.some.inj h2).symm⟩)
      rw [h0]; simp
    · rw [ih hnd.2 h, if_neg, zero_add]
      rintro ⟨-, h2 | h2⟩
      · cases h2
      · exact hnd.1 (List.mem_map.2 ⟨key, h, Option.some.inj h2⟩)

/-- The second derivative used for critical-current noise of a junction branch and a loop is the
derivative, with respect to the flux of the loop, of the first derivative used for that branch. Every
other element leaves the first derivative as it is, and zero is used. -/
theorem C61_critical_current (C : Matrix (Fin n) (Fin n) ℝ) (M : Modes nJ n)
    {m : Fin M.keep.length → ℕ} (mem : OpMem nJ m) (val : ElemId → ℝ)
    (B : Matrix (Fin b) (Fin nl) ℝ) (loopVals : Fin nl → ℝ) (P : ElemId → Matrix (Fin n) (Fin n) ℝ)
    (inds : List (IndKey b)) (juns : List (JunKey b nJ)) (hnd : (juns.map (·.bId)).Nodup)
    (key : JunKey b nJ) (hkey : key ∈ juns) :
    (∀ l, HasDerivOp
      (fun t => partialH C M mem val B (Function.update loopVals l t) P inds juns (some key.bId) (.jun key.el))
      (partialSquaredHEJ mem B loopVals key (.loop l)) (loopVals l)) ∧
    (∀ (C' : Matrix (Fin n) (Fin n) ℝ) (val' : ElemId → ℝ),
      partialH C' M mem val' B loopVals P inds juns (some key.bId) (.jun key.el) =
        partialH C M mem val B loopVals P inds juns (some key.bId) (.jun key.el)) ∧
    ∀ i, partialSquaredHEJ mem B loopVals key (.cap i) = 0 ∧ partialSquaredHEJ mem B loopVals key (.ind i) = 0 ∧
      partialSquaredHEJ mem B loopVals key (.jun i) = 0 := by
  refine ⟨fun l => ?_, fun C' val' => rfl, fun i => ⟨rfl, rfl, rfl⟩⟩
  have e : ∀ t, partialH C M mem val B (Function.update loopVals l t) P inds juns (some key.bId)
      (.jun key.el) = (-1 : ℂ) • cosOp mem key.wId (extFlux B (Function.update loopVals l t) key.bId) :=
    fun t => partialH_branch C M mem val B _ P inds juns hnd key hkey
  simp only [e]
  have h := hasDerivOp_const_smul (-1 : ℂ)
    (cosOp_deriv mem key.wId (extFlux_deriv B loopVals l key.bId (loopVals l)))
  rw [Function.update_eq_self, smul_smul] at h
  convert h using 1
  simp [partialSquaredHEJ]

/-- Flux and critical-current channels of a constructed circuit: any circuit without self-loops, any
truncation, charge offsets, element values and fluxes. -/
theorem C61_circuit (c : CircSpec) (hs : NoSelfLoops c.els) (v0 : ElemId → ℝ) (bd : Build)
    (hb : buildCirc c v0 = .ok bd) (m : Fin bd.M.keep.length → ℕ) (ng : Fin bd.M.keep.length → ℝ)
    (val : ElemId → ℝ) (fluxes : Fin bd.loops.length → ℝ) (P : ElemId → Matrix (Fin bd.n) (Fin bd.n) ℝ) :
    let mem := buildMem bd.M.data m ng
    let dHphi := fun (v : ElemId → ℝ) (f : Fin bd.loops.length → ℝ) l =>
      partialH bd.C bd.M mem v bd.B f P bd.inds bd.juns none (.loop l)
    let dHEJ := fun (v : ElemId → ℝ) (f : Fin bd.loops.length → ℝ) (key : JunKey bd.nB bd.nJ) =>
      partialH bd.C bd.M mem v bd.B f P bd.inds bd.juns (some key.bId) (.jun key.el)
    (∀ l i, (c.O.elem i).kind = .jj →
      HasDerivOp (fun t => dHphi (Function.update val i t) fluxes l)
        (partialSquaredHphi bd.C bd.M mem val bd.B fluxes bd.inds bd.juns l (.jun i)) (val i)) ∧
    (∀ l i, (c.O.elem i).kind = .ind → val i ≠ 0 →
      HasDerivOp (fun t => dHphi (Function.update val i t) fluxes l)
        (partialSquaredHphi bd.C bd.M mem val bd.B fluxes bd.inds bd.juns l (.ind i)) (val i)) ∧
    (∀ l l2, HasDerivOp (fun t => dHphi val (Function.update fluxes l2 t) l)
        (partialSquaredHphi bd.C bd.M mem val bd.B fluxes bd.inds bd.juns l (.loop l2)) (fluxes l2)) ∧
    (∀ l i, (c.O.elem i).kind = .cap →
      HasDerivOp (fun t => dHphi (Function.update val i t) fluxes l)
        (partialSquaredHphi bd.C bd.M mem val bd.B fluxes bd.inds bd.juns l (.cap i)) (val i)) ∧
    (∀ key ∈ bd.juns, ∀ l, HasDerivOp (fun t => dHEJ val (Function.update fluxes l t) key)
        (partialSquaredHEJ mem bd.B fluxes key (.loop l)) (fluxes l)) ∧
    (∀ key ∈ bd.juns, ∀ i, HasDerivOp (fun t => dHEJ (Function.update val i t) fluxes key)
        (partialSquaredHEJ (nl := bd.loops.length) mem bd.B fluxes key (.jun i)) (val i)) := by
  intro mem dHphi dHEJ
  obtain ⟨h1, h2⟩ := build_valid hs hb
  obtain ⟨k1, k2, k3⟩ := build_keys hs hb
  refine ⟨?_, ?_, ?_, ?_, ?_, ?_⟩
  · intro l i hi
    exact C61_flux_junction _ _ _ _ _ _ P _ _ l i (fun key hk he => by
      have := k1 key hk; rw [he, hi] at this; cases this)
  · intro l i hi hv
    exact C61_flux_inductor _ _ _ _ _ _ P _ _ l i (fun key hk he => by
      have := k2 key hk; rw [he, hi] at this; cases this) hv
  · exact fun l l2 => C61_flux_loop _ _ _ _ _ _ P _ _ l l2
  · intro l i hi
    have h : ∀ t, dHphi (Function.update val i t) fluxes l = dHphi val fluxes l := fun t =>
      (C61_flux_capacitor bd.C bd.C bd.M h1 mem val bd.B fluxes P bd.inds bd.juns h2 l i
        (fun key hk he => by have := k1 key hk; rw [he, hi] at this; cases this)
        (fun key hk he => by have := k2 key hk; rw [he, hi] at this; cases this) t).1
    simp only [h]
    exact hasDerivOp_const _
  · exact fun key hk l => (C61_critical_current _ _ _ _ _ _ P _ _ k3 key hk).1 l
  · exact fun key hk i => hasDerivOp_const _

/-- two loops sharing a junction, an inductor in the first loop -/
example (mem : OpMem 1 (fun _ : Fin exModes.keep.length => 5)) (val : ElemId → ℝ) (P) :
    HasDerivOp (fun t => partialH 1 exModes mem val !![1/2, 0; 1/2, 1] (Function.update ![3, 4] 1 t) P
        [⟨(0, 1), 0, 0⟩] [⟨(0, 1), 1, 1, 0⟩] none (.loop 0))
      (partialSquaredHphi 1 exModes mem val !![1/2, 0; 1/2, 1] ![3, 4] [⟨(0, 1), 0, 0⟩]
        [⟨(0, 1), 1, 1, 0⟩] 0 (.loop 1)) 4 :=
  C61_flux_loop 1 exModes mem val _ ![3, 4] P _ _ 0 1

/-- the LC/junction circuit is constructed; it has a junction branch and no self-loops -/
example {sv : SvdFn} (hsv : SvdSpec sv) {argsort : ArgsortFn} (ha : ArgsortSpec argsort)
    (argmax : ∀ k, ArgmaxFn k) :
    ∃ bd, buildCirc (lcSpec true sv argsort argmax) lcVals = .ok bd ∧
      NoSelfLoops (lcSpec true sv argsort argmax).els ∧ bd.juns ≠ [] :=
  ⟨_, lc_build_init hsv ha argmax true, lc_noSelf true, by
    intro h; exact absurd (congrArg List.length h) (by decide)⟩

/-! ## Charge channel -/

theorem partialHng_eq {k : ℕ} (cInv : Matrix (Fin k) (Fin k) ℝ) {m : Fin k → ℕ} (mem : OpMem nJ m)
    (i : Fin k) : partialHng cInv mem i = ∑ j, ((cInv i j / √hbar : ℝ) : ℂ) • mem.Q j := by
  unfold partialHng
  rw [foldl_add_sum, zero_add, finRange_map_sum]

/-- Charge channel, the part that holds: if the coordinate transformation is trivial (`R = 1`) and no
mode was removed, the second derivative used for charge noise and a capacitor is the derivative of the
first derivative with respect to the capacitance. Missing: circuits with `R ≠ 1`, see
`C61_charge_refuted`. For the other kinds of elements `C61_charge_others`. -/
theorem C61_charge_capacitor_partial (C : ℝ → Matrix (Fin n) (Fin n) ℝ) (R : Matrix (Fin n) (Fin n) ℝ)
    (hR : R = 1) {m : Fin n → ℕ} (mem : OpMem nJ m) (P : ElemId → Matrix (Fin n) (Fin n) ℝ) (i : Fin n)
    (c : ElemId) (x : ℝ) (hC : HasDerivMat C (P c) x) (hdet : (C x).det ≠ 0) :
    HasDerivOp (fun t => partialHng (Rᵀ * (C t)⁻¹ * R) mem i)
      (partialSquaredHng (nl := nl) (C x) mem P i (.cap c)) x := by
  subst hR
  simp only [Matrix.transpose_one, one_mul, mul_one, partialHng_eq, partialSquaredHng]
  rw [foldl_add_sum, zero_add, finRange_map_sum, ← Finset.sum_neg_distrib]
  intro a b'
  simp only [Matrix.sum_apply, Matrix.smul_apply, Matrix.neg_apply, smul_eq_mul]
  refine HasDerivAt.fun_sum fun j _ => ?_
  have h := (((hasDerivMat_inv hC hdet i j).div_const (√hbar)).ofReal_comp).mul_const (mem.Q j a b')
  refine h.congr_deriv ?_
  have e : headBlock n ((C x)⁻¹ * P c * (C x)⁻¹) i j = ((C x)⁻¹ * P c * (C x)⁻¹) i j := by
    simp [headBlock]
  rw [e, Matrix.neg_apply]
  push_cast
  ring

/-- Charge channel, other kinds of elements: the first derivative does not involve them (the operators
and the transformed capacitances being held fixed), and zero is used. -/
theorem C61_charge_others {k : ℕ} (C : Matrix (Fin n) (Fin n) ℝ) {m : Fin k → ℕ} (mem : OpMem nJ m)
    (P : ElemId → Matrix (Fin n) (Fin n) ℝ) (i : Fin k) (e : ElemId) (l : Fin nl) :
    partialSquaredHng (nl := nl) C mem P i (.ind e) = 0 ∧ partialSquaredHng (nl := nl) C mem P i (.jun e) = 0 ∧
      partialSquaredHng C mem P i (.loop l) = 0 := ⟨rfl, rfl, rfl⟩

/-- one capacitor to ground in a circuit with one node and trivial transformation -/
example (mem : OpMem 1 (fun _ : Fin 1 => 5)) : HasDerivOp
    (fun t => partialHng ((1 : Matrix (Fin 1) (Fin 1) ℝ)ᵀ * (!![t])⁻¹ * 1) mem 0)
      (partialSquaredHng (nl := 1) !![2] mem (fun _ => 1) 0 (.cap 0)) 2 :=
  C61_charge_capacitor_partial (fun t => !![t]) 1 rfl mem _ 0 0 2 (by
    intro a b
    fin_cases a; fin_cases b
    exact hasDerivAt_id (2 : ℝ)) (by simp)

/-- charge operator of a charge mode -/
theorem charge_Q {k : ℕ} (D : ModeData nJ k) (m : Fin k → ℕ) (ng : Fin k → ℝ) {i : Fin k}
    (h : D.omega i = 0) : (buildMem D m ng).Q i = diagonal (fun x : Idx m =>
      ((2 * eCharge / √hbar : ℝ) : ℂ) * ((((x i : ℕ) : ℂ) - ((m i : ℂ) - 1) / 2) - ((ng i : ℝ) : ℂ))) := by
  have e : chargeOpIso D m ng i = diagonal (fun x : Fin (m i) => ((2 * eCharge / √hbar : ℝ) : ℂ) *
      ((((x : ℕ) : ℂ) - ((m i : ℂ) - 1) / 2) - ((ng i : ℝ) : ℂ))) := by
    unfold chargeOpIso qCharge
    rw [if_pos h]
    ext a b
    by_cases hab : a = b
    · subst hab; simp
    · simp [hab]
  rw [buildMem_Q, e, single_diagonal]

/-- two junctions in series to ground: `W` of the circuit with junctions on the edges (0,1), (1,2) -/
def seriesW : Matrix (Fin 2) (Fin 2) ℝ := !![1, 0; -1, 1]

/-- its coordinate transformation: both rows of `W S` become unit vectors -/
def seriesS : Matrix (Fin 2) (Fin 2) ℝ := !![1, 0; 1, 1]

def seriesR : Matrix (Fin 2) (Fin 2) ℝ := !![1, -1; 0, 1]

/-- capacitance matrix as a function of the capacitance at node 1: the other capacitances are chosen
such that it is the identity at 1 -/
def seriesC (t : ℝ) : Matrix (Fin 2) (Fin 2) ℝ := !![t, 0; 0, 1]

/-- its derivative -/
def seriesP : Matrix (Fin 2) (Fin 2) ℝ := !![1, 0; 0, 0]

/-- The code's second derivative for charge noise omits the transformation `R`: for the transformed
coordinates of two junctions in series (`S` maps `W` to the identity and `R = S⁻ᵀ`, as C27–C29
require) the derivative of the first derivative with respect to a capacitance is another operator than
the one used, for every truncation with at least two charge states in the second mode. -/
theorem C61_charge_refuted :
    seriesW * seriesS = 1 ∧ seriesSᵀ * seriesR = 1 ∧ (seriesC 1).PosDef ∧
    HasDerivMat seriesC seriesP 1 ∧
    ∀ (D : ModeData nJ 2) (_ : ∀ i, D.omega i = 0) (m : Fin 2 → ℕ) (_ : 1 ≤ m 0) (_ : 2 ≤ m 1)
      (ng : Fin 2 → ℝ) (P : ElemId → Matrix (Fin 2) (Fin 2) ℝ), P 0 = seriesP →
      ¬ HasDerivOp (fun t => partialHng (seriesRᵀ * (seriesC t)⁻¹ * seriesR) (buildMem D m ng) 0)
        (partialSquaredHng (nl := nl) (seriesC 1) (buildMem D m ng) P 0 (.cap 0)) 1 := by
  have hC1 : seriesC 1 = 1 := by
    ext a b; fin_cases a <;> fin_cases b <;> rfl
  have hder : HasDerivMat seriesC seriesP 1 := by
    intro a b
    fin_cases a <;> fin_cases b
    · exact hasDerivAt_id (1 : ℝ)
    all_goals exact hasDerivAt_const (1 : ℝ) _
  refine ⟨?_, ?_, ?_, hder, ?_⟩
  · ext a b; fin_cases a <;> fin_cases b <;> simp [seriesW, seriesS, Matrix.mul_apply, Fin.sum_univ_two]
  · ext a b; fin_cases a <;> fin_cases b <;> simp [seriesR, seriesS, Matrix.mul_apply, Fin.sum_univ_two]
  · rw [hC1]; exact Matrix.PosDef.one
  · intro D h0 m hm0 hm1 ng P hP hcon
    have hinv := hasDerivMat_inv hder (by rw [hC1]; simp)
    have hmat := hasDerivMat_mul_const hinv seriesRᵀ seriesR
    have htrue : HasDerivOp (fun t => partialHng (seriesRᵀ * (seriesC t)⁻¹ * seriesR) (buildMem D m ng) 0)
        (∑ j, (((seriesRᵀ * -((seriesC 1)⁻¹ * seriesP * (seriesC 1)⁻¹) * seriesR : Matrix (Fin 2) (Fin 2) ℝ) 0 j / √hbar : ℝ) : ℂ) •
          (buildMem D m ng).Q j) 1 := by
      simp only [partialHng_eq]
      intro a b'
      simp only [Matrix.sum_apply, Matrix.smul_apply, smul_eq_mul]
      exact HasDerivAt.fun_sum fun j _ =>
        (((hmat 0 j).div_const (√hbar)).ofReal_comp).mul_const ((buildMem D m ng).Q j a b')
    have hq : ∀ x : Idx m, (buildMem D m ng).Q 1 x x = 0 := by
      intro x
      have h1 := (htrue x x).unique (hcon x x)
      simp only [partialSquaredHng] at h1
      rw [foldl_add_sum, zero_add, finRange_map_sum, hP, hC1] at h1
      have e0 : (seriesRᵀ * -((1 : Matrix (Fin 2) (Fin 2) ℝ)⁻¹ * seriesP * 1⁻¹) * seriesR : Matrix (Fin 2) (Fin 2) ℝ) 0 0 = -1 := by
        simp [seriesR, seriesP, Matrix.mul_apply, Fin.sum_univ_two]
      have e1 : (seriesRᵀ * -((1 : Matrix (Fin 2) (Fin 2) ℝ)⁻¹ * seriesP * 1⁻¹) * seriesR : Matrix (Fin 2) (Fin 2) ℝ) 0 1 = 1 := by
        simp [seriesR, seriesP, Matrix.mul_apply, Fin.sum_univ_two]
      have f0 : headBlock 2 ((1 : Matrix (Fin 2) (Fin 2) ℝ)⁻¹ * seriesP * 1⁻¹) 0 0 = 1 := by
        simp [headBlock, seriesP]
      have f1 : headBlock 2 ((1 : Matrix (Fin 2) (Fin 2) ℝ)⁻¹ * seriesP * 1⁻¹) 0 1 = 0 := by
        simp [headBlock, seriesP]
      rw [Fin.sum_univ_two, Fin.sum_univ_two, e0, e1, f0, f1] at h1
      simp only [Matrix.add_apply, Matrix.neg_apply, Matrix.smul_apply, smul_eq_mul] at h1
      have hs : ((1 / √hbar : ℝ) : ℂ) ≠ 0 := by
        rw [ofReal_ne_zero]
        exact (div_pos one_pos (Real.sqrt_pos.2 hbar_pos)).ne'
      have h2 : ((1 / √hbar : ℝ) : ℂ) * (buildMem D m ng).Q 1 x x = 0 := by
        push_cast at h1 ⊢
        linear_combination h1
      exact (mul_eq_zero.1 h2).resolve_left hs
    have hne : (2 * eCharge / √hbar : ℝ) ≠ 0 :=
      (div_pos (mul_pos two_pos eCharge_pos) (Real.sqrt_pos.2 hbar_pos)).ne'
    have hval : ∀ x : Idx m, (((x 1 : ℕ) : ℂ) - ((m 1 : ℂ) - 1) / 2) - ((ng 1 : ℝ) : ℂ) = 0 := by
      intro x
      have h1 := hq x
      rw [charge_Q D m ng (h0 1), diagonal_apply_eq] at h1
      exact (mul_eq_zero.1 h1).resolve_left (ofReal_ne_zero.2 hne)
    let x0 : Idx m := fun i => ⟨0, by fin_cases i <;> simp <;> omega⟩
    let x1 : Idx m := Function.update x0 1 ⟨1, hm1⟩
    have h1 := hval x0
    have h2 := hval x1
    have e1 : ((x1 1 : ℕ) : ℂ) = 1 := by simp [x1]
    have e0 : ((x0 1 : ℕ) : ℂ) = 0 := by simp [x0]
    rw [e0] at h1
    rw [e1] at h2
    have : (1 : ℂ) = 0 := by linear_combination h2 - h1
    exact one_ne_zero this

/-! ## Second derivatives of transition frequencies -/

variable {ι : Type*} [Fintype ι]

theorem braket_add_left (u v : ι → ℂ) (A : Matrix ι ι ℂ) (w : ι → ℂ) :
    braket (u + v) A w = braket u A w + braket v A w := by
  rw [braket_right, braket_right, braket_right, ← overlap_conj, overlap_add, map_add, overlap_conj,
    overlap_conj]

theorem braket_smul_left (z : ℂ) (u : ι → ℂ) (A : Matrix ι ι ℂ) (w : ι → ℂ) :
    braket (z • u) A w = (starRingEnd ℂ) z * braket u A w := by
  rw [braket_right, braket_right, overlap_smul_left]

/-- derivative of an expectation value along a branch, in terms of `get_partial_vec` -/
theorem expect_deriv {H G : ℝ → Matrix ι ι ℂ} {dH d2 : Matrix ι ι ℂ} {x : ℝ} (hH : (H x).IsHermitian)
    (hd : HasDerivOp H dH x) (hG : (G x).IsHermitian) (hG' : HasDerivOp G d2 x) {lam : ℝ → ℝ}
    {psi : ℝ → ι → ℂ} {dpsi : ι → ℂ} (hbr : EigenBranch H lam psi dpsi x) (evecs : List (ι → ℂ))
    (efreqs : List ℝ) (hb : Eigenbasis (H x) evecs efreqs) (m : Fin evecs.length)
    (hm : evecs.get m = psi x)
    (hsimple : ∀ n : Fin evecs.length, n ≠ m →
      efreqs.get (n.cast hb.len.symm) ≠ efreqs.get (m.cast hb.len.symm)) :
    ∃ v, partialVec evecs efreqs dH (m : ℕ) 0 = .ok v ∧
      HasDerivAt (fun t => (braket (psi t) (G t) (psi t)).re)
        (2 * (braket v (G x) (psi x)).re + (braket (psi x) d2 (psi x)).re) x := by
  obtain ⟨v, hv, hdpsi, hz⟩ := C60_is_derivative hH hd hbr evecs efreqs hb m hm hsimple
  refine ⟨v, hv, (hasDerivAt_re' (braket_deriv hG' hbr.deriv hbr.deriv)).congr_deriv ?_⟩
  have h1 : (braket dpsi (G x) (psi x)).re = (braket v (G x) (psi x)).re := by
    conv_lhs => rw [hdpsi]
    rw [braket_add_left, braket_smul_left, add_re, braket_self_re hG]
    have : ((starRingEnd ℂ) (overlap (psi x) dpsi) * (((braket (psi x) (G x) (psi x)).re : ℝ) : ℂ)).re = 0 := by
      rw [re_mul_ofReal, conj_re, hz, zero_mul]
    rw [this, add_zero]
  have h2 : (braket (psi x) (G x) dpsi).re = (braket dpsi (G x) (psi x)).re := by
    rw [← braket_conj hG, conj_re]
  rw [add_re, add_re, h2, h1]
  ring

/-- Along differentiable branches of eigenvectors, `partial_squared_omega` (with epsilon 0 in the
eigenvector derivatives) is the derivative of the sensitivity
`⟨m|G|m⟩ - ⟨n|G|n⟩` of a transition frequency with respect to the gradient parameter. -/
theorem C61_second_derivative {H G : ℝ → Matrix ι ι ℂ} {dH d2 : Matrix ι ι ℂ} {x : ℝ}
    (hH : (H x).IsHermitian) (hd : HasDerivOp H dH x) (hG : (G x).IsHermitian) (hG' : HasDerivOp G d2 x)
    {lam lam' : ℝ → ℝ} {psi psi' : ℝ → ι → ℂ} {dpsi dpsi' : ι → ℂ} (hbr : EigenBranch H lam psi dpsi x)
    (hbr' : EigenBranch H lam' psi' dpsi' x) (evecs : List (ι → ℂ)) (efreqs : List ℝ)
    (hb : Eigenbasis (H x) evecs efreqs) (m m' : Fin evecs.length) (hm : evecs.get m = psi x)
    (hm' : evecs.get m' = psi' x)
    (hsimple : ∀ k k' : Fin evecs.length, k ≠ k' →
      efreqs.get (k.cast hb.len.symm) ≠ efreqs.get (k'.cast hb.len.symm)) :
    ∃ v v', partialVec evecs efreqs dH (m : ℕ) 0 = .ok v ∧ partialVec evecs efreqs dH (m' : ℕ) 0 = .ok v' ∧
      HasDerivAt (fun t => (braket (psi t) (G t) (psi t) - braket (psi' t) (G t) (psi' t)).re)
        (partialSquaredOmega (psi x) v (psi' x) v' (G x) d2) x := by
  obtain ⟨v, hv, h1⟩ := expect_deriv hH hd hG hG' hbr evecs efreqs hb m hm (fun k hk => hsimple k m hk)
  obtain ⟨v', hv', h2⟩ := expect_deriv hH hd hG hG' hbr' evecs efreqs hb m' hm' (fun k hk => hsimple k m' hk)
  refine ⟨v, v', hv, hv', ?_⟩
  simp only [sub_re]
  refine (h1.fun_sub h2).congr_deriv ?_
  simp only [partialSquaredOmega, innerOp_eq, add_re, sub_re, ofReal_re]
  ring

/-- the lower branch of the rotating two-level system -/
theorem exH_branch0 : EigenBranch exH (fun _ => -1)
    (fun t => ![((-Real.sin t : ℝ) : ℂ), ((Real.cos t : ℝ) : ℂ)]) ![-1, 0] 0 := by
  refine ⟨?_, Filter.Eventually.of_forall fun t => ?_, Filter.Eventually.of_forall fun t => ?_⟩
  · intro a
    fin_cases a
    · have := (Real.hasDerivAt_sin 0).neg.ofReal_comp
      simpa using this
    · have := (Real.hasDerivAt_cos 0).ofReal_comp
      simpa using this
  · have hsc := Real.sin_sq_add_cos_sq t
    funext a
    fin_cases a
    · simp only [exH, Matrix.mulVec, dotProduct, Fin.sum_univ_two, Fin.zero_eta, Fin.isValue, Matrix.of_apply,
        Matrix.cons_val', Matrix.cons_val_zero, Matrix.cons_val_one, Matrix.cons_val_fin_one,
        Pi.smul_apply, smul_eq_mul]
      rw [← ofReal_mul, ← ofReal_mul, ← ofReal_mul, ← ofReal_add]
      congr 1
      linear_combination (Real.sin t) * hsc
    · simp only [exH, Matrix.mulVec, dotProduct, Fin.sum_univ_two, Fin.mk_one, Fin.isValue, Matrix.of_apply,
        Matrix.cons_val', Matrix.cons_val_zero, Matrix.cons_val_one, Matrix.cons_val_fin_one,
        Pi.smul_apply, smul_eq_mul]
      rw [← ofReal_mul, ← ofReal_mul, ← ofReal_mul, ← ofReal_add]
      congr 1
      linear_combination (-Real.cos t) * hsc
  · rw [Fin.sum_univ_two]
    simp only [Matrix.cons_val_zero, Matrix.cons_val_one, Matrix.cons_val_fin_one, conj_ofReal]
    norm_cast
    linear_combination Real.sin_sq_add_cos_sq t

theorem exEvecs_simple' (k k' : Fin exEvecs.length) (hn : k ≠ k') :
    ([-1, 1] : List ℝ).get (k.cast exEvecs_basis.len.symm) ≠
      ([-1, 1] : List ℝ).get (k'.cast exEvecs_basis.len.symm) := by
  have hc : ∀ q : Fin exEvecs.length, q = (⟨0, by decide⟩ : Fin exEvecs.length) ∨
      q = (⟨1, by decide⟩ : Fin exEvecs.length) := by
    intro q
    have := q.isLt
    simp only [exEvecs, List.length_cons, List.length_nil] at this
    have h : (q : ℕ) = 0 ∨ (q : ℕ) = 1 := by omega
    exact h.imp (fun h => Fin.ext h) (fun h => Fin.ext h)
  rcases hc k with rfl | rfl <;> rcases hc k' with rfl | rfl
  · exact absurd rfl hn
  · norm_num
  · norm_num
  · exact absurd rfl hn

/-- the hypotheses are met by the rotating two-level system and any differentiable `G` -/
example {G : ℝ → Matrix (Fin 2) (Fin 2) ℂ} {d2} (hG : (G 0).IsHermitian) (hG' : HasDerivOp G d2 0) :
    ∃ psi psi' : ℝ → Fin 2 → ℂ, psi ≠ psi' ∧
    ∃ v v', partialVec exEvecs [-1, 1] exdH 1 0 = .ok v ∧ partialVec exEvecs [-1, 1] exdH 0 0 = .ok v' ∧
      HasDerivAt (fun t => (braket (psi t) (G t) (psi t) - braket (psi' t) (G t) (psi' t)).re)
        (partialSquaredOmega (psi 0) v (psi' 0) v' (G 0) d2) 0 :=
  ⟨_, _, fun h => by simpa using congrFun (congrFun h 0) 0,
    C61_second_derivative exH_herm exH_deriv hG hG' exH_branch exH_branch0 exEvecs [-1, 1] exEvecs_basis
      ⟨1, by decide⟩ ⟨0, by decide⟩ (by funext a; fin_cases a <;> simp [exEvecs])
      (by funext a; fin_cases a <;> simp [exEvecs]) exEvecs_simple'⟩

end SQ
