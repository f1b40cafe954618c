import Verif.Spec.Grad
import Verif.Lemmas.Hamil
import Verif.Props.Traverse
import Mathlib.Analysis.Calculus.Deriv.Mul
import Mathlib.Analysis.Calculus.Deriv.Star
import Mathlib.Analysis.SpecialFunctions.ExpDeriv
import Mathlib.Analysis.SpecialFunctions.Complex.LogDeriv

/-!
# Lemmas on derivatives of the Hamiltonian
-/

namespace SQ
open Matrix Complex SQ.Spec

variable {nJ k : ℕ}

theorem foldl_if_sum {V α : Type*} [AddCommMonoid V] (l : List α) (p : α → Prop) [DecidablePred p]
    (t : α → V) (acc : V) :
    l.foldl (fun acc x => if p x then acc + t x else acc) acc
      = acc + (l.map (fun x => if p x then t x else 0)).sum := by
  rw [← foldl_add_sum]
  congr 1
  funext a x
  split <;> simp

theorem extFlux_sum {b nl : ℕ} (B : Matrix (Fin b) (Fin nl) ℝ) (v : Fin nl → ℝ) (i : Fin b) :
    extFlux B v i = ∑ l, v l * B i l := by
  unfold extFlux
  rw [foldl_add_sum, zero_add, finRange_map_sum]

theorem extFlux_update {b nl : ℕ} (B : Matrix (Fin b) (Fin nl) ℝ) (v : Fin nl → ℝ) (l : Fin nl)
    (t : ℝ) (i : Fin b) :
    extFlux B (Function.update v l t) i = extFlux B v i + (t - v l) * B i l := by
  rw [extFlux_sum, extFlux_sum, ← Finset.add_sum_erase _ _ (Finset.mem_univ l),
    ← Finset.add_sum_erase Finset.univ (fun l => v l * B i l) (Finset.mem_univ l)]
  rw [Finset.sum_congr rfl (g := fun l => v l * B i l)]
  · simp; ring
  · intro x hx
    rw [Function.update_of_ne (Finset.ne_of_mem_erase hx)]

theorem extFlux_deriv {b nl : ℕ} (B : Matrix (Fin b) (Fin nl) ℝ) (v : Fin nl → ℝ) (l : Fin nl)
    (i : Fin b) (x : ℝ) :
    HasDerivAt (fun t => extFlux B (Function.update v l t) i) (B i l) x := by
  simp only [extFlux_update]
  simpa using (((hasDerivAt_id x).sub_const (v l)).mul_const (B i l)).const_add (extFlux B v i)

section closure
variable {ι κ : Type*} {F G : ℝ → Matrix ι κ ℂ} {F' G' : Matrix ι κ ℂ} {x : ℝ}

theorem hasDerivOp_add (h : HasDerivOp F F' x) (h2 : HasDerivOp G G' x) :
    HasDerivOp (fun t => F t + G t) (F' + G') x := fun a b => (h a b).add (h2 a b)

theorem hasDerivOp_const (A : Matrix ι κ ℂ) : HasDerivOp (fun _ => A) 0 x :=
  fun a b => hasDerivAt_const x (A a b)

theorem hasDerivOp_const_smul (c : ℂ) (h : HasDerivOp F F' x) :
    HasDerivOp (fun t => c • F t) (c • F') x := fun a b => (h a b).const_mul c

theorem hasDerivOp_smul_const {f : ℝ → ℝ} {f' : ℝ} (h : HasDerivAt f f' x) (A : Matrix ι κ ℂ) :
    HasDerivOp (fun t => ((f t : ℝ) : ℂ) • A) (((f' : ℝ) : ℂ) • A) x :=
  fun a b => h.ofReal_comp.mul_const (A a b)

theorem hasDerivOp_list_sum {α : Type*} (l : List α) (f : α → ℝ → Matrix ι κ ℂ)
    (f' : α → Matrix ι κ ℂ) (h : ∀ q ∈ l, HasDerivOp (f q) (f' q) x) :
    HasDerivOp (fun t => (l.map (fun q => f q t)).sum) ((l.map f').sum) x := by
  induction l with
  | nil => simpa using hasDerivOp_const (0 : Matrix ι κ ℂ)
  | cons q l ih =>
    simp only [List.map_cons, List.sum_cons]
    exact hasDerivOp_add (h q (by simp)) (ih fun q hq => h q (by simp [hq]))

end closure

theorem cosOp_deriv {m : Fin k → ℕ} (mem : OpMem nJ m) (w : Fin nJ) {f : ℝ → ℝ} {f' x : ℝ}
    (h : HasDerivAt f f' x) :
    HasDerivOp (fun t => cosOp mem w (f t)) ((-((f' : ℝ) : ℂ)) • sinOp mem w (f x)) x := by
  intro a b
  have hp : HasDerivAt (fun t => phase (f t)) (phase (f x) * (I * (f' : ℂ))) x :=
    (h.ofReal_comp.const_mul I).cexp
  have hq : HasDerivAt (fun t => star (phase (f t))) (star (phase (f x) * (I * (f' : ℂ)))) x := hp.star
  have := ((hp.mul_const (mem.exp w a b)).add (hq.mul_const (star (mem.exp w b a)))).const_mul (1 / 2)
  refine (this.congr_deriv ?_).congr_of_eventuallyEq (Filter.Eventually.of_forall fun t => ?_)
  · simp only [sinOp, Matrix.smul_apply, Matrix.sub_apply, conjTranspose_apply, smul_eq_mul]
    simp only [star_mul', RCLike.star_def, conj_I, conj_ofReal]
    have : (1 / (2 * I) : ℂ) = -(I / 2) := by
      field_simp; rw [I_sq]; ring
    rw [this]; ring
  · simp only [cosOp, Matrix.smul_apply, Matrix.add_apply, conjTranspose_apply, smul_eq_mul, star_mul']
    rfl

theorem sinOp_deriv {m : Fin k → ℕ} (mem : OpMem nJ m) (w : Fin nJ) {f : ℝ → ℝ} {f' x : ℝ}
    (h : HasDerivAt f f' x) :
    HasDerivOp (fun t => sinOp mem w (f t)) (((f' : ℝ) : ℂ) • cosOp mem w (f x)) x := by
  intro a b
  have hp : HasDerivAt (fun t => phase (f t)) (phase (f x) * (I * (f' : ℂ))) x :=
    (h.ofReal_comp.const_mul I).cexp
  have hq : HasDerivAt (fun t => star (phase (f t))) (star (phase (f x) * (I * (f' : ℂ)))) x := hp.star
  have := ((hp.mul_const (mem.exp w a b)).sub (hq.mul_const (star (mem.exp w b a)))).const_mul
    (1 / (2 * I))
  refine (this.congr_deriv ?_).congr_of_eventuallyEq (Filter.Eventually.of_forall fun t => ?_)
  · simp only [cosOp, Matrix.smul_apply, Matrix.add_apply, conjTranspose_apply, smul_eq_mul]
    simp only [star_mul', RCLike.star_def, conj_I, conj_ofReal]
    field_simp
    ring
  · simp only [sinOp, Matrix.smul_apply, Matrix.sub_apply, conjTranspose_apply, smul_eq_mul, star_mul']
    rfl

/-- the stored coupling operator of an inductor, explicitly -/
theorem indOpOf_eq {n b : ℕ} (C : Matrix (Fin n) (Fin n) ℝ) (M : Modes nJ n)
    (hk : M.keep.length ≤ n) {m : Fin M.keep.length → ℕ} (mem : OpMem nJ m) {key : IndKey b}
    (hv : ValidEdge n key.edge) :
    indOpOf C M mem key = ∑ i : Fin M.keep.length,
          ((coupleAt "inductive" (fun r => M.S r ⟨i, lt_of_lt_of_le i.isLt hk⟩) key.edge : ℝ) : ℂ) •
            mem.phi i := by
  have hc := couplingOp_ok (Or.inr rfl) C M hk mem.Q mem.phi hv
  have hcol : ∀ j, modeColumn "inductive" C M j = fun r => M.S r j := by
    intro j; funext r; simp [modeColumn]
  unfold indOpOf
  rw [hc]
  simp [hcol]

/-- The Hamiltonian as a sum over elements. -/
theorem hamiltonianOf_eq {n b : ℕ} (C : Matrix (Fin n) (Fin n) ℝ) (M : Modes nJ n)
    (hk : M.keep.length ≤ n) {m : Fin M.keep.length → ℕ} (mem : OpMem nJ m) (lc : Op m)
    (val : ElemId → ℝ) (phi : Fin b → ℝ) (inds : List (IndKey b)) (juns : List (JunKey b nJ))
    (hv : ∀ key ∈ inds, ValidEdge n key.edge) :
    hamiltonianOf C M mem lc val phi inds juns = .ok (
      (inds.map (fun key => ((1 / val key.el * phi key.bId * (Phi0 / 2 / Real.pi) / √hbar : ℝ) : ℂ) •
        indOpOf C M mem key)).sum +
      (juns.map (fun key => (-(val key.el : ℂ)) • cosOp mem key.wId (phi key.bId))).sum + lc) := by
  unfold hamiltonianOf indHamil
  rw [indTerms_ok C M hk mem val phi inds hv]
  simp only [junTerms_eq, zero_add]
  congr 4
  exact List.map_congr_left fun key hkey => by rw [indOpOf_eq C M hk mem (hv key hkey)]

end SQ

namespace SQ
open Matrix Complex SQ.Spec Filter Topology

/-! ### inverse of a matrix function -/

theorem hasDerivMat_inv {n : ℕ} {C : ℝ → Matrix (Fin n) (Fin n) ℝ} {P : Matrix (Fin n) (Fin n) ℝ}
    {x : ℝ} (h : HasDerivMat C P x) (hdet : (C x).det ≠ 0) :
    HasDerivMat (fun t => (C t)⁻¹) (-((C x)⁻¹ * P * (C x)⁻¹)) x := by
  have hcont : ContinuousAt C x := by
    refine continuousAt_pi.2 fun a => continuousAt_pi.2 fun b => (h a b).continuousAt
  have hdetc : ContinuousAt (fun t => (C t).det) x :=
    ContinuousAt.comp (g := fun A : Matrix (Fin n) (Fin n) ℝ => A.det)
      (continuous_id.matrix_det).continuousAt hcont
  have hadj : ContinuousAt (fun t => (C t).adjugate) x :=
    ContinuousAt.comp (g := fun A : Matrix (Fin n) (Fin n) ℝ => A.adjugate)
      (continuous_id.matrix_adjugate).continuousAt hcont
  have hinv : ∀ a b, ContinuousAt (fun t => (C t)⁻¹ a b) x := by
    intro a b
    have h1 : ∀ t, (C t)⁻¹ a b = ((C t).det)⁻¹ * (C t).adjugate a b := by
      intro t
      rw [Matrix.inv_def, Matrix.smul_apply, Ring.inverse_eq_inv', smul_eq_mul]
    simp only [h1]
    exact (hdetc.inv₀ hdet).mul (continuousAt_pi.1 (continuousAt_pi.1 hadj a) b)
  have hne : ∀ᶠ t in 𝓝 x, (C t).det ≠ 0 := hdetc.eventually_ne hdet
  intro a b
  rw [hasDerivAt_iff_tendsto_slope]
  have hlim : Tendsto (fun t => -∑ d, (∑ c, (C t)⁻¹ a c * slope (fun t => C t c d) x t) * (C x)⁻¹ d b)
      (𝓝[≠] x) (𝓝 (-∑ d, (∑ c, (C x)⁻¹ a c * P c d) * (C x)⁻¹ d b)) := by
    refine (tendsto_finsetSum _ fun d _ => (tendsto_finsetSum _ fun c _ => ?_).mul_const _).neg
    exact ((hinv a c).tendsto.mono_left nhdsWithin_le_nhds).mul
      (hasDerivAt_iff_tendsto_slope.1 (h c d))
  have hval : (-((C x)⁻¹ * P * (C x)⁻¹)) a b = -∑ d, (∑ c, (C x)⁻¹ a c * P c d) * (C x)⁻¹ d b := by
    rw [Matrix.neg_apply, Matrix.mul_apply]
    simp only [Matrix.mul_apply]
  rw [hval]
  refine hlim.congr' ?_
  filter_upwards [hne.filter_mono nhdsWithin_le_nhds, self_mem_nhdsWithin] with t ht htx
  have hkey : (C t)⁻¹ - (C x)⁻¹ = -((C t)⁻¹ * (C t - C x) * (C x)⁻¹) := by
    rw [Matrix.mul_sub, Matrix.sub_mul, Matrix.nonsing_inv_mul _ (isUnit_iff_ne_zero.2 ht),
      Matrix.mul_assoc, Matrix.mul_nonsing_inv _ (isUnit_iff_ne_zero.2 hdet)]
    simp
  have hab := congrFun (congrFun hkey a) b
  rw [Matrix.sub_apply, Matrix.neg_apply, Matrix.mul_apply] at hab
  simp only [Matrix.mul_apply, Matrix.sub_apply] at hab
  simp only [slope, vsub_eq_sub, smul_eq_mul]
  rw [hab, mul_neg, Finset.mul_sum]
  congr 1
  refine Finset.sum_congr rfl fun d _ => ?_
  rw [← mul_assoc, Finset.mul_sum]
  congr 1
  refine Finset.sum_congr rfl fun c _ => by ring

theorem hasDerivMat_mul_const {n : ℕ} {C : ℝ → Matrix (Fin n) (Fin n) ℝ}
    {P : Matrix (Fin n) (Fin n) ℝ} {x : ℝ} (h : HasDerivMat C P x) (A B : Matrix (Fin n) (Fin n) ℝ) :
    HasDerivMat (fun t => A * C t * B) (A * P * B) x := by
  intro a b
  simp only [Matrix.mul_apply]
  exact HasDerivAt.fun_sum fun d _ => (HasDerivAt.fun_sum fun c _ =>
    (h c d).const_mul (A a c)).mul_const (B d b)

/-! ### expectation values -/

section brak
variable {ι : Type*} [Fintype ι]

theorem innerOp_eq (u : ι → ℂ) (A : Matrix ι ι ℂ) (v : ι → ℂ) : innerOp u A v = braket u A v := by
  unfold innerOp braket dotProduct mulVec dotProduct
  refine Finset.sum_congr rfl fun a _ => ?_
  rw [Finset.mul_sum]
  exact Finset.sum_congr rfl fun b _ => by simp [mul_assoc]

theorem braket_conj {A : Matrix ι ι ℂ} (hA : A.IsHermitian) (u v : ι → ℂ) :
    (starRingEnd ℂ) (braket u A v) = braket v A u := by
  unfold braket
  rw [map_sum, Finset.sum_comm]
  rw [Finset.sum_congr rfl fun a _ => map_sum _ _ _]
  rw [Finset.sum_comm]
  rw [Finset.sum_comm]
  refine Finset.sum_congr rfl fun a _ => Finset.sum_congr rfl fun b _ => ?_
  rw [map_mul, map_mul, conj_conj]
  have : (starRingEnd ℂ) (A a b) = A b a := hA.apply b a
  rw [this]; ring

theorem braket_self_re {A : Matrix ι ι ℂ} (hA : A.IsHermitian) (u : ι → ℂ) :
    braket u A u = ((braket u A u).re : ℂ) :=
  (conj_eq_iff_re.1 (braket_conj hA u u)).symm

theorem braket_deriv {H : ℝ → Matrix ι ι ℂ} {dH : Matrix ι ι ℂ} {u v : ℝ → ι → ℂ} {du dv : ι → ℂ}
    {x : ℝ} (hH : HasDerivOp H dH x) (hu : HasDerivVec u du x) (hv : HasDerivVec v dv x) :
    HasDerivAt (fun t => braket (u t) (H t) (v t))
      (braket du (H x) (v x) + braket (u x) dH (v x) + braket (u x) (H x) dv) x := by
  have h : HasDerivAt (fun t => braket (u t) (H t) (v t))
      (∑ a, ∑ b, (((starRingEnd ℂ) (du a) * H x a b + (starRingEnd ℂ) (u x a) * dH a b) * v x b
        + (starRingEnd ℂ) (u x a) * H x a b * dv b)) x := by
    unfold braket
    refine HasDerivAt.fun_sum fun a _ => HasDerivAt.fun_sum fun b _ => ?_
    exact (((hu a).star.mul (hH a b)).mul (hv b))
  refine h.congr_deriv ?_
  unfold braket
  rw [← Finset.sum_add_distrib, ← Finset.sum_add_distrib]
  refine Finset.sum_congr rfl fun a _ => ?_
  rw [← Finset.sum_add_distrib, ← Finset.sum_add_distrib]
  exact Finset.sum_congr rfl fun b _ => by ring

end brak

end SQ
