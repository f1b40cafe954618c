import Verif.Props.ResonatorLoss
import Verif.Model.GradSession

/-!
# C115: sensitivities of an LC resonator to its capacitors and inductors
-/

namespace SQ
open Matrix Spec

variable {c : CircSpec} {eigs : EigsFn} {as : List ℂ → List ℕ}

/-! ### squares of the ladder operators -/

theorem ladder_sq {N : ℕ} (p : Fin N) (hp : (p : ℕ) + 1 < N) (ε : ℂ) :
    ((qDestroy N + ε • qCreate N) * (qDestroy N + ε • qCreate N)) p p = ε * (2 * (p : ℕ) + 1) := by
  rw [Matrix.mul_apply]
  have key : ∀ j : Fin N, (qDestroy N + ε • qCreate N) p j * (qDestroy N + ε • qCreate N) j p =
      (if j = ⟨p + 1, hp⟩ then ε * ((p : ℕ) + 1) else 0) + (if (j : ℕ) + 1 = p then ε * (p : ℕ) else 0) := by
    intro j
    simp only [Matrix.add_apply, Matrix.smul_apply, qDestroy, qCreate, conjTranspose_apply, Matrix.of_apply, smul_eq_mul]
    by_cases h1 : (p : ℕ) + 1 = j
    · rw [if_pos h1, if_neg (show ¬ (j : ℕ) + 1 = p by omega), if_pos (Fin.ext h1.symm), if_neg (show ¬ (j : ℕ) + 1 = p by omega)]
      have : ((√((j : ℕ) : ℝ) : ℝ) : ℂ) * ((√((j : ℕ) : ℝ) : ℝ) : ℂ) = (p : ℕ) + 1 := by
        rw [← Complex.ofReal_mul, Real.mul_self_sqrt (Nat.cast_nonneg _), ← h1]
        push_cast
        ring
      simp only [star_zero, mul_zero, add_zero, zero_add, RCLike.star_def, Complex.conj_ofReal]
      linear_combination ε * this
    · rw [if_neg h1, if_neg (show ¬ j = ⟨p + 1, hp⟩ from fun h => h1 (by rw [h]))]
      by_cases h2 : (j : ℕ) + 1 = p
      · rw [if_pos h2, if_pos h2]
        have : ((√((p : ℕ) : ℝ) : ℝ) : ℂ) * ((√((p : ℕ) : ℝ) : ℝ) : ℂ) = (p : ℕ) := by
          rw [← Complex.ofReal_mul, Real.mul_self_sqrt (Nat.cast_nonneg _)]
          push_cast
          ring
        simp only [star_zero, mul_zero, add_zero, zero_add, RCLike.star_def, Complex.conj_ofReal]
        linear_combination ε * this
      · rw [if_neg h2, if_neg h2]
        simp
  rw [Finset.sum_congr rfl fun j _ => key j, Finset.sum_add_distrib, Finset.sum_ite_eq' Finset.univ, if_pos (Finset.mem_univ _)]
  rcases Nat.eq_zero_or_pos (p : ℕ) with h0 | h0
  · rw [Finset.sum_eq_zero fun j _ => by rw [if_neg (by omega)], h0]
    push_cast
    ring
  · rw [Finset.sum_eq_single (⟨p - 1, by omega⟩ : Fin N)]
    · rw [if_pos (show (p : ℕ) - 1 + 1 = p by omega)]
      ring
    · intro j _ hj
      rw [if_neg]
      intro h
      exact hj (Fin.ext (show (j : ℕ) = p - 1 by omega))
    · intro h; exact absurd (Finset.mem_univ _) h

section Slope

variable {v : ElemId → ℝ} {bd : Build} (hc : GoodCircuit c v) (hlin : Linear c.O c.els)
  (hb : buildCirc c v = .ok bd) (hedge : ∀ p ∈ c.els, p.1 = (0, 1))
  (hind : ∃ q ∈ placements c.els, (c.O.elem q.2).kind = .ind)
  (i : Fin bd.M.keep.length) (m : Fin bd.M.keep.length → ℕ) (ng : Fin bd.M.keep.length → ℝ)
  (val : ElemId → ℝ) (fluxes : Fin bd.loops.length → ℝ) (P : ElemId → Matrix (Fin bd.n) (Fin bd.n) ℝ)
  (e : ElemId) (κ : ℝ) (hP : ∀ a, P e a a = κ)
  (p : ℕ) (psi : Idx m → ℂ) (hpi : p + 1 < m i) (z : ℂ) (hz : ‖z‖ = 1)
  (hpsi : ∀ x, psi x = if x i = ⟨p, by omega⟩ then z else 0)

include hc hlin hb hedge hind hP hz hpsi

theorem resonator_cap_slope :
    innerOp psi (partialH bd.C bd.M (buildMem bd.M.data m ng) val bd.B fluxes P bd.inds bd.juns none (.cap e)) psi =
      ((-(κ * bd.M.omega i / (4 * allCap c.O c.els v) * (2 * p + 1)) : ℝ) : ℂ) := by
  obtain ⟨hn1, hk, hbase⟩ := resonator_base hc hlin hb hedge hind
  have hk1 : bd.M.keep.length = 1 := hk.trans hn1
  obtain ⟨a, hai, hsr, hinv, hω, hω0, hZ⟩ := hbase i
  obtain ⟨hCp, hLp⟩ := resonator_pos hc hind
  have hr0 : bd.M.R a a ≠ 0 := right_ne_zero_of_mul_eq_one hsr
  have hsymm : ∀ (k : ℕ) (A : Matrix (Fin k) (Fin k) ℝ), k = 1 → A.IsSymm := by
    rintro k A rfl
    ext x y
    rw [Matrix.transpose_apply, Subsingleton.elim x y]
  have hsum : ∀ f : Fin bd.M.keep.length → Op m, ∑ x, f x = f i := by
    intro f
    have : ∀ (k : ℕ) (i : Fin k) (V : Type) [AddCommMonoid V] (f : Fin k → V), k = 1 → ∑ x, f x = f i := by
      rintro k i V _ f rfl
      rw [Fin.sum_univ_one, Subsingleton.elim i 0]
    exact this _ i _ f hk1
  have hQ : chargeOpIso bd.M.data m ng i = (-Complex.I * ((√(0.5 / bd.M.data.impedance i) : ℝ) : ℂ)) •
      (qDestroy (m i) + (-1 : ℂ) • qCreate (m i)) := by
    unfold chargeOpIso
    rw [if_neg (show ¬ bd.M.data.omega i = 0 from hω0), if_neg (by omega), neg_one_smul, ← sub_eq_add_neg]
  have hA : headBlock bd.M.keep.length (capCoef bd.C bd.M.R (P e)) i i =
      -(bd.M.R a a ^ 2 * κ * (allCap c.O c.els v)⁻¹ ^ 2) := by
    have hi : (i : ℕ) < bd.n := by rw [← hai]; exact a.isLt
    have hia : (⟨i, hi⟩ : Fin bd.n) = a := Fin.ext hai.symm
    simp only [headBlock, Matrix.of_apply, hi, and_self, dite_true, hia]
    unfold capCoef
    rw [one_mul3 hn1, one_mul3 hn1, neg_apply, transpose_apply, hinv, hP]
    ring
  rw [innerOp_eq]
  simp only [partialH]
  rw [C39_quadratic_form _ _ _ _ (hsymm _ _ hk1), hsum, hsum, hA, buildMem_Q, hQ, single_smul, Matrix.smul_mul,
    Matrix.mul_smul, single_mul_self, braket_smul, braket_smul, braket_smul, braket_smul,
    single_braket hk1 m i _ psi psi ⟨p, by omega⟩ ⟨p, by omega⟩ z z hpsi hpsi, ladder_sq _ hpi]
  have hzz : (starRingEnd ℂ) z * z = 1 := by
    rw [← Complex.normSq_eq_conj_mul_self, Complex.normSq_eq_norm_sq, hz]; norm_num
  have hsq : 0 < √(allInd c.O c.els v / allCap c.O c.els v) := by positivity
  have h1 : √(allInd c.O c.els v * allCap c.O c.els v) =
      allCap c.O c.els v * √(allInd c.O c.els v / allCap c.O c.els v) := by
    rw [← Real.sqrt_sq hCp.le, ← Real.sqrt_mul (by positivity), Real.sqrt_sq hCp.le]
    congr 1
    field_simp
  have hs : ((√(0.5 / bd.M.data.impedance i) : ℝ) : ℂ) * ((√(0.5 / bd.M.data.impedance i) : ℝ) : ℂ) =
      ((0.5 / bd.M.data.impedance i : ℝ) : ℂ) := by
    rw [← Complex.ofReal_mul, Real.mul_self_sqrt (by rw [hZ]; positivity)]
  have hreal : (0.5 / bd.M.data.impedance i) * (bd.M.R a a ^ 2 * κ * (allCap c.O c.els v)⁻¹ ^ 2) / 2 =
      κ * bd.M.omega i / (4 * allCap c.O c.els v) := by
    rw [hZ, hω, h1]
    field_simp
    ring
  have hI := Complex.I_mul_I
  rw [← hreal]
  push_cast at hs ⊢
  generalize ((√(0.5 / bd.M.data.impedance i) : ℝ) : ℂ) = s at hs ⊢
  generalize (starRingEnd ℂ) z = y at hzz ⊢
  set X : ℂ := (bd.M.R a a : ℂ) ^ 2 * κ * ((allCap c.O c.els v : ℝ) : ℂ)⁻¹ ^ 2 with hX
  linear_combination (1 / 2 * X * Complex.I ^ 2 * s ^ 2 * (2 * p + 1)) * hzz + (1 / 2 * X * s ^ 2 * (2 * p + 1)) * hI
    - (1 / 2 * X * (2 * p + 1)) * hs

theorem resonator_ind_slope (hfl : ∀ l, fluxes l = 0) :
    innerOp psi (partialH bd.C bd.M (buildMem bd.M.data m ng) val bd.B fluxes P bd.inds bd.juns none (.ind e)) psi =
      ((-(κ * bd.M.omega i * allInd c.O c.els v / 4 * (2 * p + 1)) : ℝ) : ℂ) := by
  obtain ⟨hn1, hk, hbase⟩ := resonator_base hc hlin hb hedge hind
  have hk1 : bd.M.keep.length = 1 := hk.trans hn1
  obtain ⟨a, hai, hsr, hinv, hω, hω0, hZ⟩ := hbase i
  obtain ⟨hCp, hLp⟩ := resonator_pos hc hind
  have hr0 : bd.M.R a a ≠ 0 := right_ne_zero_of_mul_eq_one hsr
  have hsymm : ∀ (k : ℕ) (A : Matrix (Fin k) (Fin k) ℝ), k = 1 → A.IsSymm := by
    rintro k A rfl
    ext x y
    rw [Matrix.transpose_apply, Subsingleton.elim x y]
  have hsum : ∀ f : Fin bd.M.keep.length → Op m, ∑ x, f x = f i := by
    intro f
    have : ∀ (k : ℕ) (i : Fin k) (V : Type) [AddCommMonoid V] (f : Fin k → V), k = 1 → ∑ x, f x = f i := by
      rintro k i V _ f rfl
      rw [Fin.sum_univ_one, Subsingleton.elim i 0]
    exact this _ i _ f hk1
  have hF : fluxOpIso bd.M.data m i = ((√(0.5 * bd.M.data.impedance i) : ℝ) : ℂ) •
      (qDestroy (m i) + (1 : ℂ) • qCreate (m i)) := by
    unfold fluxOpIso
    rw [if_neg (show ¬ bd.M.data.omega i = 0 from hω0), if_neg (by omega), one_smul]
  have hA : headBlock bd.M.keep.length (indCoef bd.M.S (P e)) i i = -(bd.M.S a a ^ 2 * κ) := by
    have hi : (i : ℕ) < bd.n := by rw [← hai]; exact a.isLt
    have hia : (⟨i, hi⟩ : Fin bd.n) = a := Fin.ext hai.symm
    simp only [headBlock, Matrix.of_apply, hi, and_self, dite_true, hia]
    unfold indCoef
    rw [one_mul3 hn1, neg_apply, transpose_apply, hP]
    ring
  have hext : ∀ b, extFlux bd.B fluxes b = 0 := by
    intro b
    rw [extFlux_sum]
    exact Finset.sum_eq_zero fun l _ => by rw [hfl, zero_mul]
  rw [innerOp_eq]
  simp only [partialH, hext, mul_zero, Complex.ofReal_zero, neg_zero, zero_smul, add_zero, ite_self]
  rw [show ∀ (l : List (IndKey bd.nB)) (A : Op m), l.foldl (fun acc _ => acc) A = A from fun l A => by
    induction l with
    | nil => rfl
    | cons _ _ ih => exact ih]
  rw [C39_quadratic_phi _ _ ng _ (hsymm _ _ hk1), hsum, hsum, hA, buildMem_phi, hF, single_smul, Matrix.smul_mul,
    Matrix.mul_smul, single_mul_self, braket_smul, braket_smul, braket_smul, braket_smul,
    single_braket hk1 m i _ psi psi ⟨p, by omega⟩ ⟨p, by omega⟩ z z hpsi hpsi, ladder_sq _ hpi]
  have hzz : (starRingEnd ℂ) z * z = 1 := by
    rw [← Complex.normSq_eq_conj_mul_self, Complex.normSq_eq_norm_sq, hz]; norm_num
  have hsq : 0 < √(allInd c.O c.els v / allCap c.O c.els v) := by positivity
  have h1 : √(allInd c.O c.els v * allCap c.O c.els v) * √(allInd c.O c.els v / allCap c.O c.els v) =
      allInd c.O c.els v := by
    rw [← Real.sqrt_mul (by positivity), show allInd c.O c.els v * allCap c.O c.els v *
      (allInd c.O c.els v / allCap c.O c.els v) = allInd c.O c.els v ^ 2 by field_simp, Real.sqrt_sq hLp.le]
  have hs : ((√(0.5 * bd.M.data.impedance i) : ℝ) : ℂ) * ((√(0.5 * bd.M.data.impedance i) : ℝ) : ℂ) =
      ((0.5 * bd.M.data.impedance i : ℝ) : ℂ) := by
    rw [← Complex.ofReal_mul, Real.mul_self_sqrt (by rw [hZ]; positivity)]
  have hreal : (0.5 * bd.M.data.impedance i) * (bd.M.S a a ^ 2 * κ) / 2 =
      κ * bd.M.omega i * allInd c.O c.els v / 4 := by
    have h2 : bd.M.S a a ^ 2 * bd.M.R a a ^ 2 = 1 := by rw [← mul_pow, hsr, one_pow]
    have h3 : bd.M.omega i * allInd c.O c.els v = √(allInd c.O c.els v / allCap c.O c.els v) := by
      rw [hω]
      have : 0 < √(allInd c.O c.els v * allCap c.O c.els v) := by positivity
      field_simp
      linear_combination -h1
    rw [hZ, mul_assoc κ, h3]
    linear_combination (√(allInd c.O c.els v / allCap c.O c.els v) * κ / 4) * h2
  rw [← hreal]
  push_cast at hs ⊢
  generalize ((√(0.5 * bd.M.data.impedance i) : ℝ) : ℂ) = s at hs ⊢
  generalize (starRingEnd ℂ) z = y at hzz ⊢
  set X : ℂ := (bd.M.S a a : ℂ) ^ 2 * κ with hX
  linear_combination -(1 / 2 * X * s ^ 2 * (2 * p + 1)) * hzz - (1 / 2 * X * (2 * p + 1)) * hs

end Slope

/-! ### how total capacitance and inductance depend on one element -/

/-- number of placements whose capacitor is `e` -/
noncomputable def capCount (O : Objs) (els : Elements) (e : ElemId) : ℝ :=
  ((placements els).map fun q => if capacitorOf O q.2 = e then (1 : ℝ) else 0).sum

/-- number of placements of `e` -/
noncomputable def indCount (els : Elements) (e : ElemId) : ℝ :=
  ((placements els).map fun q => if q.2 = e then (1 : ℝ) else 0).sum

theorem allCap_deriv (O : Objs) (els : Elements) (v : ElemId → ℝ) (e : ElemId) (x : ℝ) :
    HasDerivAt (fun t => allCap O els (Function.update v e t)) (capCount O els e) x := by
  unfold allCap capCount
  generalize placements els = l
  induction l with
  | nil => exact hasDerivAt_const _ _
  | cons q l ih =>
    simp only [List.map_cons, List.sum_cons]
    refine HasDerivAt.add ?_ ih
    by_cases h : capacitorOf O q.2 = e
    · rw [if_pos h, h]
      simp only [Function.update_self]
      exact hasDerivAt_id x
    · rw [if_neg h]
      simp only [Function.update_of_ne h]
      exact hasDerivAt_const _ _

theorem invInd_deriv (O : Objs) (els : Elements) (v : ElemId → ℝ) (e : ElemId) (he : (O.elem e).kind = .ind) (x : ℝ)
    (hx : x ≠ 0) :
    HasDerivAt (fun t => ((inductorsOf O els).map fun i => 1 / Function.update v e t i).sum)
      (-(1 / x ^ 2 * indCount els e)) x := by
  unfold inductorsOf indCount
  generalize placements els = l
  induction l with
  | nil => simpa using hasDerivAt_const x (0 : ℝ)
  | cons q l ih =>
    by_cases hk : (O.elem q.2).kind = .ind
    · rw [List.filter_cons_of_pos (by simpa using hk)]
      simp only [List.map_cons, List.sum_cons]
      have h1 : HasDerivAt (fun t => 1 / Function.update v e t q.2) (-(1 / x ^ 2 * if q.2 = e then 1 else 0)) x := by
        by_cases h : q.2 = e
        · rw [if_pos h, h]
          simp only [Function.update_self, one_div]
          simpa using hasDerivAt_inv hx
        · rw [if_neg h]
          simp only [Function.update_of_ne h, mul_zero, neg_zero]
          exact hasDerivAt_const _ _
      have h2 := h1.add ih
      rw [← neg_add, ← mul_add] at h2
      exact h2
    · rw [List.filter_cons_of_neg (by simpa using hk)]
      simp only [List.map_cons, List.sum_cons]
      rw [if_neg (fun h => hk (by rw [h]; exact he)), zero_add]
      exact ih

theorem allInd_const (O : Objs) (els : Elements) (v : ElemId → ℝ) (e : ElemId) (he : (O.elem e).kind ≠ .ind) (x : ℝ) :
    allInd O els (Function.update v e x) = allInd O els v := by
  unfold allInd
  congr 2
  apply List.map_congr_left
  intro i hi
  unfold inductorsOf at hi
  obtain ⟨q, hq, rfl⟩ := List.mem_map.1 hi
  have := (List.mem_filter.1 hq).2
  rw [Function.update_of_ne]
  rintro rfl
  exact he (by simpa using this)

theorem allCap_const (O : Objs) (els : Elements) (v : ElemId → ℝ) (e : ElemId) (hwt : WellTyped O)
    (he : (O.elem e).kind ≠ .cap) (x : ℝ) : allCap O els (Function.update v e x) = allCap O els v := by
  unfold allCap
  congr 1
  apply List.map_congr_left
  intro q _
  rw [Function.update_of_ne]
  intro h
  apply he
  rw [← h]
  unfold capacitorOf
  cases hk : (O.elem q.2).kind with
  | cap => simpa using hk
  | ind => exact hwt q.2 (by rw [hk]; decide)
  | jj => exact hwt q.2 (by rw [hk]; decide)

theorem freq_deriv {L C : ℝ → ℝ} {L' C' x : ℝ} (hL : HasDerivAt L L' x) (hC : HasDerivAt C C' x) (hL0 : 0 < L x)
    (hC0 : 0 < C x) :
    HasDerivAt (fun t => 1 / √(L t * C t)) (-(1 / √(L x * C x) / 2 * (L' / L x + C' / C x))) x := by
  have h1 := (hL.mul hC).sqrt (by simp only [Pi.mul_apply]; positivity)
  have h2 := h1.inv (by simp only [Pi.mul_apply]; positivity)
  have e1 : (fun t => 1 / √(L t * C t)) = (fun t => √((L * C) t))⁻¹ := by
    funext t
    simp [one_div]
  rw [e1]
  refine h2.congr_deriv ?_
  show -((L' * C x + L x * C') / (2 * √(L x * C x))) / √(L x * C x) ^ 2 = _
  have hs : √(L x * C x) ^ 2 = L x * C x := Real.sq_sqrt (by positivity)
  have hp : 0 < √(L x * C x) := by positivity
  rw [hs]
  generalize √(L x * C x) = s at hp
  have hL1 := hL0.ne'
  have hC1 := hC0.ne'
  field_simp

/-! ### recorded sensitivities -/

theorem sens_cap {v : ElemId → ℝ} (hs : NoSelfLoops c.els) (hlin : Linear c.O c.els) (hwt : WellTyped c.O)
    (hedge : ∀ p ∈ c.els, p.1 = (0, 1)) {n : ℕ} (hn : n = 1) {a : Acc n}
    (htr : traverse c.torch c.fd (c.O.withVals v) n c.h c.els = .ok a) (e : ElemId) (he : (c.O.elem e).kind = .cap)
    (hatt : c.torch = true ∨ ∀ q ∈ placements c.els, (c.O.elem q.2).kind ≠ .cap → (c.O.elem q.2).cap ≠ e) (x : Fin n) :
    a.st.partialMats e x x = capCount c.O c.els e := by
  obtain ⟨hv, -⟩ := linear_wMat hs hlin htr
  have hfin : ∀ (f : ElemId → Prop) [DecidablePred f], (∀ q ∈ placements c.els, (f q.2 ↔ capacitorOf c.O q.2 = e)) →
      ((placements c.els).map fun q => if f q.2 then edgeMat n q.1 else 0).sum x x = capCount c.O c.els e := by
    intro f _ hf
    rw [capCount, ← edge_sum hedge hn (fun i => if capacitorOf c.O i = e then (1 : ℝ) else 0) x x]
    refine congrFun (congrFun (congrArg List.sum (List.map_congr_left ?_)) x) x
    intro q hq
    by_cases h : f q.2
    · rw [if_pos h, if_pos ((hf q hq).1 h), one_smul]
    · rw [if_neg h, if_neg (fun h' => h ((hf q hq).2 h')), zero_smul]
  by_cases ht : c.torch = true
  · rw [ht] at htr
    have hwt' : WellTyped (c.O.withVals v) := hwt
    rw [(C20_sensitivity c.fd _ n c.h c.els hv hwt' a htr e).1 he]
    apply hfin (fun j => carries (c.O.withVals v) e j = true)
    intro q hq
    unfold carries capacitorOf
    show (if (c.O.elem q.2).kind = .cap then decide (q.2 = e) else decide ((c.O.elem q.2).cap = e)) = true ↔ _
    cases hk : (c.O.elem q.2).kind <;> simp
  · have htf : c.torch = false := by simpa using ht
    rw [htf] at htr
    rw [(C20_sensitivity_numpy c.fd _ n c.h c.els hv a htr e).1 he]
    apply hfin (fun j => j = e)
    intro q hq
    have hq' := (hatt.resolve_left ht) q hq
    unfold capacitorOf
    cases hk : (c.O.elem q.2).kind with
    | cap => simp
    | ind =>
      have := hq' (by rw [hk]; decide)
      simp only [this, iff_false]
      rintro rfl
      rw [hk] at he
      cases he
    | jj =>
      have := hq' (by rw [hk]; decide)
      simp only [this, iff_false]
      rintro rfl
      rw [hk] at he
      cases he

theorem sens_ind {v : ElemId → ℝ} (hs : NoSelfLoops c.els) (hlin : Linear c.O c.els) (hwt : WellTyped c.O)
    (hedge : ∀ p ∈ c.els, p.1 = (0, 1)) {n : ℕ} (hn : n = 1) {a : Acc n}
    (htr : traverse c.torch c.fd (c.O.withVals v) n c.h c.els = .ok a) (e : ElemId) (he : (c.O.elem e).kind = .ind)
    (x : Fin n) : a.st.partialMats e x x = 1 / v e ^ 2 * indCount c.els e := by
  obtain ⟨hv, -⟩ := linear_wMat hs hlin htr
  have hfin : ((placements c.els).map fun q => if q.2 = e then edgeMat n q.1 else 0).sum x x = indCount c.els e := by
    rw [indCount, ← edge_sum hedge hn (fun i => if i = e then (1 : ℝ) else 0) x x]
    refine congrFun (congrFun (congrArg List.sum (List.map_congr_left ?_)) x) x
    intro q hq
    by_cases h : q.2 = e
    · rw [if_pos h, if_pos h, one_smul]
    · rw [if_neg h, if_neg h, zero_smul]
  by_cases ht : c.torch = true
  · rw [ht] at htr
    have hwt' : WellTyped (c.O.withVals v) := hwt
    rw [(C20_sensitivity c.fd _ n c.h c.els hv hwt' a htr e).2 he, Matrix.smul_apply, hfin]
    rfl
  · have htf : c.torch = false := by simpa using ht
    rw [htf] at htr
    rw [(C20_sensitivity_numpy c.fd _ n c.h c.els hv a htr e).2 he, Matrix.smul_apply, hfin]
    rfl

/-! ### slope of the mode frequency -/

/-- derivative of `1/√(LC)` with respect to the value of an element of a resonator -/
noncomputable def resSlope (O : Objs) (els : Elements) (v : ElemId → ℝ) (e : ElemId) : ℝ :=
  -(1 / √(allInd O els v * allCap O els v) / 2 *
    if (O.elem e).kind = .cap then capCount O els e / allCap O els v
    else 1 / v e ^ 2 * indCount els e * allInd O els v)

theorem resSlope_deriv {v : ElemId → ℝ} (hwt : WellTyped c.O) (hc : GoodCircuit c v)
    (hind : ∃ q ∈ placements c.els, (c.O.elem q.2).kind = .ind) (e : ElemId) (he : (c.O.elem e).kind ≠ .jj) (hve : 0 < v e) :
    HasDerivAt (fun t => 1 / √(allInd c.O c.els (Function.update v e t) * allCap c.O c.els (Function.update v e t)))
      (resSlope c.O c.els v e) (v e) := by
  obtain ⟨hCp, hLp⟩ := resonator_pos hc hind
  have hup : Function.update v e (v e) = v := Function.update_eq_self e v
  cases hk : (c.O.elem e).kind with
  | jj => exact absurd hk he
  | cap =>
    have hL : HasDerivAt (fun t => allInd c.O c.els (Function.update v e t)) 0 (v e) := by
      simp only [allInd_const c.O c.els v e (by rw [hk]; decide)]
      exact hasDerivAt_const _ _
    have := freq_deriv hL (allCap_deriv c.O c.els v e (v e)) (by rw [hup]; exact hLp) (by rw [hup]; exact hCp)
    rw [hup] at this
    refine this.congr_deriv ?_
    rw [resSlope, if_pos hk, zero_div, zero_add]
  | ind =>
    have hC : HasDerivAt (fun t => allCap c.O c.els (Function.update v e t)) 0 (v e) := by
      simp only [allCap_const c.O c.els v e hwt (by rw [hk]; decide)]
      exact hasDerivAt_const _ _
    have h1 := invInd_deriv c.O c.els v e hk (v e) hve.ne'
    have h0 : ((inductorsOf c.O c.els).map fun i => 1 / Function.update v e (v e) i).sum ≠ 0 := by
      rw [hup]
      intro h0
      unfold allInd at hLp
      rw [h0] at hLp
      simp at hLp
    have hL : HasDerivAt (fun t => allInd c.O c.els (Function.update v e t))
        (1 / v e ^ 2 * indCount c.els e * allInd c.O c.els v ^ 2) (v e) := by
      have h2 := h1.inv h0
      have e1 : (fun t => allInd c.O c.els (Function.update v e t)) =
          (fun t => ((inductorsOf c.O c.els).map fun i => 1 / Function.update v e t i).sum)⁻¹ := by
        funext t
        simp only [allInd, one_div, Pi.inv_apply]
      rw [e1]
      refine h2.congr_deriv ?_
      rw [hup]
      unfold allInd
      rw [hup] at h0
      field_simp
    have := freq_deriv hL hC (by rw [hup]; exact hLp) (by rw [hup]; exact hCp)
    rw [hup] at this
    refine this.congr_deriv ?_
    rw [resSlope, if_neg (by rw [hk]; decide), zero_div, add_zero]
    field_simp

/-- derivative of the total capacitance, or of the total inverse inductance up to the sign -/
noncomputable def resSens (O : Objs) (els : Elements) (v : ElemId → ℝ) (e : ElemId) : ℝ :=
  if (O.elem e).kind = .cap then capCount O els e else 1 / v e ^ 2 * indCount els e

theorem resSens_recorded {v : ElemId → ℝ} (hs : NoSelfLoops c.els) (hlin : Linear c.O c.els) (hwt : WellTyped c.O)
    (hedge : ∀ p ∈ c.els, p.1 = (0, 1)) {n : ℕ} (hn : n = 1) {a : Acc n}
    (htr : traverse c.torch c.fd (c.O.withVals v) n c.h c.els = .ok a) (e : ElemId) (he : (c.O.elem e).kind ≠ .jj)
    (hatt : c.torch = true ∨ ∀ q ∈ placements c.els, (c.O.elem q.2).kind ≠ .cap → (c.O.elem q.2).cap ≠ e) (x : Fin n) :
    a.st.partialMats e x x = 1 * resSens c.O c.els v e := by
  rw [one_mul, resSens]
  cases hke : (c.O.elem e).kind with
  | jj => exact absurd hke he
  | cap => exact sens_cap hs hlin hwt hedge hn htr e hke hatt x
  | ind => exact sens_ind hs hlin hwt hedge hn htr e hke x

/-- expectation value of the derivative operator in the `p`-th number state: half the slope of the mode frequency times `2p + 1` -/
theorem resonator_grad {v : ElemId → ℝ} {bd : Build} (hc : GoodCircuit c v) (hlin : Linear c.O c.els)
    (hb : buildCirc c v = .ok bd) (hedge : ∀ p ∈ c.els, p.1 = (0, 1))
    (hind : ∃ q ∈ placements c.els, (c.O.elem q.2).kind = .ind)
    (i : Fin bd.M.keep.length) (m : Fin bd.M.keep.length → ℕ) (ng : Fin bd.M.keep.length → ℝ)
    (fluxes : Fin bd.loops.length → ℝ) (hfl : ∀ l, fluxes l = 0) (e : ElemId) (he : (c.O.elem e).kind ≠ .jj)
    (P : ElemId → Matrix (Fin bd.n) (Fin bd.n) ℝ) (ρ : ℝ) (hP : ∀ x, P e x x = ρ * resSens c.O c.els v e)
    (p : ℕ) (psi : Idx m → ℂ) (hpi : p + 1 < m i) (z : ℂ) (hz : ‖z‖ = 1)
    (hpsi : ∀ x, psi x = if x i = ⟨p, by omega⟩ then z else 0) :
    innerOp psi (partialH bd.C bd.M (buildMem bd.M.data m ng) v bd.B fluxes P bd.inds bd.juns none
      (gradElOf c.O _ e)) psi = ((ρ * (resSlope c.O c.els v e / 2 * (2 * p + 1)) : ℝ) : ℂ) := by
  obtain ⟨hn1, hk, hbase⟩ := resonator_base hc hlin hb hedge hind
  obtain ⟨-, -, -, -, hω, -, -⟩ := hbase i
  unfold gradElOf
  cases hke : (c.O.elem e).kind with
  | jj => exact absurd hke he
  | cap =>
    refine (resonator_cap_slope hc hlin hb hedge hind i m ng v fluxes _ e _ hP p psi hpi z hz hpsi).trans ?_
    rw [resSens, resSlope, if_pos hke, if_pos hke, hω]
    congr 1
    ring
  | ind =>
    refine (resonator_ind_slope hc hlin hb hedge hind i m ng v fluxes _ e _ hP p psi hpi z hz hpsi hfl).trans ?_
    rw [resSens, resSlope, if_neg (by rw [hke]; decide), if_neg (by rw [hke]; decide), hω]
    congr 1
    ring

/-- states returned by `diag(num)` on a resonator -/
theorem resonator_evecs (he : EigsLowest eigs) (ha : CArgsortSpec as) (hlin : Linear c.O c.els)
    (hedge : ∀ p ∈ c.els, p.1 = (0, 1)) (hind : ∃ q ∈ placements c.els, (c.O.elem q.2).kind = .ind)
    (vals : ElemId → ℝ) (flux : LoopId → ℝ) (u : ℝ)
    (w0 : World (circPhys c eigs as)) (hw : construct (circPhys c eigs as) vals flux u = .ok w0)
    (h : List Act) (hh : Orderly w0 h) (hm : (run w0 h).circ.m ≠ [])
    (hb : buildCirc c (run w0 h).vals = .ok (run w0 h).circ.bd) (hc : GoodCircuit c (run w0 h).vals)
    (hflux : ∀ l, (run w0 h).flux l = 0) (num : ℕ) (hnum : 1 ≤ num)
    (i : Fin (run w0 h).circ.bd.M.keep.length)
    (hdim : num + 1 < (run w0 h).circ.bd.dims (run w0 h).circ.m i) :
    ∃ (f : List ℝ) (ev : List (Idx ((run w0 h).circ.bd.dims (run w0 h).circ.m) → ℂ)),
      (diag (some num) (run w0 h)).1 = .ok (f, ev.map fun v => ⟨_, _, v⟩) ∧ ev.length = num ∧
      ∀ r psi, r < num → ev[r]? = some psi →
        ∃ (hr : r < (run w0 h).circ.bd.dims (run w0 h).circ.m i) (z : ℂ), ‖z‖ = 1 ∧
          ∀ x, psi x = if x i = ⟨r, hr⟩ then z else 0 := by
  obtain ⟨hk1, hres⟩ := resonator_core hc hlin hb hedge hind
  obtain ⟨hω, -⟩ := hres i
  obtain ⟨hCp, hLp⟩ := resonator_pos hc hind
  have hω0 : 0 < Modes.omega (Build.M (run w0 h).circ.bd) i := by rw [hω]; positivity
  obtain ⟨-, -, -, hham⟩ := ham_now hc.noSelf hw hh hm
  have hham' := hham (run w0 h) rfl
  rw [linear_ham hc hlin hb _ _ _ _ hflux] at hham'
  have hherm : (diagonal fun x : Idx ((run w0 h).circ.bd.dims (run w0 h).circ.m) =>
      ((ladder (Modes.omega (Build.M (run w0 h).circ.bd)) (fun i => islandCoef ((Build.M (run w0 h).circ.bd).cInv i i))
        (fun i => ((run w0 h).circ.ng i).getD 0) (Build.dims (run w0 h).circ.bd (run w0 h).circ.m) x : ℝ) : ℂ)).IsHermitian := by
    rw [IsHermitian, diagonal_conjTranspose]
    congr 1
    funext x
    exact Complex.conj_ofReal _
  have hcard : ∀ (k : ℕ) (d : Fin k → ℕ) (i : Fin k), k = 1 → Fintype.card (Idx d) = d i := by
    rintro k d i rfl
    rw [Subsingleton.elim i 0]
    show Fintype.card (∀ i : Fin 1, Fin (d i)) = _
    simp
  obtain ⟨vs, ws, ev, w', hlev, hd, hef, hevs, hlen, hev⟩ := diag_lowest he ha hm hham' hherm num hnum
    (by rw [hcard _ _ i hk1]; exact hdim)
  obtain ⟨vs', hlev'⟩ := levels_diagonal (ladder (Modes.omega (Build.M (run w0 h).circ.bd))
    (fun i => islandCoef ((Build.M (run w0 h).circ.bd).cInv i i))
    (fun i => ((run w0 h).circ.ng i).getD 0) (Build.dims (run w0 h).circ.bd (run w0 h).circ.m))
  have hws : ws.take num = (List.range num).map fun j : ℕ => Modes.omega (Build.M (run w0 h).circ.bd) i * j := by
    rw [levels_unique hlev hlev', ← lowest_single hk1 _ _ _ (Build.dims (run w0 h).circ.bd (run w0 h).circ.m) i hω0 num (by omega)]
    rfl
  have hgetD : ∀ r, r < num → ws.getD r 0 = Modes.omega (Build.M (run w0 h).circ.bd) i * r := by
    intro r hr
    have : (ws.take num)[r]? = some (Modes.omega (Build.M (run w0 h).circ.bd) i * r) := by
      rw [hws, List.getElem?_map, List.getElem?_range hr]
      rfl
    rw [List.getElem?_take_of_lt hr] at this
    rw [List.getD_eq_getElem?_getD, this]
    rfl
  exact ⟨_, ev, congrArg Prod.fst hd, hlen, fun r psi hr hpsi =>
    ladder_state hk1 _ _ _ _ i hω0 r psi (hev r psi hpsi).1 ((hev r psi hpsi).2.trans (by rw [hgetD r hr]))⟩

theorem lastBuilt_append_set {P : Phys} (e : ElemId) (x : ℝ) : ∀ (h : List Act) (v0 : ElemId → ℝ) (w : World P),
    (update (run w (h ++ [.setValue e x]))).1 = .ok () →
    lastBuilt v0 w (h ++ [.setValue e x, .update]) = (run w (h ++ [.setValue e x])).vals
  | [], v0, w, hu => by
    have hu' : (Act.exec .update (Act.exec (.setValue e x) w).2).1 = .ok () := hu
    show (match (Act.exec .update (Act.exec (.setValue e x) w).2).1 with
      | .ok _ => lastBuilt (Act.exec (.setValue e x) w).2.vals (Act.exec .update (Act.exec (.setValue e x) w).2).2 []
      | .error _ => lastBuilt v0 (Act.exec .update (Act.exec (.setValue e x) w).2).2 []) = _
    rw [hu']
    rfl
  | a :: h, v0, w, hu => by
    have ih := fun v1 => lastBuilt_append_set e x h v1 (a.exec w).2 hu
    cases a with
    | update =>
      show (match (Act.exec .update w).1 with
        | .ok _ => lastBuilt w.vals (Act.exec .update w).2 (h ++ [Act.setValue e x, Act.update])
        | .error _ => lastBuilt v0 (Act.exec .update w).2 (h ++ [Act.setValue e x, Act.update])) = _
      cases (Act.exec .update w).1 <;> exact ih _
    | _ => exact ih _

/-- a resonator whose element is changed and updated -/
theorem resonator_updated (hlin : Linear c.O c.els)
    (hedge : ∀ p ∈ c.els, p.1 = (0, 1)) (hind : ∃ q ∈ placements c.els, (c.O.elem q.2).kind = .ind)
    (vals : ElemId → ℝ) (flux : LoopId → ℝ) (u : ℝ)
    (w0 : World (circPhys c eigs as)) (hw : construct (circPhys c eigs as) vals flux u = .ok w0)
    (h : List Act) (hh : Orderly w0 h) (hm : (run w0 h).circ.m ≠ []) (hm1 : 1 ≤ (run w0 h).circ.m.getD 0 0)
    (e : ElemId) (x : ℝ) (hc : GoodCircuit c (Function.update (run w0 h).vals e x)) (b : Build)
    (hb : buildCirc c (Function.update (run w0 h).vals e x) = .ok b) :
    Orderly w0 (h ++ [.setValue e x, .update]) ∧
    (∀ i, (run w0 (h ++ [.setValue e x, .update])).vals i = lastBuilt vals w0 (h ++ [.setValue e x, .update]) i) ∧
    (run w0 (h ++ [.setValue e x, .update])).vals = Function.update (run w0 h).vals e x ∧
    (run w0 (h ++ [.setValue e x, .update])).flux = (run w0 h).flux ∧
    (run w0 (h ++ [.setValue e x, .update])).circ.m = (run w0 h).circ.m ∧
    (run w0 (h ++ [.setValue e x, .update])).unitFreq = (run w0 h).unitFreq := by
  have hset : run w0 (h ++ [.setValue e x]) = { run w0 h with vals := Function.update (run w0 h).vals e x } := by
    rw [run_snoc]
    rfl
  have hrem : NoRemoval c w0 ((h ++ [.setValue e x]) ++ [.update]) := by
    intro h1 h2 _
    right
    have hb0 : buildCirc c vals = .ok w0.circ.bd := (construct_build hw).1
    have h0 := linear_keep hc.noSelf hlin hb0
    exact ⟨by rw [h0.2]; exact h0.1, fun b hb => (linear_keep hc.noSelf hlin hb).2⟩
  have hb' : buildCirc c (run w0 (h ++ [.setValue e x])).vals = .ok b := by rw [hset]; exact hb
  obtain ⟨hn1, hk, hbase⟩ := resonator_base hc hlin hb hedge hind
  obtain ⟨mem, hmem⟩ : ∃ mem, b.memOps (run w0 (h ++ [Act.setValue e x])).circ.m (run w0 (h ++ [Act.setValue e x])).circ.ng = .ok mem := by
    refine ⟨⟨b.dims (run w0 (h ++ [Act.setValue e x])).circ.m, buildMem b.M.data _ (fun i => ((run w0 (h ++ [Act.setValue e x])).circ.ng i).getD 0)⟩, ?_⟩
    unfold Build.memOps
    rw [if_neg, if_neg, if_neg]
    · rintro ⟨i, hi, -⟩
      unfold Build.isCharge at hi
      split at hi
      · rename_i hlt
        obtain ⟨a, -, -, -, -, h0, -⟩ := hbase ⟨i, hlt⟩
        exact h0 (by simpa using hi)
      · cases hi
    · rintro ⟨i, hi, hlt⟩
      have : i = 0 := by omega
      subst this
      rw [hset] at hlt
      exact absurd hlt (by show ¬ (run w0 h).circ.m.getD 0 0 < 1; omega)
    · have := List.length_pos_iff.2 hm
      rw [hset]
      show ¬ (run w0 h).circ.m.length < _
      omega
  obtain ⟨h1, h2, h3, -, -, -, -, h4, h5, -⟩ := C36_update_partial vals flux u w0 hw _ hrem b hb' _ hmem (by rw [hset]; exact hm)
  have hrun : run w0 (h ++ [.setValue e x, .update]) = (update (run w0 (h ++ [.setValue e x]))).2 := by
    rw [show h ++ [Act.setValue e x, .update] = (h ++ [.setValue e x]) ++ [.update] by simp, run_snoc]
    rfl
  have hu : (update (run w0 (h ++ [.setValue e x]))).2.unitFreq = (run w0 (h ++ [.setValue e x])).unitFreq := by
    rw [update_ok ((rebuild_at hw _ [] hrem).trans hb') hmem]
  refine ⟨?_, ?_, ?_, ?_, ?_, ?_⟩
  · rw [show h ++ [Act.setValue e x, .update] = (h ++ [.setValue e x]) ++ [.update] by simp]
    exact orderly_snoc (orderly_snoc hh (fun h => by cases h)) (fun _ => h1)
  · intro i
    rw [lastBuilt_append_set e x h vals w0 h1, hrun, h4]
  · rw [hrun, h4, hset]
  · rw [hrun, h5, hset]
  · rw [hrun, h3, hset]
  · rw [hrun, hu, hset]

theorem resonator_session (he : EigsLowest eigs) (ha : CArgsortSpec as) (hcaps : CapsOK c.O) (hwt : WellTyped c.O)
    (hlin : Linear c.O c.els) (hedge : ∀ p ∈ c.els, p.1 = (0, 1))
    (hind : ∃ q ∈ placements c.els, (c.O.elem q.2).kind = .ind)
    (vals : ElemId → ℝ) (flux : LoopId → ℝ) (u : ℝ)
    (w0 : World (circPhys c eigs as)) (hw : construct (circPhys c eigs as) vals flux u = .ok w0)
    (h : List Act) (hh : Orderly w0 h) (e : ElemId) (hel : (c.O.elem e).kind ≠ .jj)
    (ρ : ℝ) (hρ : ∀ (n : ℕ) (a : Acc n), n = 1 → traverse c.torch c.fd (c.O.withVals (run w0 h).vals) n c.h c.els = .ok a →
      ∀ x, a.st.partialMats e x x = ρ * resSens c.O c.els (run w0 h).vals e)
    (hlast : ∀ i, (run w0 h).vals i = lastBuilt vals w0 h i) (hc : GoodCircuit c (run w0 h).vals)
    (hflux : ∀ l, (run w0 h).flux l = 0) (hm : (run w0 h).circ.m ≠ []) (hve : 0 < (run w0 h).vals e)
    (hx : ∀ x, 0 < x → GoodCircuit c (Function.update (run w0 h).vals e x) ∧
      ∃ b, buildCirc c (Function.update (run w0 h).vals e x) = .ok b)
    (num : ℕ) (h1n : 1 ≤ num) (hnum : num + 1 < ((run w0 h).circ.m.getD 0 0).toNat) :
    ∃ (F : ℝ → List ℝ) (f : List ℝ) (ev : List (Idx ((run w0 h).circ.bd.dims (run w0 h).circ.m) → ℂ))
      (a : Acc (run w0 h).circ.bd.n),
      (∀ x, 0 < x → ∃ v, (diag (some num) (run w0 (h ++ [.setValue e x, .update]))).1 = .ok (F x, v)) ∧
      (diag (some num) (run w0 h)).1 = .ok (f, ev.map fun v => ⟨_, _, v⟩) ∧
      traverse c.torch c.fd (c.O.withVals (run w0 h).vals) (run w0 h).circ.bd.n c.h c.els = .ok a ∧
      ∀ p : ℕ, p < num →
        partialOmega ev (partialH (run w0 h).circ.bd.C (run w0 h).circ.bd.M
          (buildMem (run w0 h).circ.bd.M.data ((run w0 h).circ.bd.dims (run w0 h).circ.m)
            (fun i => ((run w0 h).circ.ng i).getD 0)) (run w0 h).vals (run w0 h).circ.bd.B
          (fun j => (run w0 h).flux ((run w0 h).circ.bd.loops.get j)) a.st.partialMats (run w0 h).circ.bd.inds
          (run w0 h).circ.bd.juns none (gradElOf c.O _ e)) p true = .ok (ρ * (p * resSlope c.O c.els (run w0 h).vals e)) ∧
        partialOmega ev (partialH (run w0 h).circ.bd.C (run w0 h).circ.bd.M
          (buildMem (run w0 h).circ.bd.M.data ((run w0 h).circ.bd.dims (run w0 h).circ.m)
            (fun i => ((run w0 h).circ.ng i).getD 0)) (run w0 h).vals (run w0 h).circ.bd.B
          (fun j => (run w0 h).flux ((run w0 h).circ.bd.loops.get j)) a.st.partialMats (run w0 h).circ.bd.inds
          (run w0 h).circ.bd.juns none (gradElOf c.O _ e)) p false =
            .ok (ρ * (resSlope c.O c.els (run w0 h).vals e / 2 * (2 * p + 1))) ∧
        HasDerivAt (fun x => (F x).getD p 0)
          (p * resSlope c.O c.els (run w0 h).vals e / (2 * Real.pi * (run w0 h).unitFreq)) ((run w0 h).vals e) := by
  have hb := linear_bd_now hcaps hlin vals flux u w0 hw h hh hlast hc.noSelf
  obtain ⟨hn1, -, -⟩ := resonator_base hc hlin hb hedge hind
  obtain ⟨hk1, -⟩ := resonator_core hc hlin hb hedge hind
  have hdim : num + 1 < (run w0 h).circ.bd.dims (run w0 h).circ.m ⟨0, by omega⟩ := hnum
  obtain ⟨f, ev, hd, hlen, hst⟩ := resonator_evecs he ha hlin hedge hind vals flux u w0 hw h hh hm hb hc hflux num h1n
    ⟨0, by omega⟩ hdim
  obtain ⟨a, htr⟩ : ∃ a, traverse c.torch c.fd (c.O.withVals (run w0 h).vals) (run w0 h).circ.bd.n c.h c.els = .ok a := by
    obtain ⟨n, a, B, t, -, htr, -, -, hbb⟩ := buildCirc_stages hb
    have hn : (run w0 h).circ.bd.n = n := by rw [hbb]
    rw [hn]
    exact ⟨a, htr⟩
  have hin : ∀ (p : ℕ) (hp : p < ev.length), innerOp ev[p] (partialH (run w0 h).circ.bd.C (run w0 h).circ.bd.M
          (buildMem (run w0 h).circ.bd.M.data ((run w0 h).circ.bd.dims (run w0 h).circ.m)
            (fun i => ((run w0 h).circ.ng i).getD 0)) (run w0 h).vals (run w0 h).circ.bd.B
          (fun j => (run w0 h).flux ((run w0 h).circ.bd.loops.get j)) a.st.partialMats (run w0 h).circ.bd.inds
          (run w0 h).circ.bd.juns none (gradElOf c.O _ e)) ev[p] =
        ((ρ * (resSlope c.O c.els (run w0 h).vals e / 2 * (2 * p + 1)) : ℝ) : ℂ) := by
    intro p hp
    obtain ⟨hr, z, hz, hpsi⟩ := hst p ev[p] (by omega) (List.getElem?_eq_getElem hp)
    exact resonator_grad hc hlin hb hedge hind _ _ _ _ (fun l => hflux _) e hel _ ρ (hρ _ a hn1 htr) p _ (by omega) z hz hpsi
  have hL : ∀ v : ElemId → ℝ, 1 / ((placements c.els).map fun q => placedInvInd (c.O.withVals v) q.2).sum = allInd c.O c.els v := by
    intro v
    rw [allInd, invInd_sum]
  have hC : ∀ v : ElemId → ℝ, ((placements c.els).map fun q => placedCap (c.O.withVals v) q.2).sum = allCap c.O c.els v := by
    intro v
    rw [allCap]
    simp only [placedCap_withVals]
  refine ⟨fun x => (List.range num).map fun j : ℕ => j * (1 / (2 * Real.pi *
      √(allInd c.O c.els (Function.update (run w0 h).vals e x) * allCap c.O c.els (Function.update (run w0 h).vals e x)))) /
        (run w0 h).unitFreq, f, ev, a, ?_, hd, htr, ?_⟩
  · intro x hx0
    obtain ⟨hcx, b, hbx⟩ := hx x hx0
    obtain ⟨o1, o2, o3, o4, o5, o6⟩ := resonator_updated hlin hedge hind vals flux u w0 hw h hh hm
      (by omega) e x hcx b hbx
    obtain ⟨v, hv⟩ := C100_resonator he ha hcaps hlin hedge hind vals flux u w0 hw _ o1 o2 (by rw [o3]; exact hcx)
      (by rw [o4]; exact hflux) (by rw [o5]; exact hm) num h1n (by rw [o5]; exact hnum)
    rw [o3, o6, hL, hC] at hv
    exact ⟨v, hv⟩
  · intro p hp
    have h0 : ¬ ev.length = 0 := by omega
    have hpl : p < ev.length := by omega
    refine ⟨?_, ?_, ?_⟩
    · unfold partialOmega
      rw [if_neg h0, pyGet_nat hpl, show (0 : ℤ) = ((0 : ℕ) : ℤ) from rfl, pyGet_nat (show 0 < ev.length by omega)]
      simp only [if_true]
      rw [hin p hpl, hin 0 (by omega), ← Complex.ofReal_sub, Complex.ofReal_re]
      congr 1
      push_cast
      ring
    · unfold partialOmega
      rw [if_neg h0, pyGet_nat hpl]
      simp only [Bool.false_eq_true, if_false]
      rw [hin p hpl, Complex.ofReal_re]
    · have hsl := resSlope_deriv hwt hc hind e hel hve
      have := (hsl.const_mul (p : ℝ)).div_const (2 * Real.pi * (run w0 h).unitFreq)
      refine this.congr_of_eventuallyEq (Filter.Eventually.of_forall fun x => ?_)
      show ((List.range num).map fun j : ℕ => _).getD p 0 = _
      rw [List.getD_eq_getElem?_getD, List.getElem?_map, List.getElem?_range hp]
      show _ = p * (1 / √_) / (2 * Real.pi * _)
      simp only [Option.map_some, Option.getD_some]
      rw [mul_div_assoc, mul_div_assoc, div_div, div_div]
      congr 2
      ring

/-- C115: the derivative of a transition frequency of an LC resonator with respect to a capacitor or an inductor is what
`get_partial_omega` (with `subtract_ground=True`) returns.  For a circuit whose elements all join node 1 to ground, with
at least one inductor, no junction and no flux, after any orderly history: let `F(x)` be the frequencies `diag(num)`
returns once the element is set to `x` and `update` is called.  The number returned by `get_partial_omega` for state `p`,
from the states `diag(num)` finds and the sensitivities recorded for the current values, in units of 2π times the unit
of frequency, is the derivative of `F_p - F_0` at the current value of the element.  For capacitors under NumPy, the
capacitor must not be attached to an inductor (see `C115_attached_refuted`). -/
theorem C115_slope_partial (he : EigsLowest eigs) (ha : CArgsortSpec as) (hcaps : CapsOK c.O) (hwt : WellTyped c.O)
    (hlin : Linear c.O c.els) (hedge : ∀ p ∈ c.els, p.1 = (0, 1))
    (hind : ∃ q ∈ placements c.els, (c.O.elem q.2).kind = .ind)
    (vals : ElemId → ℝ) (flux : LoopId → ℝ) (u : ℝ)
    (w0 : World (circPhys c eigs as)) (hw : construct (circPhys c eigs as) vals flux u = .ok w0)
    (h : List Act) (hh : Orderly w0 h) (e : ElemId) (hel : (c.O.elem e).kind ≠ .jj)
    (hatt : c.torch = true ∨ ∀ q ∈ placements c.els, (c.O.elem q.2).kind ≠ .cap → (c.O.elem q.2).cap ≠ e) :
    let w := run w0 h
    (∀ i, w.vals i = lastBuilt vals w0 h i) → GoodCircuit c w.vals → (∀ l, w.flux l = 0) → w.circ.m ≠ [] → 0 < w.vals e →
    (∀ x, 0 < x → GoodCircuit c (Function.update w.vals e x) ∧ ∃ b, buildCirc c (Function.update w.vals e x) = .ok b) →
    ∀ num p : ℕ, p < num → num + 1 < (w.circ.m.getD 0 0).toNat →
    ∃ (F : ℝ → List ℝ) (f : List ℝ) (ev : List (Idx (w.circ.bd.dims w.circ.m) → ℂ)) (a : Acc w.circ.bd.n) (r : ℝ),
      (∀ x, 0 < x → ∃ v, (diag (some num) (run w0 (h ++ [.setValue e x, .update]))).1 = .ok (F x, v)) ∧
      (diag (some num) w).1 = .ok (f, ev.map fun v => ⟨_, _, v⟩) ∧
      traverse c.torch c.fd (c.O.withVals w.vals) w.circ.bd.n c.h c.els = .ok a ∧
      partialOmega ev (partialH w.circ.bd.C w.circ.bd.M
        (buildMem w.circ.bd.M.data (w.circ.bd.dims w.circ.m) (fun i => (w.circ.ng i).getD 0)) w.vals w.circ.bd.B
        (fun j => w.flux (w.circ.bd.loops.get j)) a.st.partialMats w.circ.bd.inds w.circ.bd.juns none
        (gradElOf c.O _ e)) p true = .ok r ∧
      HasDerivAt (fun x => (F x).getD p 0 - (F x).getD 0 0) (r / (2 * Real.pi * w.unitFreq)) (w.vals e) := by
  intro w hlast hc hflux hm hve hx num p hp hnum
  obtain ⟨F, f, ev, a, h1, h2, h3, h4⟩ := resonator_session he ha hcaps hwt hlin hedge hind vals flux u w0 hw h hh e hel 1
    (fun n a hn htr x => resSens_recorded hc.noSelf hlin hwt hedge hn htr e hel hatt x) hlast hc hflux hm hve hx num (by omega) hnum
  obtain ⟨h5, -, h6⟩ := h4 p hp
  obtain ⟨-, -, h7⟩ := h4 0 (by omega)
  refine ⟨F, f, ev, a, _, h1, h2, h3, h5, ?_⟩
  refine (h6.sub h7).congr_deriv ?_
  push_cast
  ring

/-- C115, absolute frequencies: without `subtract_ground` (the way `EigenSolver.backward` calls it), what
`get_partial_omega` returns for state `p` is the derivative of the frequency `diag` reports for `p` plus half the
derivative of the frequency reported for state 1: the derivative operator contains the zero-point energy, the
Hamiltonian does not. -/
theorem C115_absolute (he : EigsLowest eigs) (ha : CArgsortSpec as) (hcaps : CapsOK c.O) (hwt : WellTyped c.O)
    (hlin : Linear c.O c.els) (hedge : ∀ p ∈ c.els, p.1 = (0, 1))
    (hind : ∃ q ∈ placements c.els, (c.O.elem q.2).kind = .ind)
    (vals : ElemId → ℝ) (flux : LoopId → ℝ) (u : ℝ)
    (w0 : World (circPhys c eigs as)) (hw : construct (circPhys c eigs as) vals flux u = .ok w0)
    (h : List Act) (hh : Orderly w0 h) (e : ElemId) (hel : (c.O.elem e).kind ≠ .jj)
    (hatt : c.torch = true ∨ ∀ q ∈ placements c.els, (c.O.elem q.2).kind ≠ .cap → (c.O.elem q.2).cap ≠ e) :
    let w := run w0 h
    (∀ i, w.vals i = lastBuilt vals w0 h i) → GoodCircuit c w.vals → (∀ l, w.flux l = 0) → w.circ.m ≠ [] → 0 < w.vals e →
    (∀ x, 0 < x → GoodCircuit c (Function.update w.vals e x) ∧ ∃ b, buildCirc c (Function.update w.vals e x) = .ok b) →
    ∀ num p : ℕ, p < num → 1 < num → num + 1 < (w.circ.m.getD 0 0).toNat →
    ∃ (F : ℝ → List ℝ) (f : List ℝ) (ev : List (Idx (w.circ.bd.dims w.circ.m) → ℂ)) (a : Acc w.circ.bd.n) (r Dp D1 : ℝ),
      (∀ x, 0 < x → ∃ v, (diag (some num) (run w0 (h ++ [.setValue e x, .update]))).1 = .ok (F x, v)) ∧
      (diag (some num) w).1 = .ok (f, ev.map fun v => ⟨_, _, v⟩) ∧
      traverse c.torch c.fd (c.O.withVals w.vals) w.circ.bd.n c.h c.els = .ok a ∧
      partialOmega ev (partialH w.circ.bd.C w.circ.bd.M
        (buildMem w.circ.bd.M.data (w.circ.bd.dims w.circ.m) (fun i => (w.circ.ng i).getD 0)) w.vals w.circ.bd.B
        (fun j => w.flux (w.circ.bd.loops.get j)) a.st.partialMats w.circ.bd.inds w.circ.bd.juns none
        (gradElOf c.O _ e)) p false = .ok r ∧
      HasDerivAt (fun x => (F x).getD p 0) Dp (w.vals e) ∧ HasDerivAt (fun x => (F x).getD 1 0) D1 (w.vals e) ∧
      r / (2 * Real.pi * w.unitFreq) = Dp + D1 / 2 := by
  intro w hlast hc hflux hm hve hx num p hp h1n hnum
  obtain ⟨F, f, ev, a, h1, h2, h3, h4⟩ := resonator_session he ha hcaps hwt hlin hedge hind vals flux u w0 hw h hh e hel 1
    (fun n a hn htr x => resSens_recorded hc.noSelf hlin hwt hedge hn htr e hel hatt x) hlast hc hflux hm hve hx num (by omega) hnum
  obtain ⟨-, h5, h6⟩ := h4 p hp
  obtain ⟨-, -, h7⟩ := h4 1 h1n
  refine ⟨F, f, ev, a, _, _, _, h1, h2, h3, h5, h6, h7, ?_⟩
  push_cast
  ring

end SQ
