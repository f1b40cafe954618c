import Verif.Lemmas.Rates
import Verif.Lemmas.LcBuild
import Verif.Model.NoiseBuild

/-!
# C54, C55, C56, C63: thermal factors, decoherence rates, matrix elements

`decRate` is `dec_rate`, `matrixElements` is `matrix_elements`, for a circuit whose stored operators
are those of its mode data (`hmem`; `Build.noise` satisfies it by definition).
-/

namespace SQ
open Matrix Complex Spec

/-! ### C54 -/

/-- For `0 < α ≤ 709`: `down = 1 + coth(α/2)`, `up = coth(α/2) - 1`, `up = exp(-α) down`, both
non-negative. -/
theorem C54_factors (a : ℝ) (h0 : 0 < a) (h1 : a ≤ 709) :
    ∃ down up, thermal a = some (down, up) ∧ down = 1 + coth (a / 2) ∧ up = coth (a / 2) - 1 ∧
      up = Real.exp (-a) * down ∧ 0 ≤ down ∧ 0 ≤ up := by
  have hne : a ≠ 0 := h0.ne'
  have hx : 0 < Real.exp a - 1 := by
    have := Real.add_one_lt_exp hne
    linarith
  obtain ⟨hd, hu⟩ := thermal_nonneg h0.le (thermal_values h0 h1)
  refine ⟨_, _, thermal_values h0 h1, rfl, ?_, mul_comm _ _, hd, hu⟩
  rw [coth_exp h0, Real.exp_neg]
  have := Real.exp_pos a
  field_simp
  ring

example : ∃ down up, thermal 1 = some (down, up) ∧ down = 1 + coth (1 / 2) ∧ up = coth (1 / 2) - 1 ∧
    up = Real.exp (-1) * down ∧ 0 ≤ down ∧ 0 ≤ up := C54_factors 1 (by norm_num) (by norm_num)

/-- Above the threshold the factors are 2 and 0, within `3 exp(-709)` of the exact formulas. -/
theorem C54_threshold (a : ℝ) (h : 709 < a) :
    thermal a = some (2, 0) ∧ |2 - (1 + coth (a / 2))| ≤ 3 * Real.exp (-709) ∧
      |0 - (coth (a / 2) - 1)| ≤ 3 * Real.exp (-709) := by
  have h0 : (0 : ℝ) < a := by linarith
  have key : 0 ≤ coth (a / 2) - 1 ∧ coth (a / 2) - 1 ≤ 3 * Real.exp (-709) := by
    have hx : Real.exp 709 ≤ Real.exp a := Real.exp_le_exp.2 h.le
    have h3 : (3 : ℝ) ≤ Real.exp 709 := by
      have := Real.add_one_le_exp (709 : ℝ)
      linarith
    have e : coth (a / 2) - 1 = 2 / (Real.exp a - 1) := by
      rw [coth_exp h0, div_sub_one (by linarith)]
      congr 1
      ring
    have hp : 0 < Real.exp a - 1 := by linarith
    rw [e, Real.exp_neg]
    refine ⟨by positivity, ?_⟩
    rw [div_le_iff₀ hp]
    have hp2 := Real.exp_pos (709 : ℝ)
    rw [← div_eq_mul_inv, div_mul_eq_mul_div, le_div_iff₀ hp2]
    linarith
  refine ⟨?_, ?_, ?_⟩
  · unfold thermal
    rw [if_pos h]
  · rw [abs_le]; constructor <;> linarith [key.1, key.2]
  · rw [abs_le]; constructor <;> linarith [key.1, key.2]

example : thermal 1000 = some (2, 0) := (C54_threshold 1000 (by norm_num)).1

/-- Between states of equal frequency the factors are infinite: the rate is not a number. -/
theorem C54_degenerate : thermal 0 = none := by
  unfold thermal
  rw [if_neg (by norm_num), if_pos rfl]

/-- Detailed balance of the rates themselves: the rate from the lower-numbered to the higher-numbered
state is `exp(-α)` times the reverse rate, for each type of loss. -/
theorem C54_rates (c : NoiseCirc) (ng : Fin c.M.keep.length → ℝ) (hmem : c.mem = buildMem c.M.data c.m ng)
    (ty : String) (hty : ty ∈ lossTypes) (i j : ℤ) (hij : i > j) (w1 w2 : ℝ)
    (h1 : pyGet c.efreqs i = .ok w1) (h2 : pyGet c.efreqs j = .ok w2)
    (h0 : 0 < hbar * |w2 - w1| / (kB * c.env.T)) (h709 : hbar * |w2 - w1| / (kB * c.env.T) ≤ 709) :
    c.decRate ty (j, i) false =
      scaleRate (Real.exp (-(hbar * |w2 - w1| / (kB * c.env.T)))) (c.decRate ty (i, j) false) := by
  rw [decRate_eq, decRate_eq, pair_swap c i j]
  cases hp : c.pair (i, j) with
  | error e => rfl
  | ok p =>
    obtain ⟨⟨v1, v2⟩, s1, s2⟩ := p
    obtain ⟨-, hv1, hv2, -, -⟩ := pair_ok hp
    rw [h1] at hv1; rw [h2] at hv2
    cases hv1; cases hv2
    simp only [Except.map, Prod.swap_prod_mk]
    rw [rateOf_loss c hty, rateOf_loss c hty, abs_sub_comm w1 w2, lossCoefs_symm c ng hmem]
    cases c.lossCoefs ty (i, j) |w2 - w1| s1 s2 with
    | error e => rfl
    | ok gs =>
      obtain ⟨d, u, ht, -, -, hu, -, -⟩ := C54_factors _ h0 h709
      have ht' : thermal (thermalAlpha |w2 - w1| c.env.T) = some (d, u) := ht
      rcases tempS_cases (thermalAlpha |w2 - w1| c.env.T) hij with ⟨hn, -⟩ | ⟨d', u', ht2, e1, e2, -⟩
      · rw [hn] at ht'; cases ht'
      · rw [ht'] at ht2
        cases ht2
        simp only [Except.map]
        rw [e1, e2, lossSum_some, lossSum_some]
        simp only [scaleRate, zero_add]
        rw [hu]
        congr 2
        ring

/-! ### C55 -/

/-- Total rates do not depend on the order of the states, for every decoherence type (also when an
exception is raised). -/
theorem C55_symmetric (c : NoiseCirc) (ng : Fin c.M.keep.length → ℝ)
    (hmem : c.mem = buildMem c.M.data c.m ng) (ty : String) (i j : ℤ) :
    c.decRate ty (j, i) true = c.decRate ty (i, j) true := by
  rw [decRate_eq, decRate_eq, pair_swap c i j]
  cases hp : c.pair (i, j) with
  | error e => rfl
  | ok p =>
    obtain ⟨⟨w1, w2⟩, s1, s2⟩ := p
    obtain ⟨-, -, -, hs1, hs2⟩ := pair_ok hp
    simp only [Except.map, Prod.swap_prod_mk]
    by_cases hty : ty ∈ lossTypes
    · rw [rateOf_loss c hty, rateOf_loss c hty, abs_sub_comm w1 w2, lossCoefs_symm c ng hmem,
        tempS_total _ (j, i) (i, j)]
    · simp only [lossTypes, List.mem_cons, List.not_mem_nil, or_false, not_or] at hty
      unfold NoiseCirc.rateOf
      simp only [if_neg hty.1, if_neg hty.2.1, if_neg hty.2.2]
      have hs : ∀ G : Op c.m, ∀ A, dephasing c.env A (sens s2 s1 G) = dephasing c.env A (sens s1 s2 G) := by
        intro G A
        have : sens s2 s1 G = -sens s1 s2 G := by
          unfold sens
          rw [← neg_sub, Complex.neg_re]
        rw [this]
        unfold dephasing
        rw [neg_mul, abs_neg]
      have hc : c.chargeRate s2 s1 = c.chargeRate s1 s2 := by
        unfold NoiseCirc.chargeRate
        simp only [norm_sub_rev (innerOp s2 _ s2)]
      rw [hc, ccRate_eq c hs1 hs2, ccRate_eq c hs2 hs1, fluxRate_eq c hs1 hs2, fluxRate_eq c hs2 hs1]
      simp only [hs]

/-- All rates are non-negative if quality factors, admittances and element values are positive. -/
theorem C55_nonneg (c : NoiseCirc) (hT : 0 < c.env.T) (hpos : PositiveLosses c) (ty : String)
    (st : ℤ × ℤ) (total : Bool) (r : ℝ) (h : c.decRate ty st total = .ok (.val r)) : 0 ≤ r := by
  rw [decRate_eq] at h
  cases hp : c.pair st with
  | error e => rw [hp] at h; cases h
  | ok p =>
    rw [hp] at h
    simp only at h
    obtain ⟨⟨w1, w2⟩, s1, s2⟩ := p
    obtain ⟨-, -, -, hs1, hs2⟩ := pair_ok (i := st.1) (j := st.2) hp
    by_cases hty : ty ∈ lossTypes
    · rw [rateOf_loss c hty] at h
      cases hg : c.lossCoefs ty st |w2 - w1| s1 s2 with
      | error e => rw [hg] at h; cases h
      | ok gs =>
        rw [hg] at h
        simp only [Except.map, Except.ok.injEq] at h
        have hn := lossCoefs_nonneg hpos ty st (abs_nonneg _) s1 s2 gs hg
        cases ht : tempS (thermalAlpha |w2 - w1| c.env.T) st total with
        | none =>
          rw [ht] at h
          cases gs with
          | nil => cases h; exact le_refl _
          | cons g gs => rw [lossSum_none _ _ (by simp)] at h; cases h
        | some t =>
          rw [ht, lossSum_some, zero_add] at h
          cases h
          exact mul_nonneg (tempS_nonneg (thermalAlpha_nonneg hT _) ht) (List.sum_nonneg hn)
    · simp only [lossTypes, List.mem_cons, List.not_mem_nil, or_false, not_or] at hty
      unfold NoiseCirc.rateOf at h
      simp only [if_neg hty.1, if_neg hty.2.1, if_neg hty.2.2] at h
      split at h
      · cases h
        unfold NoiseCirc.chargeRate
        rw [foldl_if_sum, zero_add]
        refine List.sum_nonneg fun x hx => ?_
        obtain ⟨i, -, rfl⟩ := List.mem_map.1 hx
        split
        · exact dephasing_nonneg _ _ _
        · exact le_refl _
      · split at h
        · rw [show st = (st.1, st.2) from rfl, ccRate_eq c hs1 hs2] at h
          cases h
          rw [zero_add]
          refine List.sum_nonneg fun x hx => ?_
          obtain ⟨i, -, rfl⟩ := List.mem_map.1 hx
          exact dephasing_nonneg _ _ _
        · split at h
          · rw [show st = (st.1, st.2) from rfl, fluxRate_eq c hs1 hs2] at h
            cases h
            rw [zero_add]
            refine List.sum_nonneg fun x hx => ?_
            obtain ⟨i, -, rfl⟩ := List.mem_map.1 hx
            exact dephasing_nonneg _ _ _
          · cases h

/-- The one-way loss rates of the two directions add up to the total. -/
theorem C55_directions (c : NoiseCirc) (ng : Fin c.M.keep.length → ℝ)
    (hmem : c.mem = buildMem c.M.data c.m ng) (ty : String) (hty : ty ∈ lossTypes) (i j : ℤ) (hij : i ≠ j) :
    c.decRate ty (i, j) true = addRates (c.decRate ty (i, j) false) (c.decRate ty (j, i) false) := by
  rw [decRate_eq, decRate_eq, decRate_eq, pair_swap c i j]
  cases hp : c.pair (i, j) with
  | error e => rfl
  | ok p =>
    obtain ⟨⟨w1, w2⟩, s1, s2⟩ := p
    simp only [Except.map, Prod.swap_prod_mk]
    rw [rateOf_loss c hty, rateOf_loss c hty, rateOf_loss c hty, abs_sub_comm w1 w2,
      lossCoefs_symm c ng hmem ty _ i j s1 s2]
    cases c.lossCoefs ty (i, j) |w2 - w1| s1 s2 with
    | error e => rfl
    | ok gs =>
      simp only [Except.map]
      have key : ∀ p q : ℤ, p > q → (∀ st b, tempS (thermalAlpha |w2 - w1| c.env.T) st b = none) ∨
          ∃ d u, tempS (thermalAlpha |w2 - w1| c.env.T) (p, q) false = some d ∧
            tempS (thermalAlpha |w2 - w1| c.env.T) (q, p) false = some u ∧
            ∀ st, tempS (thermalAlpha |w2 - w1| c.env.T) st true = some (d + u) := by
        intro p q hpq
        rcases tempS_cases (thermalAlpha |w2 - w1| c.env.T) hpq with ⟨-, h⟩ | ⟨d, u, -, h1, h2, h3⟩
        · exact Or.inl h
        · exact Or.inr ⟨d, u, h1, h2, h3⟩
      have hn : (∀ st b, tempS (thermalAlpha |w2 - w1| c.env.T) st b = none) →
          (Except.ok (lossSum (tempS (thermalAlpha |w2 - w1| c.env.T) (i, j) true) gs (Rate.val 0)) :
            Except PyErr Rate) =
          addRates (.ok (lossSum (tempS (thermalAlpha |w2 - w1| c.env.T) (i, j) false) gs (Rate.val 0)))
            (.ok (lossSum (tempS (thermalAlpha |w2 - w1| c.env.T) (j, i) false) gs (Rate.val 0))) := by
        intro h
        rw [h, h, h]
        cases gs with
        | nil => simp [lossSum, addRates]
        | cons g gs => rw [lossSum_none _ _ (by simp)]; rfl
      rcases lt_or_gt_of_ne hij with h | h
      · rcases key j i h with hno | ⟨d, u, h1, h2, h3⟩
        · exact hn hno
        · rw [h1, h2, h3, lossSum_some, lossSum_some, lossSum_some]
          simp only [addRates, zero_add]
          congr 2
          ring
      · rcases key i j h with hno | ⟨d, u, h1, h2, h3⟩
        · exact hn hno
        · rw [h1, h2, h3, lossSum_some, lossSum_some, lossSum_some]
          simp only [addRates, zero_add]
          congr 2
          ring

/-- Dephasing has no direction: the flag `total` has no effect. -/
theorem C55_dephasing_total (c : NoiseCirc) (ty : String) (hty : ty ∈ dephasingTypes) (st : ℤ × ℤ) :
    c.decRate ty st false = c.decRate ty st true := by
  rw [decRate_eq, decRate_eq]
  cases c.pair st with
  | error e => rfl
  | ok p =>
    simp only [dephasingTypes, List.mem_cons, List.not_mem_nil, or_false] at hty
    unfold NoiseCirc.rateOf
    rcases hty with rfl | rfl | rfl <;> simp

/-- Unknown types raise ValueError once the circuit has been diagonalized and the states exist. -/
theorem C55_unknown (c : NoiseCirc) (ty : String) (h1 : ty ∉ lossTypes) (h2 : ty ∉ dephasingTypes)
    (i j : Fin c.efreqs.length) (hlen : c.evecs.length = c.efreqs.length) (total : Bool) :
    c.decRate ty ((i : ℕ), (j : ℕ)) total = .error .valueError := by
  have hpos : 0 < c.efreqs.length := lt_of_le_of_lt (Nat.zero_le _) i.isLt
  rw [decRate_eq]
  unfold NoiseCirc.pair
  rw [if_neg (by omega)]
  simp only
  rw [pyGet_nat i.isLt, pyGet_nat j.isLt, pyGet_nat (i.isLt.trans_eq hlen.symm),
    pyGet_nat (j.isLt.trans_eq hlen.symm)]
  simp only [lossTypes, dephasingTypes, List.mem_cons, List.not_mem_nil, or_false, not_or] at h1 h2
  unfold NoiseCirc.rateOf
  simp [h1, h2]

/-- Before diagonalization every rate and every matrix element raises CircuitStateError. -/
theorem C55_not_diagonalized (c : NoiseCirc) (h : c.efreqs = []) (ty : String) (st : ℤ × ℤ) (total : Bool) :
    c.decRate ty st total = .error .circuitState := by
  rw [decRate_eq]
  unfold NoiseCirc.pair
  rw [if_pos (by simp [h])]

/-! ### C63 -/

/-- Exchanging the states conjugates the matrix element (and leaves exceptions unchanged). -/
theorem C63_conjugate (c : NoiseCirc) (ng : Fin c.M.keep.length → ℝ)
    (hmem : c.mem = buildMem c.M.data c.m ng) (ctype : String) (nodes : Edge) (i j : ℤ) :
    c.matrixElements ctype nodes (j, i) = (c.matrixElements ctype nodes (i, j)).map (starRingEnd ℂ) :=
  matrixElements_conj c ng hmem ctype nodes i j

/-- In particular the diagonal ones are real. -/
theorem C63_diagonal (c : NoiseCirc) (ng : Fin c.M.keep.length → ℝ)
    (hmem : c.mem = buildMem c.M.data c.m ng) (ctype : String) (nodes : Edge) (i : ℤ) (z : ℂ)
    (h : c.matrixElements ctype nodes (i, i) = .ok z) : z.im = 0 := by
  have e := matrixElements_conj c ng hmem ctype nodes i i
  rw [h] at e
  simp only [Except.map, Except.ok.injEq] at e
  have := congrArg Complex.im e
  rw [Complex.conj_im] at this
  linarith

/-- For constructed circuits, existing states, valid nodes and a supported coupling type the matrix
element exists. -/
theorem C63_exists (c : CircSpec) (v0 : ElemId → ℝ) (bd : Build)
    (hb : buildCirc c v0 = .ok bd) (hs : NoSelfLoops c.els) (m : Fin bd.M.keep.length → ℕ)
    (ng : Fin bd.M.keep.length → ℝ)
    (val : ElemId → ℝ) (fluxes : Fin bd.loops.length → ℝ) (P : ElemId → Matrix (Fin bd.n) (Fin bd.n) ℝ)
    (noise : NoiseSpec bd.loops.length) (env : NoiseEnv) (ef : List ℝ) (ev : List (Idx m → ℂ))
    (ctype : String) (hc : ctype = "capacitive" ∨ ctype = "inductive") (nodes : Edge)
    (hv : ValidEdge bd.n nodes) (i j : Fin ev.length) :
    ∃ z, (bd.noise c m ng val fluxes P noise env ef ev).matrixElements ctype nodes ((i : ℕ), (j : ℕ)) = .ok z ∧
      (bd.noise c m ng val fluxes P noise env ef ev).matrixElements ctype nodes ((j : ℕ), (i : ℕ)) =
        .ok ((starRingEnd ℂ) z) := by
  have hk := (build_valid hs hb).1
  have hz := matrixElements_ok (bd.noise c m ng val fluxes P noise env ef ev) hk hc hv i j
  obtain ⟨z, hz⟩ := hz
  refine ⟨z, hz, ?_⟩
  rw [C63_conjugate _ ng rfl, hz]
  rfl

/-! ### a concrete circuit -/

/-- the inductor/junction circuit of `lc_build_init` at 1 K, with unit quality factors and admittances,
two states per mode and two stored states with `ħω = k_B T` -/
noncomputable abbrev rateCirc (sv : SvdFn) (argsort : ArgsortFn) (argmax : ∀ k, ArgmaxFn k) : NoiseCirc :=
  (lcBuild true).noise (lcSpec true sv argsort argmax) (fun _ => 2) (fun _ => 0) lcVals (fun i => i.elim0)
    (fun _ => 1)
    ⟨fun _ => some (fun _ => 1), fun _ _ _ => some 1, fun _ _ _ => some 1, fun _ => 1, fun _ => 1, fun _ => 1⟩
    ⟨1, 1, 1⟩ [0, kB / hbar]
    [fun x => if x = fun _ => 0 then 1 else 0, fun x => if x = fun _ => 1 then 1 else 0]

theorem rateCirc_pos (sv : SvdFn) (argsort : ArgsortFn) (argmax : ∀ k, ArgmaxFn k) :
    PositiveLosses (rateCirc sv argsort argmax) where
  capQ := by
    intro i Q h w
    have : (fun _ => 1 : ℝ → ℝ) = Q := Option.some.inj h
    rw [← this]; exact one_pos
  indQ := by intro i w q h; rw [← Option.some.inj h]; exact one_pos
  junY := by intro i w q h; rw [← Option.some.inj h]; exact zero_le_one
  caps := by
    intro p _
    show 0 < (lcObjs.elem p.2).value
    unfold lcObjs
    simp only
    split
    · norm_num
    · split <;> norm_num
  inds := by
    intro p _
    show 0 < (lcObjs.elem p.el).value
    unfold lcObjs
    simp only
    split
    · norm_num
    · split <;> norm_num
  juns := by
    intro p _
    show 0 < (lcObjs.elem p.el).value
    unfold lcObjs
    simp only
    split
    · norm_num
    · split <;> norm_num

/-- detailed balance and non-negative rates of that circuit: the inductive rates exist -/
example (sv : SvdFn) (argsort : ArgsortFn) (argmax : ∀ k, ArgmaxFn k) :
    ∃ up down : ℝ, (rateCirc sv argsort argmax).decRate "inductive" (0, 1) false = .ok (.val up) ∧
      (rateCirc sv argsort argmax).decRate "inductive" (1, 0) false = .ok (.val down) ∧
      (rateCirc sv argsort argmax).decRate "inductive" (0, 1) true = .ok (.val (up + down)) ∧
      (rateCirc sv argsort argmax).decRate "inductive" (1, 0) true = .ok (.val (up + down)) ∧
      up = Real.exp (-1) * down ∧ 0 ≤ up ∧ 0 ≤ down ∧
      (rateCirc sv argsort argmax).decRate "thermal" (0, 1) true = .error .valueError := by
  set c := rateCirc sv argsort argmax with hc
  have hk : (0 : ℝ) < kB := by unfold kB; norm_num
  have ha : hbar * |(0 : ℝ) - kB / hbar| / (kB * c.env.T) = 1 := by
    have h1 := hbar_pos
    have : c.env.T = 1 := rfl
    rw [zero_sub, abs_neg, abs_of_pos (by positivity), this]
    field_simp
  have h1 : pyGet c.efreqs 1 = .ok (kB / hbar) := rfl
  have h0 : pyGet c.efreqs 0 = .ok 0 := rfl
  have hb := C54_rates c (fun _ => 0) rfl "inductive" (by simp [lossTypes]) 1 0 (by norm_num) _ _ h1 h0
    (by rw [ha]; norm_num) (by rw [ha]; norm_num)
  rw [ha] at hb
  have hd := C55_directions c (fun _ => 0) rfl "inductive" (by simp [lossTypes]) 0 1 (by norm_num)
  have hs := C55_symmetric c (fun _ => 0) rfl "inductive" 0 1
  have hex : ∃ down, c.decRate "inductive" (1, 0) false = .ok (.val down) := by
    obtain ⟨d, u, ht, -⟩ := C54_factors 1 (by norm_num) (by norm_num)
    have ht' : thermal (hbar * |(0 : ℝ) - kB / hbar| / (kB * c.env.T)) = some (d, u) := by
      rw [ha]; exact ht
    have hp : ∃ s1 s2, c.pair (1, 0) = .ok ((kB / hbar, 0), (s1, s2)) := ⟨_, _, rfl⟩
    obtain ⟨s1, s2, hp⟩ := hp
    have hl : c.lossCoefs "inductive" (1, 0) |(0 : ℝ) - kB / hbar| s1 s2 =
        .ok (c.indCoefs |(0 : ℝ) - kB / hbar| s1 s2) := by simp [NoiseCirc.lossCoefs]
    have hS : tempS (thermalAlpha |(0 : ℝ) - kB / hbar| c.env.T) (1, 0) false = some d := by
      unfold tempS thermalAlpha
      rw [ht']
      rfl
    rw [decRate_eq, hp]
    simp only
    rw [rateOf_loss c (by simp [lossTypes]), hl, hS]
    simp only [Except.map]
    rw [lossSum_some]
    exact ⟨_, rfl⟩
  obtain ⟨down, hdown⟩ := hex
  rw [hdown] at hb
  refine ⟨_, down, hb, hdown, ?_, ?_, rfl, ?_, ?_, ?_⟩
  · rw [hd, hb, hdown]; rfl
  · rw [hs, hd, hb, hdown]; rfl
  · exact C55_nonneg c one_pos (rateCirc_pos sv argsort argmax) _ _ _ _ hb
  · exact C55_nonneg c one_pos (rateCirc_pos sv argsort argmax) _ _ _ _ hdown
  · exact C55_unknown c "thermal" (by decide) (by decide) ⟨0, Nat.zero_lt_two⟩ ⟨1, Nat.one_lt_two⟩ rfl true

/-- matrix elements of the constructed circuit between nodes 0 and 2 -/
example (sv : SvdFn) (hsv : SvdSpec sv) (argsort : ArgsortFn) (ha : ArgsortSpec argsort)
    (argmax : ∀ k, ArgmaxFn k) :
    ∃ z, (rateCirc sv argsort argmax).matrixElements "capacitive" (0, 2) (0, 1) = .ok z ∧
      (rateCirc sv argsort argmax).matrixElements "capacitive" (0, 2) (1, 0) = .ok ((starRingEnd ℂ) z) :=
  C63_exists (lcSpec true sv argsort argmax) lcVals (lcBuild true) (lc_build_init hsv ha argmax true)
    (lc_noSelf true) _ _ _ _ _ _ _ [0, kB / hbar]
    [fun x => if x = fun _ => 0 then 1 else 0, fun x => if x = fun _ => 1 then 1 else 0] _ (Or.inl rfl) (0, 2) ⟨by simp, by simp, by simp [lcBuild]⟩
    ⟨0, Nat.zero_lt_two⟩ ⟨1, Nat.one_lt_two⟩

/-! ### C56 -/

/-- If the junction's phase operator has no charge-mode part, the operator used is the half-angle sine
of the junction's phase. Missing for the full property: charge modes the junction couples to. -/
theorem C56_half_angle_partial {nJ k : ℕ} (D : ModeData nJ k) (m : Fin k → ℕ) (ng : Fin k → ℝ)
    (i : Fin nJ) (h : ∀ j, D.omega j = 0 → D.w i j = 0) (phi : ℝ) :
    IsHalfAngleSine (sinHalfOp (buildMem D m ng) i phi) (cosOp (buildMem D m ng) i phi) := by
  refine ⟨sinHalfOp_herm _ _ _, ?_⟩
  have hr : ∀ j, rootExpFactor D m i j * rootExpFactor D m i j = expFactor D m i j := by
    intro j
    unfold rootExpFactor expFactor
    by_cases h0 : D.omega j = 0
    · rw [if_pos h0, if_pos h0, h j h0]
      simp [dOp]
    · rw [if_neg h0, if_neg h0]
      by_cases h1 : m j = 1
      · rw [if_pos h1, if_pos h1, mul_one]
      · rw [if_neg h1, if_neg h1]
        exact qDisplace_half _ _
  have hu : ∀ j, rootExpFactor D m i j * (rootExpFactor D m i j)ᴴ = 1 ∧
      (rootExpFactor D m i j)ᴴ * rootExpFactor D m i j = 1 := by
    intro j
    unfold rootExpFactor
    by_cases h0 : D.omega j = 0
    · rw [if_pos h0]; simp
    · rw [if_neg h0]
      by_cases h1 : m j = 1
      · rw [if_pos h1]; simp
      · rw [if_neg h1, qDisplace_conjTranspose]
        refine ⟨qDisplace_mul_neg _ _, ?_⟩
        have := qDisplace_mul_neg (m j) (-(D.alpha i j / 2))
        rwa [neg_neg] at this
  exact half_angle (buildMem D m ng) i phi
    (by show tens _ * tens _ = tens _
        rw [tens_mul]; congr 1; funext j; exact hr j)
    (by show tens _ * (tens _)ᴴ = 1
        rw [tens_conjTranspose, tens_mul, ← tens_one]; congr 1; funext j; exact (hu j).1)
    (by show (tens _)ᴴ * tens _ = 1
        rw [tens_conjTranspose, tens_mul, ← tens_one]; congr 1; funext j; exact (hu j).2)

/-- a fluxonium-like junction: one harmonic mode -/
example : IsHalfAngleSine (sinHalfOp (buildMem (⟨1, 1, 1, fun _ => 1⟩ : ModeData 1 1) (fun _ => 5) 0) 0 0.3)
    (cosOp (buildMem (⟨1, 1, 1, fun _ => 1⟩ : ModeData 1 1) (fun _ => 5) 0) 0 0.3) :=
  C56_half_angle_partial _ _ _ _ (fun _ h => absurd h one_ne_zero) _

/-- If all modes the junctions couple to are charge modes, the operator used is a multiple of the
identity and the quasiparticle rate between orthogonal states of different frequency is zero, whatever
the admittances and Josephson energies. -/
theorem C56_charge_modes (c : NoiseCirc) (ng : Fin c.M.keep.length → ℝ)
    (hmem : c.mem = buildMem c.M.data c.m ng) (hT : 0 < c.env.T)
    (h : ∀ j, c.M.omega j ≠ 0 → ∀ i, c.M.w i j = 0) :
    (∀ i phi, sinHalfOp c.mem i phi = ((Real.sin (phi / 2) : ℝ) : ℂ) • (1 : Op c.m)) ∧
    ∀ (i j : ℤ) (w1 w2 : ℝ) (s1 s2 : Idx c.m → ℂ) (total : Bool), pyGet c.efreqs i = .ok w1 →
      pyGet c.efreqs j = .ok w2 → pyGet c.evecs i = .ok s1 → pyGet c.evecs j = .ok s2 → w1 ≠ w2 →
      overlap s1 s2 = 0 → c.decRate "quasiparticle" (i, j) total = .ok (.val 0) := by
  have hop : ∀ i phi, sinHalfOp c.mem i phi = ((Real.sin (phi / 2) : ℝ) : ℂ) • (1 : Op c.m) := by
    intro i phi
    have hroot : c.mem.rootExp i = 1 := by
      rw [hmem]
      show tens (rootExpFactor c.M.data c.m i) = 1
      rw [← tens_one]
      congr 1
      funext j
      unfold rootExpFactor
      by_cases h0 : c.M.data.omega j = 0
      · rw [if_pos h0]
      · rw [if_neg h0]
        split
        · rfl
        · have : c.M.data.alpha i j = 0 := by
            unfold ModeData.alpha
            have : c.M.data.w i j = 0 := h j h0 i
            rw [this]; simp
          rw [this, zero_div, qDisplace_zero]
    exact sinHalf_one c.mem i phi hroot
  refine ⟨hop, fun i j w1 w2 s1 s2 total e1 e2 e3 e4 hw ho => ?_⟩
  have hp : c.pair (i, j) = .ok ((w1, w2), (s1, s2)) := by
    have h0 : c.efreqs.length ≠ 0 := by
      intro h0
      rw [List.length_eq_zero_iff.1 h0] at e1
      exact pyGet_nil i e1
    unfold NoiseCirc.pair
    rw [if_neg h0]
    simp only [e1, e2, e3, e4]
  rw [decRate_eq, hp]
  simp only
  rw [rateOf_loss c (by simp [lossTypes])]
  have hz : ∀ g ∈ c.qpCoefs |w2 - w1| s1 s2, g = 0 := by
    intro g hg
    obtain ⟨key, -, hval⟩ := List.mem_filterMap.1 hg
    obtain ⟨Y, -, rfl⟩ := Option.map_eq_some_iff.1 hval
    rw [hop, innerOp_eq, braket_right, smul_mulVec, one_mulVec, overlap_smul, ho]
    simp
  have hpos : 0 < thermalAlpha |w2 - w1| c.env.T := by
    unfold thermalAlpha
    have := hbar_pos
    have hk : (0 : ℝ) < kB := by unfold kB; norm_num
    have : 0 < |w2 - w1| := abs_pos.2 (sub_ne_zero.2 (Ne.symm hw))
    positivity
  have hS : ∃ t, tempS (thermalAlpha |w2 - w1| c.env.T) (i, j) total = some t := by
    unfold tempS thermal
    by_cases h7 : thermalAlpha |w2 - w1| c.env.T > 709
    · rw [if_pos h7]
      simp only
      split
      · split <;> exact ⟨_, rfl⟩
      · exact ⟨_, rfl⟩
    · rw [if_neg h7, if_neg hpos.ne']
      simp only
      split
      · split <;> exact ⟨_, rfl⟩
      · exact ⟨_, rfl⟩
  obtain ⟨t, ht⟩ := hS
  have hl : c.lossCoefs "quasiparticle" (i, j) |w2 - w1| s1 s2 = .ok (c.qpCoefs |w2 - w1| s1 s2) := by
    simp [NoiseCirc.lossCoefs]
  rw [hl]
  simp only [Except.map]
  rw [ht, lossSum_some, List.sum_eq_zero hz]
  simp

/-- the mode of the transmon made of the junction on (0,2) of `lcBuild` (NumPy removes the uncoupled
harmonic mode) -/
theorem transmon_modes : (∀ j, (lcBuild false).M.omega j = 0) ∧ (∀ i j, (lcBuild false).M.w i j = 1) ∧
    (lcBuild false).M.keep.length = 1 := by
  have hget : ∀ j, (finishModes false lcFinal).keep.get j = 1 := by
    intro j
    have := List.get_mem (finishModes false lcFinal).keep j
    generalize (finishModes false lcFinal).keep.get j = x at this
    rw [lc_keep] at this
    simpa using this
  obtain ⟨keep, hM, -⟩ := finishModes_eq false lcFinal
  have gen : ∀ M : Modes 1 2, M = restrict lcFinal keep → (∀ j, M.keep.get j = 1) →
      (∀ j, M.omega j = 0) ∧ ∀ i j, M.w i j = 1 := by
    rintro _ rfl hget
    refine ⟨fun j => ?_, fun i j => ?_⟩
    · have : (restrict lcFinal keep).omega j = lcFinal.omega (keep.get j) := rfl
      rw [this, show keep.get j = 1 from hget j]
      rfl
    · have : (restrict lcFinal keep).w i j = lcFinal.w i (keep.get j) := rfl
      rw [this, show keep.get j = 1 from hget j]
      fin_cases i
      rfl
  obtain ⟨h1, h2⟩ := gen _ hM hget
  refine ⟨h1, h2, ?_⟩
  change (finishModes false lcFinal).keep.length = 1
  rw [lc_keep]; rfl

/-- charge modes coupled to a junction: the operator used is not the half-angle sine -/
theorem not_half_angle (c : NoiseCirc) (ng : Fin c.M.keep.length → ℝ)
    (hmem : c.mem = buildMem c.M.data c.m ng) (hT : 0 < c.env.T) (ho : ∀ j, c.M.omega j = 0)
    (i : Fin c.nJ) (j : Fin c.M.keep.length) (hw : c.M.w i j ≠ 0) (hm : ∀ j, 2 ≤ c.m j) :
    ¬ IsHalfAngleSine (sinHalfOp c.mem i 0) (cosOp c.mem i 0) := by
  obtain ⟨h1, -⟩ := C56_charge_modes c ng hmem hT (fun j hj => absurd (ho j) hj)
  rintro ⟨-, h⟩
  rw [h1] at h
  simp only [zero_div, Real.sin_zero, ofReal_zero, zero_smul, mul_zero, smul_zero] at h
  -- the diagonal entries of the cosine vanish
  let x : Idx c.m := fun i => ⟨0, by have := hm i; omega⟩
  have hx := congrFun (congrFun h x) x
  have hc : cosOp c.mem i 0 x x = 0 := by
    have he : c.mem.exp i x x = 0 := by
      rw [hmem]
      show (tens (expFactor c.M.data c.m i) : Op c.m) x x = 0
      unfold tens
      simp only [of_apply]
      refine Finset.prod_eq_zero (Finset.mem_univ j) ?_
      have e1 : c.M.data.omega j = 0 := ho _
      have e2 : c.M.data.w i j ≠ 0 := hw
      unfold expFactor dOp
      rw [if_pos e1, if_neg e2]
      by_cases hneg : c.M.data.w i j < 0
      · simp [hneg]
      · simp [hneg]
    unfold cosOp
    simp [he]
  rw [Matrix.sub_apply, hc] at hx
  simp at hx

/-- The property is violated by the transmon circuit `lcBuild false` (constructed by
`lc_build_init`) for every truncation with at least two charge states: at zero flux the operator used
for its junction is not the half-angle sine, and the quasiparticle rate vanishes between all orthogonal
states of different frequency. -/
theorem C56_refuted (c : CircSpec) (val : ElemId → ℝ) (P : ElemId → Matrix (Fin 2) (Fin 2) ℝ)
    (noise : NoiseSpec 0) (env : NoiseEnv) (hT : 0 < env.T)
    (m : Fin (lcBuild false).M.keep.length → ℕ) (hm : ∀ i, 2 ≤ m i)
    (ng : Fin (lcBuild false).M.keep.length → ℝ) (ef : List ℝ) (ev : List (Idx m → ℂ)) :
    let circ := (lcBuild false).noise c m ng val (fun i => i.elim0) P noise env ef ev
    (∀ k ∈ circ.juns, ¬ IsHalfAngleSine (sinHalfOp circ.mem k.wId 0) (cosOp circ.mem k.wId 0)) ∧
    circ.juns.length = 1 ∧
    ∀ (i j : ℤ) (w1 w2 : ℝ) (s1 s2 : Idx m → ℂ) (total : Bool), pyGet ef i = .ok w1 →
      pyGet ef j = .ok w2 → pyGet ev i = .ok s1 → pyGet ev j = .ok s2 → w1 ≠ w2 →
      overlap s1 s2 = 0 → circ.decRate "quasiparticle" (i, j) total = .ok (.val 0) := by
  intro circ
  obtain ⟨ho, hw, hlen⟩ := transmon_modes
  obtain ⟨-, h2⟩ := C56_charge_modes circ ng rfl hT (fun j hj => absurd (ho j) hj)
  refine ⟨fun k _ => ?_, rfl, h2⟩
  have h0 : 0 < (lcBuild false).M.keep.length := by omega
  exact not_half_angle circ ng rfl hT ho k.wId ⟨0, h0⟩ (by
    have : circ.M.w k.wId ⟨0, h0⟩ = 1 := hw _ _
    rw [this]; exact one_ne_zero) hm

end SQ
