import Verif.Spec.Rates
import Verif.Lemmas.Dephasing

/-! # Lemmas for matrix elements and decoherence rates -/

namespace SQ
open Matrix Complex Spec

theorem addTerms_herm {k : ℕ} {α : Type*} [Fintype α] {coef : Fin k → Except PyErr ℝ}
    {ops : Fin k → Matrix α α ℂ} (hops : ∀ i, (ops i)ᴴ = ops i) (l : List (Fin k)) (acc r : Matrix α α ℂ)
    (hacc : accᴴ = acc) (h : addTerms coef ops l acc = .ok r) : rᴴ = r := by
  induction l generalizing acc with
  | nil =>
    simp only [addTerms, Except.ok.injEq] at h
    rw [← h]; exact hacc
  | cons i is ih =>
    rw [addTerms] at h
    cases hc : coef i with
    | error e => rw [hc] at h; cases h
    | ok x =>
      rw [hc] at h
      refine ih _ ?_ h
      rw [conjTranspose_add, hacc, herm_real_smul x (hops i)]

theorem couplingOp_herm {nJ n : ℕ} (ctype : String) (C : Matrix (Fin n) (Fin n) ℝ) (M : Modes nJ n)
    (m : Fin M.keep.length → ℕ) (ng : Fin M.keep.length → ℝ) (nodes : Edge) (r : Op m)
    (h : couplingOp ctype C M (buildMem M.data m ng).Q (buildMem M.data m ng).phi nodes = .ok r) :
    r.IsHermitian := by
  unfold couplingOp at h
  split at h
  · cases h
  · refine addTerms_herm ?_ _ _ _ (by simp) h
    intro i
    split
    · exact Q_herm _ _ _ _
    · exact phi_herm _ _ _ _

theorem indOpOf_herm {nJ n b : ℕ} (C : Matrix (Fin n) (Fin n) ℝ) (M : Modes nJ n)
    (m : Fin M.keep.length → ℕ) (ng : Fin M.keep.length → ℝ) (key : IndKey b) :
    (indOpOf C M (buildMem M.data m ng) key).IsHermitian := by
  unfold indOpOf
  split
  · next op h => exact couplingOp_herm _ _ _ _ _ _ _ h
  · exact isHermitian_zero

theorem sinHalfOp_herm {nJ k : ℕ} {m : Fin k → ℕ} (mem : OpMem nJ m) (w : Fin nJ) (phi : ℝ) :
    (sinHalfOp mem w phi).IsHermitian := by
  unfold sinHalfOp Matrix.IsHermitian
  rw [conjTranspose_smul, conjTranspose_sub, conjTranspose_conjTranspose]
  simp only [RCLike.star_def, map_div₀, map_one, map_mul, Complex.conj_ofNat, Complex.conj_I]
  rw [← neg_sub, smul_neg, ← neg_smul]
  congr 1
  field_simp

theorem innerOp_conj {ι : Type*} [Fintype ι] {A : Matrix ι ι ℂ} (hA : A.IsHermitian) (u v : ι → ℂ) :
    innerOp v A u = (starRingEnd ℂ) (innerOp u A v) := by
  rw [innerOp_eq, innerOp_eq, braket_conj hA]

theorem innerOp_norm_symm {ι : Type*} [Fintype ι] {A : Matrix ι ι ℂ} (hA : A.IsHermitian)
    (u v : ι → ℂ) : ‖innerOp v A u‖ = ‖innerOp u A v‖ := by
  rw [innerOp_conj hA u v, Complex.norm_conj]

theorem pyGet_error {α : Type*} {l : List α} {i : ℤ} {e : PyErr} (h : pyGet l i = .error e) :
    e = .indexError := by
  unfold pyGet pyIdx at h
  split at h
  · next e' h' =>
    split at h'
    · cases h'
    · split at h'
      · cases h'
      · cases h'; cases h; rfl
  · cases h

theorem pyGet_nil {α : Type*} {x : α} (i : ℤ) (h : pyGet ([] : List α) i = .ok x) : False := by
  unfold pyGet at h
  cases hi : pyIdx ([] : List α).length i with
  | error e => rw [hi] at h; cases h
  | ok j => exact absurd j.isLt (by simp)

theorem dephasing_nonneg (env : NoiseEnv) (A w : ℝ) : 0 ≤ dephasing env A w :=
  mul_nonneg (abs_nonneg _) (Real.sqrt_nonneg _)

/-! ### thermal factors -/

theorem coth_exp {x : ℝ} (hx : 0 < x) : coth (x / 2) = (Real.exp x + 1) / (Real.exp x - 1) := by
  have h1 : Real.exp x = Real.exp (x / 2) * Real.exp (x / 2) := by
    rw [← Real.exp_add]; congr 1; ring
  have hp := Real.exp_pos (x / 2)
  have hs : 0 < Real.sinh (x / 2) := Real.sinh_pos_iff.2 (by linarith)
  have hx1 : 0 < Real.exp x - 1 := by
    have := Real.add_one_lt_exp (by linarith : x ≠ 0)
    linarith
  unfold coth
  rw [div_eq_div_iff hs.ne' hx1.ne', Real.cosh_eq, Real.sinh_eq, Real.exp_neg, h1]
  field_simp

theorem tanh_coth (x : ℝ) : 1 / Real.tanh x = coth x := by
  unfold coth
  rw [Real.tanh_eq_sinh_div_cosh, one_div, inv_div]

/-- total factor -/
theorem thermal_values {a : ℝ} (h0 : 0 < a) (h1 : a ≤ 709) :
    thermal a = some (1 + coth (a / 2), (1 + coth (a / 2)) * Real.exp (-a)) := by
  unfold thermal
  rw [if_neg (by linarith), if_neg h0.ne']
  simp only [tanh_coth]

theorem thermal_nonneg {a d u : ℝ} (h0 : 0 ≤ a) (h : thermal a = some (d, u)) : 0 ≤ d ∧ 0 ≤ u := by
  by_cases h709 : a > 709
  · unfold thermal at h
    rw [if_pos h709] at h
    simp only [Option.some.injEq, Prod.mk.injEq] at h
    rw [← h.1, ← h.2]; norm_num
  · by_cases ha : a = 0
    · unfold thermal at h
      rw [if_neg h709, if_pos ha] at h
      cases h
    · have hpos : 0 < a := lt_of_le_of_ne h0 (Ne.symm ha)
      rw [thermal_values hpos (by linarith)] at h
      simp only [Option.some.injEq, Prod.mk.injEq] at h
      have hc : 0 ≤ 1 + coth (a / 2) := by
        rw [coth_exp hpos]
        have := Real.add_one_lt_exp ha
        have : 0 < Real.exp a - 1 := by linarith
        positivity
      rw [← h.1, ← h.2]
      exact ⟨hc, mul_nonneg hc (Real.exp_pos _).le⟩

theorem tempS_nonneg {a t : ℝ} {st : ℤ × ℤ} {total : Bool} (h0 : 0 ≤ a)
    (h : tempS a st total = some t) : 0 ≤ t := by
  unfold tempS at h
  split at h
  · cases h
  · next d u hth =>
    obtain ⟨hd, hu⟩ := thermal_nonneg h0 hth
    split at h
    · split at h
      · cases h; exact hd
      · cases h; exact hu
    · cases h; exact add_nonneg hd hu

theorem thermalAlpha_nonneg {T : ℝ} (hT : 0 < T) (w : ℝ) : 0 ≤ thermalAlpha |w| T := by
  unfold thermalAlpha
  have := hbar_pos
  have hk : (0 : ℝ) < kB := by unfold kB; norm_num
  positivity

/-! ### the three losses as sums of terms `factor * coefficient` -/

/-- accumulation of terms -/
noncomputable def lossSum (tS : Option ℝ) (gs : List ℝ) (acc : Rate) : Rate :=
  gs.foldl (fun acc g => acc.addTerm tS (fun t => t * g)) acc

theorem lossSum_some (t : ℝ) (gs : List ℝ) (x : ℝ) :
    lossSum (some t) gs (.val x) = .val (x + t * gs.sum) := by
  induction gs generalizing x with
  | nil => simp [lossSum]
  | cons g gs ih =>
    have : lossSum (some t) (g :: gs) (.val x) = lossSum (some t) gs (.val (x + t * g)) := rfl
    rw [this, ih, List.sum_cons]
    congr 1
    ring

theorem lossSum_non (tS : Option ℝ) (gs : List ℝ) : lossSum tS gs .nonFinite = .nonFinite := by
  induction gs with
  | nil => rfl
  | cons g gs ih => exact ih

theorem lossSum_none (gs : List ℝ) (x : ℝ) (h : gs ≠ []) :
    lossSum none gs (.val x) = .nonFinite := by
  cases gs with
  | nil => exact absurd rfl h
  | cons g gs => exact lossSum_non none gs

/-- coefficients of capacitive loss -/
noncomputable def NoiseCirc.capCoefs (c : NoiseCirc) (omega : ℝ) (states : ℤ × ℤ) :
    List (Edge × ElemId) → Except PyErr (List ℝ)
  | [] => .ok []
  | (edge, cap) :: ks =>
    match c.noise.capQ cap with
    | none => NoiseCirc.capCoefs c omega states ks
    | some Q =>
      match c.matrixElements "capacitive" edge states with
      | .error e => .error e
      | .ok z =>
        match NoiseCirc.capCoefs c omega states ks with
        | .error e => .error e
        | .ok l => .ok (c.val cap / Q omega * ‖z‖ ^ 2 :: l)

theorem capRate_eq (c : NoiseCirc) (omega : ℝ) (tS : Option ℝ) (states : ℤ × ℤ)
    (l : List (Edge × ElemId)) (acc : Rate) :
    c.capRate omega tS states l acc = (c.capCoefs omega states l).map (fun gs => lossSum tS gs acc) := by
  induction l generalizing acc with
  | nil => rfl
  | cons k ks ih =>
    obtain ⟨edge, cap⟩ := k
    rw [NoiseCirc.capRate, NoiseCirc.capCoefs]
    cases c.noise.capQ cap with
    | none => exact ih acc
    | some Q =>
      simp only
      cases c.matrixElements "capacitive" edge states with
      | error e => rfl
      | ok z =>
        simp only
        rw [ih]
        cases c.capCoefs omega states ks with
        | error e => rfl
        | ok gs =>
          simp only [Except.map, lossSum, List.foldl_cons]
          congr 2
          unfold Rate.addTerm
          cases acc <;> cases tS <;> simp
          ring

/-- coefficients of inductive loss -/
noncomputable def NoiseCirc.indCoefs (c : NoiseCirc) (omega : ℝ) (s1 s2 : Idx c.m → ℂ) : List ℝ :=
  c.inds.filterMap (fun key => (c.noise.indQ key.el omega c.env.T).map (fun Q =>
    1 / Q / c.val key.el * ‖innerOp s1 (indOpOf c.C c.M c.mem key) s2‖ ^ 2))

/-- coefficients of quasiparticle loss -/
noncomputable def NoiseCirc.qpCoefs (c : NoiseCirc) (omega : ℝ) (s1 s2 : Idx c.m → ℂ) : List ℝ :=
  c.juns.filterMap (fun key => (c.noise.junY key.el omega c.env.T).map (fun Y =>
    Y * omega * c.val key.el * hbar *
      ‖innerOp s1 (sinHalfOp c.mem key.wId (extFlux c.B c.loopVals key.bId)) s2‖ ^ 2))

theorem foldl_lossSum {α : Type*} (l : List α) (tS : Option ℝ) (q : α → Option ℝ) (f : α → ℝ → ℝ → ℝ)
    (g : α → ℝ → ℝ) (hf : ∀ a y t, f a y t = t * g a y) (acc : Rate) :
    l.foldl (fun acc a => match q a with
      | none => acc
      | some y => acc.addTerm tS (f a y)) acc =
      lossSum tS (l.filterMap (fun a => (q a).map (g a))) acc := by
  induction l generalizing acc with
  | nil => rfl
  | cons a l ih =>
    rw [List.foldl_cons, ih]
    cases hq : q a with
    | none => rw [List.filterMap_cons_none (by rw [hq]; rfl)]
    | some y =>
      rw [List.filterMap_cons_some (by rw [hq]; rfl)]
      have : f a y = fun t => t * g a y := funext (hf a y)
      simp only
      rw [this]
      rfl

theorem indRate_eq (c : NoiseCirc) (omega : ℝ) (tS : Option ℝ) (s1 s2 : Idx c.m → ℂ) :
    c.indRate omega tS s1 s2 = lossSum tS (c.indCoefs omega s1 s2) (.val 0) := by
  unfold NoiseCirc.indRate NoiseCirc.indCoefs
  exact foldl_lossSum c.inds tS (fun key => c.noise.indQ key.el omega c.env.T)
    (fun key Q t => t / Q / c.val key.el * ‖innerOp s1 (indOpOf c.C c.M c.mem key) s2‖ ^ 2)
    (fun key Q => 1 / Q / c.val key.el * ‖innerOp s1 (indOpOf c.C c.M c.mem key) s2‖ ^ 2)
    (fun _ _ _ => by ring) _

theorem qpRate_eq (c : NoiseCirc) (omega : ℝ) (tS : Option ℝ) (s1 s2 : Idx c.m → ℂ) :
    c.qpRate omega tS s1 s2 = lossSum tS (c.qpCoefs omega s1 s2) (.val 0) := by
  unfold NoiseCirc.qpRate NoiseCirc.qpCoefs
  exact foldl_lossSum c.juns tS (fun key => c.noise.junY key.el omega c.env.T)
    (fun key Y t => t * Y * omega * c.val key.el * hbar *
      ‖innerOp s1 (sinHalfOp c.mem key.wId (extFlux c.B c.loopVals key.bId)) s2‖ ^ 2)
    (fun key Y => Y * omega * c.val key.el * hbar *
      ‖innerOp s1 (sinHalfOp c.mem key.wId (extFlux c.B c.loopVals key.bId)) s2‖ ^ 2)
    (fun _ _ _ => by ring) _

/-- the two frequencies and states -/
def NoiseCirc.pair (c : NoiseCirc) (st : ℤ × ℤ) :
    Except PyErr ((ℝ × ℝ) × ((Idx c.m → ℂ) × (Idx c.m → ℂ))) :=
  if c.efreqs.length = 0 then .error .circuitState
  else
    match pyGet c.efreqs st.1 with
    | .error e => .error e
    | .ok w1 =>
    match pyGet c.efreqs st.2 with
    | .error e => .error e
    | .ok w2 =>
    match pyGet c.evecs st.1 with
    | .error e => .error e
    | .ok s1 =>
    match pyGet c.evecs st.2 with
    | .error e => .error e
    | .ok s2 => .ok ((w1, w2), (s1, s2))

theorem pair_swap (c : NoiseCirc) (i j : ℤ) :
    c.pair (j, i) = (c.pair (i, j)).map (fun p => (p.1.swap, p.2.swap)) := by
  unfold NoiseCirc.pair
  by_cases h : c.efreqs.length = 0
  · simp only [if_pos h]; rfl
  · simp only [if_neg h]
    cases h1 : pyGet c.efreqs i with
    | error e =>
      rw [pyGet_error h1]
      cases h2 : pyGet c.efreqs j with
      | error e => rw [pyGet_error h2]; rfl
      | ok w => rfl
    | ok w1 =>
      cases h2 : pyGet c.efreqs j with
      | error e => rfl
      | ok w2 =>
        simp only
        cases h3 : pyGet c.evecs i with
        | error e =>
          rw [pyGet_error h3]
          cases h4 : pyGet c.evecs j with
          | error e => rw [pyGet_error h4]; rfl
          | ok w => rfl
        | ok s1 =>
          cases h4 : pyGet c.evecs j with
          | error e => rfl
          | ok s2 => rfl

theorem pair_ok {c : NoiseCirc} {i j : ℤ} {w1 w2 : ℝ} {s1 s2 : Idx c.m → ℂ}
    (h : c.pair (i, j) = .ok ((w1, w2), (s1, s2))) :
    c.efreqs.length ≠ 0 ∧ pyGet c.efreqs i = .ok w1 ∧ pyGet c.efreqs j = .ok w2 ∧
      pyGet c.evecs i = .ok s1 ∧ pyGet c.evecs j = .ok s2 := by
  unfold NoiseCirc.pair at h
  by_cases h0 : c.efreqs.length = 0
  · rw [if_pos h0] at h; cases h
  · rw [if_neg h0] at h
    refine ⟨h0, ?_⟩
    cases h1 : pyGet c.efreqs i with
    | error e => simp only [h1] at h; cases h
    | ok a1 =>
      cases h2 : pyGet c.efreqs j with
      | error e => simp only [h1, h2] at h; cases h
      | ok a2 =>
        cases h3 : pyGet c.evecs i with
        | error e => simp only [h1, h2, h3] at h; cases h
        | ok b1 =>
          cases h4 : pyGet c.evecs j with
          | error e => simp only [h1, h2, h3, h4] at h; cases h
          | ok b2 =>
            simp only [h1, h2, h3, h4, Except.ok.injEq, Prod.mk.injEq] at h
            obtain ⟨⟨rfl, rfl⟩, rfl, rfl⟩ := h
            exact ⟨rfl, rfl, rfl, rfl⟩

/-- the body of `dec_rate` after the look-ups -/
noncomputable def NoiseCirc.rateOf (c : NoiseCirc) (ty : String) (st : ℤ × ℤ) (total : Bool)
    (p : (ℝ × ℝ) × ((Idx c.m → ℂ) × (Idx c.m → ℂ))) : Except PyErr Rate :=
  let omega := |p.1.2 - p.1.1|
  let tS := tempS (thermalAlpha omega c.env.T) st total
  if ty = "capacitive" then
    c.capRate omega tS st c.caps (.val 0)
  else if ty = "inductive" then .ok (c.indRate omega tS p.2.1 p.2.2)
  else if ty = "quasiparticle" then .ok (c.qpRate omega tS p.2.1 p.2.2)
  else if ty = "charge" then .ok (.val (c.chargeRate p.2.1 p.2.2))
  else if ty = "cc" then (c.ccRate st c.juns 0).map .val
  else if ty = "flux" then (c.fluxRate st (List.finRange c.nl) 0).map .val
  else .error .valueError

theorem decRate_eq (c : NoiseCirc) (ty : String) (st : ℤ × ℤ) (total : Bool) :
    c.decRate ty st total = (match c.pair st with
      | .error e => .error e
      | .ok p => c.rateOf ty st total p) := by
  unfold NoiseCirc.decRate NoiseCirc.pair
  by_cases h : c.efreqs.length = 0
  · simp only [if_pos h]
  · simp only [if_neg h]
    cases pyGet c.efreqs st.1 with
    | error e => rfl
    | ok w1 =>
      cases pyGet c.efreqs st.2 with
      | error e => rfl
      | ok w2 =>
        cases pyGet c.evecs st.1 with
        | error e => rfl
        | ok s1 =>
          cases pyGet c.evecs st.2 with
          | error e => rfl
          | ok s2 => rfl

/-- coefficients of the loss types -/
noncomputable def NoiseCirc.lossCoefs (c : NoiseCirc) (ty : String) (st : ℤ × ℤ) (omega : ℝ)
    (s1 s2 : Idx c.m → ℂ) : Except PyErr (List ℝ) :=
  if ty = "capacitive" then c.capCoefs omega st c.caps
  else if ty = "inductive" then .ok (c.indCoefs omega s1 s2)
  else .ok (c.qpCoefs omega s1 s2)

theorem rateOf_loss (c : NoiseCirc) {ty : String} (hty : ty ∈ lossTypes) (st : ℤ × ℤ) (total : Bool)
    (w1 w2 : ℝ) (s1 s2 : Idx c.m → ℂ) :
    c.rateOf ty st total ((w1, w2), (s1, s2)) = (c.lossCoefs ty st |w2 - w1| s1 s2).map (fun gs =>
      lossSum (tempS (thermalAlpha |w2 - w1| c.env.T) st total) gs (.val 0)) := by
  simp only [lossTypes, List.mem_cons, List.not_mem_nil, or_false] at hty
  unfold NoiseCirc.rateOf NoiseCirc.lossCoefs
  rcases hty with rfl | rfl | rfl
  · simp [capRate_eq]
  · simp [indRate_eq, Except.map]
  · simp [qpRate_eq, Except.map]

theorem matrixElements_conj (c : NoiseCirc) (ng : Fin c.M.keep.length → ℝ)
    (hmem : c.mem = buildMem c.M.data c.m ng) (ctype : String) (nodes : Edge) (i j : ℤ) :
    c.matrixElements ctype nodes (j, i) =
      (c.matrixElements ctype nodes (i, j)).map (starRingEnd ℂ) := by
  unfold NoiseCirc.matrixElements
  by_cases h : c.evecs.length = 0
  · simp only [if_pos h]; rfl
  · simp only [if_neg h]
    cases h1 : pyGet c.evecs i with
    | error e =>
      rw [pyGet_error h1]
      cases h2 : pyGet c.evecs j with
      | error e => rw [pyGet_error h2]; rfl
      | ok w => rfl
    | ok s1 =>
      cases h2 : pyGet c.evecs j with
      | error e => rfl
      | ok s2 =>
        simp only
        cases h3 : c.coupling ctype nodes with
        | error e => rfl
        | ok A =>
          have hA : A.IsHermitian := by
            unfold NoiseCirc.coupling at h3
            rw [hmem] at h3
            exact couplingOp_herm _ _ _ _ _ _ _ h3
          simp only [Except.map]
          rw [innerOp_conj hA]

theorem matrixElements_ok (c : NoiseCirc) (hk : c.M.keep.length ≤ c.n) {ctype : String}
    (hc : ctype = "capacitive" ∨ ctype = "inductive") {nodes : Edge} (hv : ValidEdge c.n nodes)
    (i j : Fin c.evecs.length) : ∃ z, c.matrixElements ctype nodes ((i : ℕ), (j : ℕ)) = .ok z := by
  have hlen : 0 < c.evecs.length := lt_of_le_of_lt (Nat.zero_le _) i.isLt
  unfold NoiseCirc.matrixElements NoiseCirc.coupling
  rw [if_neg (by omega)]
  simp only
  rw [pyGet_nat i.isLt, pyGet_nat j.isLt, couplingOp_ok hc _ _ hk _ _ hv]
  exact ⟨_, rfl⟩

theorem capCoefs_symm (c : NoiseCirc) (ng : Fin c.M.keep.length → ℝ)
    (hmem : c.mem = buildMem c.M.data c.m ng) (omega : ℝ) (i j : ℤ) (l : List (Edge × ElemId)) :
    c.capCoefs omega (j, i) l = c.capCoefs omega (i, j) l := by
  induction l with
  | nil => rfl
  | cons k ks ih =>
    obtain ⟨edge, cap⟩ := k
    rw [NoiseCirc.capCoefs, NoiseCirc.capCoefs, ih, matrixElements_conj c ng hmem _ _ i j]
    cases c.noise.capQ cap with
    | none => rfl
    | some Q =>
      cases c.matrixElements "capacitive" edge (i, j) with
      | error e => rfl
      | ok z => simp only [Except.map, Complex.norm_conj]

theorem indCoefs_symm (c : NoiseCirc) (ng : Fin c.M.keep.length → ℝ)
    (hmem : c.mem = buildMem c.M.data c.m ng) (omega : ℝ) (s1 s2 : Idx c.m → ℂ) :
    c.indCoefs omega s2 s1 = c.indCoefs omega s1 s2 := by
  unfold NoiseCirc.indCoefs
  have h : ∀ key : IndKey c.b, ‖innerOp s2 (indOpOf c.C c.M c.mem key) s1‖ =
      ‖innerOp s1 (indOpOf c.C c.M c.mem key) s2‖ := by
    intro key
    rw [hmem]
    exact innerOp_norm_symm (indOpOf_herm _ _ _ _ _) _ _
  simp only [h]

theorem qpCoefs_symm (c : NoiseCirc) (omega : ℝ) (s1 s2 : Idx c.m → ℂ) :
    c.qpCoefs omega s2 s1 = c.qpCoefs omega s1 s2 := by
  unfold NoiseCirc.qpCoefs
  simp only [innerOp_norm_symm (sinHalfOp_herm c.mem _ _) s1 s2]

theorem lossCoefs_symm (c : NoiseCirc) (ng : Fin c.M.keep.length → ℝ)
    (hmem : c.mem = buildMem c.M.data c.m ng) (ty : String) (omega : ℝ) (i j : ℤ) (s1 s2 : Idx c.m → ℂ) :
    c.lossCoefs ty (j, i) omega s2 s1 = c.lossCoefs ty (i, j) omega s1 s2 := by
  unfold NoiseCirc.lossCoefs
  rw [capCoefs_symm c ng hmem, indCoefs_symm c ng hmem, qpCoefs_symm]

theorem tempS_total (a : ℝ) (st st' : ℤ × ℤ) : tempS a st true = tempS a st' true := by
  unfold tempS
  cases thermal a <;> rfl

theorem tempS_cases (a : ℝ) {i j : ℤ} (hij : i > j) :
    (thermal a = none ∧ ∀ st b, tempS a st b = none) ∨
    ∃ d u, thermal a = some (d, u) ∧ tempS a (i, j) false = some d ∧ tempS a (j, i) false = some u ∧
      ∀ st, tempS a st true = some (d + u) := by
  unfold tempS
  cases h : thermal a with
  | none => exact Or.inl ⟨rfl, fun _ _ => rfl⟩
  | some p =>
    obtain ⟨d, u⟩ := p
    refine Or.inr ⟨d, u, rfl, ?_, ?_, fun _ => rfl⟩
    · simp [hij]
    · have : ¬ j > i := by omega
      simp [this]

theorem capCoefs_nonneg {c : NoiseCirc} (hpos : PositiveLosses c) (omega : ℝ) (st : ℤ × ℤ)
    (l : List (Edge × ElemId)) (hl : ∀ p ∈ l, p ∈ c.caps) (gs : List ℝ)
    (h : c.capCoefs omega st l = .ok gs) : ∀ g ∈ gs, 0 ≤ g := by
  induction l generalizing gs with
  | nil =>
    simp only [NoiseCirc.capCoefs, Except.ok.injEq] at h
    subst h; simp
  | cons k ks ih =>
    obtain ⟨edge, cap⟩ := k
    rw [NoiseCirc.capCoefs] at h
    cases hQ : c.noise.capQ cap with
    | none =>
      rw [hQ] at h
      exact ih (fun p hp => hl p (by simp [hp])) gs h
    | some Q =>
      rw [hQ] at h
      cases hz : c.matrixElements "capacitive" edge st with
      | error e => simp only [hz] at h; cases h
      | ok z =>
        cases hr : c.capCoefs omega st ks with
        | error e => simp only [hz, hr] at h; cases h
        | ok l' =>
          simp only [hz, hr, Except.ok.injEq] at h
          subst h
          intro g hg
          rcases List.mem_cons.1 hg with rfl | hg
          · have h1 := hpos.capQ cap Q hQ omega
            have h2 := hpos.caps (edge, cap) (hl _ (by simp))
            simp only at h2
            positivity
          · exact ih (fun p hp => hl p (by simp [hp])) l' hr g hg

theorem lossCoefs_nonneg {c : NoiseCirc} (hpos : PositiveLosses c) (ty : String) (st : ℤ × ℤ) {omega : ℝ}
    (hom : 0 ≤ omega) (s1 s2 : Idx c.m → ℂ) (gs : List ℝ) (h : c.lossCoefs ty st omega s1 s2 = .ok gs) :
    ∀ g ∈ gs, 0 ≤ g := by
  unfold NoiseCirc.lossCoefs at h
  split at h
  · exact capCoefs_nonneg hpos omega st c.caps (fun _ h => h) gs h
  · split at h
    · cases h
      intro g hg
      obtain ⟨key, hkey, hval⟩ := List.mem_filterMap.1 hg
      obtain ⟨Q, hQ, rfl⟩ := Option.map_eq_some_iff.1 hval
      have h1 := hpos.indQ _ _ _ hQ
      have h2 := hpos.inds key hkey
      positivity
    · cases h
      intro g hg
      obtain ⟨key, hkey, hval⟩ := List.mem_filterMap.1 hg
      obtain ⟨Y, hY, rfl⟩ := Option.map_eq_some_iff.1 hval
      have h1 := hpos.junY _ _ _ hY
      have h2 := hpos.juns key hkey
      have h3 := hbar_pos
      positivity

/-! ### half-angle sine -/

theorem qDisplace_half (N : ℕ) (a : ℂ) : qDisplace N (a / 2) * qDisplace N (a / 2) = qDisplace N a := by
  unfold qDisplace
  rw [← Matrix.exp_add_of_commute _ _ (Commute.refl _)]
  congr 1
  rw [← two_smul ℂ, smul_sub, smul_smul, smul_smul]
  congr 2
  · ring_nf
  · rw [map_div₀]
    simp only [Complex.conj_ofNat]
    ring_nf

theorem phase_conj (x : ℝ) : (starRingEnd ℂ) (phase x) = phase (-x) := by
  unfold phase
  rw [← Complex.exp_conj]
  simp

theorem phase_mul (x y : ℝ) : phase x * phase y = phase (x + y) := by
  unfold phase
  rw [← Complex.exp_add]
  congr 1
  push_cast
  ring

theorem half_angle {nJ k : ℕ} {m : Fin k → ℕ} (mem : OpMem nJ m) (i : Fin nJ) (phi : ℝ)
    (h1 : mem.rootExp i * mem.rootExp i = mem.exp i) (h2 : mem.rootExp i * (mem.rootExp i)ᴴ = 1)
    (h3 : (mem.rootExp i)ᴴ * mem.rootExp i = 1) :
    (2 : ℂ) • (sinHalfOp mem i phi * sinHalfOp mem i phi) = 1 - cosOp mem i phi := by
  set r := phase (phi / 2) • mem.rootExp i with hr
  have hp : phase (phi / 2) * phase (phi / 2) = phase phi := by
    rw [phase_mul]; congr 1; ring
  have hpc : phase (phi / 2) * star (phase (phi / 2)) = 1 := by
    rw [RCLike.star_def, phase_conj, phase_mul]
    simp [phase]
  have e1 : r * r = phase phi • mem.exp i := by
    rw [hr, smul_mul_smul_comm, h1, hp]
  have e2 : r * rᴴ = 1 := by
    rw [hr, conjTranspose_smul, smul_mul_smul_comm, h2, hpc, one_smul]
  have e3 : rᴴ * r = 1 := by
    rw [hr, conjTranspose_smul, smul_mul_smul_comm, h3, mul_comm, hpc, one_smul]
  have e4 : rᴴ * rᴴ = (phase phi • mem.exp i)ᴴ := by
    rw [← conjTranspose_mul, e1]
  unfold sinHalfOp cosOp
  rw [← hr, ← e4, ← e1, smul_mul_smul_comm, smul_smul]
  have e5 : (r - rᴴ) * (r - rᴴ) = r * r + rᴴ * rᴴ - (2 : ℂ) • 1 := by
    rw [sub_mul, mul_sub, mul_sub, e2, e3, two_smul]
    abel
  rw [e5]
  have e6 : (2 : ℂ) * (1 / (2 * I) * (1 / (2 * I))) = -(1 / 2) := by
    field_simp
    rw [I_sq]
    norm_num
  rw [e6, smul_sub, smul_smul]
  have e7 : (-(1 / 2) : ℂ) * 2 = -1 := by norm_num
  rw [e7, neg_smul, neg_smul, one_smul]
  abel

theorem sinHalf_one {nJ k : ℕ} {m : Fin k → ℕ} (mem : OpMem nJ m) (i : Fin nJ) (phi : ℝ)
    (h : mem.rootExp i = 1) : sinHalfOp mem i phi = ((Real.sin (phi / 2) : ℝ) : ℂ) • 1 := by
  unfold sinHalfOp
  rw [h, conjTranspose_smul, conjTranspose_one, ← sub_smul, smul_smul]
  congr 1
  rw [RCLike.star_def, phase_conj]
  unfold phase
  rw [ofReal_sin, Complex.sin]
  have : (2 * I : ℂ) ≠ 0 := by simp
  push_cast
  field_simp
  rw [I_sq]
  ring_nf

end SQ
