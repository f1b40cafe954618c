import Verif.Lemmas.DecRateGrad

/-!
# C106: gradients of dephasing rates under PyTorch
-/

namespace SQ
open Matrix Complex SQ.Spec Filter Topology

section build
variable (c : CircSpec) (v0 : ElemId → ℝ) (bd : Build) (m : Fin bd.M.keep.length → ℕ)
    (ng : Fin bd.M.keep.length → ℝ) (val : ElemId → ℝ) (fluxes : Fin bd.loops.length → ℝ)
    (P : ElemId → Matrix (Fin bd.n) (Fin bd.n) ℝ) (noise : NoiseSpec bd.loops.length) (env : NoiseEnv)
    (grad : GradEl bd.loops.length) (H : ℝ → Op m) (ev : ℝ → List (Idx m → ℂ)) (ef : ℝ → List ℝ) (p q : ℕ)

theorem valuesAt_current : valuesAt val grad (currentOf val fluxes grad) = val := by
  cases grad <;> simp [valuesAt, currentOf]

theorem fluxesAt_current : fluxesAt fluxes grad (currentOf val fluxes grad) = fluxes := by
  cases grad <;> simp [fluxesAt, currentOf]

/-- the Hamiltonian as a function of a flux or a Josephson energy -/
theorem param_deriv {c : CircSpec} {v0 : ElemId → ℝ} {bd : Build} (hs : NoSelfLoops c.els) (hb : buildCirc c v0 = .ok bd)
    (m : Fin bd.M.keep.length → ℕ) (ng : Fin bd.M.keep.length → ℝ) (val : ElemId → ℝ) (fluxes : Fin bd.loops.length → ℝ)
    (P : ElemId → Matrix (Fin bd.n) (Fin bd.n) ℝ) {grad : GradEl bd.loops.length} (hg : FluxOrJunction c.O grad)
    {H : ℝ → Op m}
    (hH : ∀ t, fullHamiltonian bd.C bd.M m ng (valuesAt val grad t) (extFlux bd.B (fluxesAt fluxes grad t)) bd.inds
      bd.juns = .ok (H t)) :
    HasDerivOp H (partialH bd.C bd.M (buildMem bd.M.data m ng) val bd.B fluxes P bd.inds bd.juns none grad)
      (currentOf val fluxes grad) := by
  obtain ⟨k1, k2, k3⟩ := build_keys hs hb
  cases grad with
  | loop l =>
    obtain ⟨H', hH', hd⟩ := (C57_circuit c hs v0 bd hb m ng val fluxes P).1 l
    have : H' = H := funext fun t => Except.ok.inj ((hH' t).symm.trans (hH t))
    rw [← this]; exact hd
  | jun i =>
    obtain ⟨H', hH', hd⟩ := (C57_circuit c hs v0 bd hb m ng val fluxes P).2 i (fun key hk he => by
      have := k1 key hk; rw [he, hg] at this; cases this)
    have : H' = H := funext fun t => Except.ok.inj ((hH' t).symm.trans (hH t))
    rw [← this]; exact hd
  | ind i => exact hg.elim
  | cap i => exact hg.elim

theorem ham_herm {c : CircSpec} {v0 : ElemId → ℝ} {bd : Build} (hs : NoSelfLoops c.els) (hb : buildCirc c v0 = .ok bd)
    {m : Fin bd.M.keep.length → ℕ} {ng : Fin bd.M.keep.length → ℝ} {val : ElemId → ℝ} {phi : Fin bd.nB → ℝ} {H : Op m}
    {juns : List (JunKey bd.nB bd.nJ)}
    (hH : fullHamiltonian bd.C bd.M m ng val phi bd.inds juns = .ok H) : H.IsHermitian := by
  obtain ⟨h1, h2⟩ := build_valid hs hb
  obtain ⟨X, hX, hXh⟩ := C40_hermitian bd.C bd.M h1 m ng val phi bd.inds juns h2
  rw [← Except.ok.inj (hX.symm.trans hH)]; exact hXh

theorem backward_entry {nl : ℕ} {f : GradEl nl → Except PyErr ℝ} (h : ∀ a, ∃ r, f a = .ok r) {grad : GradEl nl} {r : ℝ}
    (hr : f grad = .ok r) (g : ℝ) {params : List (GradEl nl)} {idx : ℕ} (hidx : params[idx]? = some grad) :
    ∃ out, gradOutputs f g params = .ok out ∧ out.length = params.length ∧ out[idx]? = some (g * r) := by
  choose s hs using h
  have : s grad = r := Except.ok.inj ((hs grad).symm.trans hr)
  refine ⟨_, gradOutputs_ok hs g params, by simp, ?_⟩
  rw [List.getElem?_map, hidx, Option.map_some, this]

/-- C106, flux noise. A constructed circuit has a parameter, a flux or a Josephson energy, which is number `idx` of
its parameters; `rate t` is what `dec_rate("flux", (p, q))` returns when the parameter has the value `t` and the
circuit has been diagonalised, whatever eigenvectors the eigensolver returned. Where no two levels coincide and the
transition is sensitive to the flux of every loop, the rate is differentiable, and entry `idx` of the gradient returned by
`backward` is `grad_output` times its derivative. -/
theorem C106_flux (hs : NoSelfLoops c.els) (hb : buildCirc c v0 = .ok bd) (hg : FluxOrJunction c.O grad)
    (hH : ∀ t, fullHamiltonian bd.C bd.M m ng (valuesAt val grad t) (extFlux bd.B (fluxesAt fluxes grad t)) bd.inds
      bd.juns = .ok (H t))
    (hl : ∀ t, Levels (H t) (ev t) (ef t)) (hn : (ef (currentOf val fluxes grad)).Nodup)
    (hp : p < Fintype.card (Idx m)) (hq : q < Fintype.card (Idx m))
    (hA : ∀ l, 0 < noise.loopA l)
    (hsens : ∀ l, Sensitive (fun t => fullHamiltonian bd.C bd.M m ng val (extFlux bd.B (Function.update fluxes l t))
      bd.inds bd.juns) p q (fluxes l))
    (params : List (GradEl bd.loops.length)) (idx : ℕ) (hidx : params[idx]? = some grad) (g : ℝ) (total : Bool) :
    let circ := fun t => bd.noise c m ng (valuesAt val grad t) (fluxesAt fluxes grad t) P noise env (ef t) (ev t)
    ∃ (rate : ℝ → ℝ) (r : ℝ) (out : List ℝ),
      (∀ t, (circ t).decRate "flux" (p, q) total = .ok (.val (rate t))) ∧
      HasDerivAt rate r (currentOf val fluxes grad) ∧
      (circ (currentOf val fluxes grad)).fluxBackward params (p, q) 0 g = .ok out ∧
      out.length = params.length ∧ out[idx]? = some (g * r) := by
  intro circ
  obtain ⟨h1, h2⟩ := build_valid hs hb
  obtain ⟨k1, k2, k3⟩ := build_keys hs hb
  set x := currentOf val fluxes grad with hx
  have ev_ : valuesAt val grad x = val := valuesAt_current bd val fluxes grad
  have ef_ : fluxesAt fluxes grad x = fluxes := fluxesAt_current bd val fluxes grad
  have hherm : ∀ t, (H t).IsHermitian := fun t => ham_herm hs hb (hH t)
  have hHx : fullHamiltonian bd.C bd.M m ng val (extFlux bd.B fluxes) bd.inds bd.juns = .ok (H x) := by
    have := hH x
    rwa [ev_, ef_] at this
  have hlen : ∀ t, (ev t).length = Fintype.card (Idx m) := fun t => (hl t).card
  have hlenf : ∀ t, (ef t).length = Fintype.card (Idx m) := fun t => (hl t).len.trans (hl t).card
  obtain ⟨r, hr, hd⟩ := sumChannels_levels (bd.noise c m ng val fluxes P noise env (ef x) (ev x)) grad hherm
    (param_deriv hs hb m ng val fluxes P hg hH) ev ef hl rfl rfl hn hp hq (List.finRange bd.loops.length)
    (fun l => ⟨noise.loopA l, 0,
      partialH bd.C bd.M (buildMem bd.M.data m ng) val bd.B fluxes P bd.inds bd.juns none (.loop l),
      partialSquaredHphi bd.C bd.M (buildMem bd.M.data m ng) val bd.B fluxes bd.inds bd.juns l grad⟩)
    (fun l _ => noise.loopA l)
    (fun l t => partialH bd.C bd.M (buildMem bd.M.data m ng) (valuesAt val grad t) bd.B (fluxesAt fluxes grad t) P
      bd.inds bd.juns none (.loop l))
    (fun l _ => ⟨rfl, hasDerivAt_const x _, hA l⟩)
    (fun l _ => by
      have e : partialH bd.C bd.M (buildMem bd.M.data m ng) (valuesAt val grad x) bd.B (fluxesAt fluxes grad x) P
        bd.inds bd.juns none (.loop l) = partialH bd.C bd.M (buildMem bd.M.data m ng) val bd.B fluxes P
        bd.inds bd.juns none (.loop l) := by rw [ev_, ef_]
      refine ⟨e, ?_, ?_, ?_⟩
      · obtain ⟨c1, -, c3, -, -, -⟩ := C61_circuit c hs v0 bd hb m ng val fluxes P
        cases grad with
        | loop l' => exact c3 l l'
        | jun i => exact c1 l i hg
        | ind i => exact hg.elim
        | cap i => exact hg.elim
      · refine Eq.mpr (congrArg Matrix.IsHermitian e) ?_
        exact partialH_loop_herm bd.C bd.M h1 m ng val bd.B _ P bd.inds bd.juns h2 l
      · refine Eq.mpr (congrArg (fun X => sens ((ev x).getD p 0) ((ev x).getD q 0) X ≠ 0) e) ?_
        obtain ⟨G, hG, hGd⟩ := (C57_circuit c hs v0 bd hb m ng val fluxes P).1 l
        have hGx : G (fluxes l) = H x := by
          have := hG (fluxes l)
          rw [Function.update_eq_self] at this
          exact Except.ok.inj (this.symm.trans hHx)
        exact sens_of_sensitive (fun t => ham_herm hs hb (hG t)) hGd (by rw [hGx]; exact stored_level (hl x) hn hp)
          (by rw [hGx]; exact stored_level (hl x) hn hq) hG (hsens l))
  obtain ⟨out, ho1, ho2, ho3⟩ := backward_entry (f := fun a => (bd.noise c m ng val fluxes P noise env (ef x)
    (ev x)).partialFluxDec a (p, q) 0) (fun a => by
      obtain ⟨s, hs', -⟩ := sumChannels_eps (bd.noise c m ng val fluxes P noise env (ef x) (ev x)) (hl x).len a
        (p := p) (q := q) ((hlen x).symm ▸ hp) ((hlen x).symm ▸ hq) (NoiseCirc.fluxChannels _ a)
      exact ⟨_, hs' 0 0⟩) hr g hidx
  refine ⟨_, r, out, fun t => ?_, hd, ?_, ho2, ho3⟩
  · rw [decRate_eq]
    have gp : (ev t)[p]? = some ((ev t).getD p 0) := by
      rw [getD_of_lt ((hlen t).symm ▸ hp), List.getElem?_eq_getElem]
    have gq : (ev t)[q]? = some ((ev t).getD q 0) := by
      rw [getD_of_lt ((hlen t).symm ▸ hq), List.getElem?_eq_getElem]
    obtain ⟨w, w', hpair⟩ := pair_stored (circ t) gp gq ((hlenf t).symm ▸ hp) ((hlenf t).symm ▸ hq)
    rw [hpair]
    simp only
    unfold NoiseCirc.rateOf
    simp only [String.reduceEq, if_false, if_true]
    rw [fluxRate_eq (circ t) (pyGet_of_getElem? gp) (pyGet_of_getElem? gq)]
    simp only [Except.map]
    rw [zero_add]
    rfl
  · have : ∀ v f, v = val → f = fluxes → (bd.noise c m ng v f P noise env (ef x) (ev x)).fluxBackward params (p, q) 0 g =
        .ok out := by
      rintro _ _ rfl rfl
      exact ho1
    exact this _ _ ev_ ef_

/-- C106, critical-current noise: the same for `dec_rate("cc", (p, q))`, where the transition is sensitive to each
junction. `e` is a fresh identity, used to vary each junction alone. -/
theorem C106_critical_current (hs : NoSelfLoops c.els) (hb : buildCirc c v0 = .ok bd) (hg : FluxOrJunction c.O grad)
    (e : ElemId) (hei : ∀ k ∈ bd.inds, k.el ≠ e) (hej : ∀ k ∈ bd.juns, k.el ≠ e)
    (hH : ∀ t, fullHamiltonian bd.C bd.M m ng (valuesAt val grad t) (extFlux bd.B (fluxesAt fluxes grad t)) bd.inds
      bd.juns = .ok (H t))
    (hl : ∀ t, Levels (H t) (ev t) (ef t)) (hn : (ef (currentOf val fluxes grad)).Nodup)
    (hp : p < Fintype.card (Idx m)) (hq : q < Fintype.card (Idx m))
    (hA : ∀ key ∈ bd.juns, 0 < noise.junA key.el * val key.el)
    (hsens : ∀ key ∈ bd.juns, Sensitive (fun t => fullHamiltonian bd.C bd.M m ng (Function.update val e t)
      (extFlux bd.B fluxes) bd.inds (ownJunction bd.juns key.bId e)) p q (val key.el))
    (params : List (GradEl bd.loops.length)) (idx : ℕ) (hidx : params[idx]? = some grad) (g : ℝ) (total : Bool) :
    let circ := fun t => bd.noise c m ng (valuesAt val grad t) (fluxesAt fluxes grad t) P noise env (ef t) (ev t)
    ∃ (rate : ℝ → ℝ) (r : ℝ) (out : List ℝ),
      (∀ t, (circ t).decRate "cc" (p, q) total = .ok (.val (rate t))) ∧
      HasDerivAt rate r (currentOf val fluxes grad) ∧
      (circ (currentOf val fluxes grad)).ccBackward params (p, q) 0 g = .ok out ∧
      out.length = params.length ∧ out[idx]? = some (g * r) := by
  intro circ
  obtain ⟨h1, h2⟩ := build_valid hs hb
  obtain ⟨k1, k2, k3⟩ := build_keys hs hb
  set x := currentOf val fluxes grad with hx
  have ev_ : valuesAt val grad x = val := valuesAt_current bd val fluxes grad
  have ef_ : fluxesAt fluxes grad x = fluxes := fluxesAt_current bd val fluxes grad
  have hherm : ∀ t, (H t).IsHermitian := fun t => ham_herm hs hb (hH t)
  have hHx : fullHamiltonian bd.C bd.M m ng val (extFlux bd.B fluxes) bd.inds bd.juns = .ok (H x) := by
    have := hH x
    rwa [ev_, ef_] at this
  have hlen : ∀ t, (ev t).length = Fintype.card (Idx m) := fun t => (hl t).card
  have hlenf : ∀ t, (ef t).length = Fintype.card (Idx m) := fun t => (hl t).len.trans (hl t).card
  obtain ⟨r, hr, hd⟩ := sumChannels_levels (bd.noise c m ng val fluxes P noise env (ef x) (ev x)) grad hherm
    (param_deriv hs hb m ng val fluxes P hg hH) ev ef hl rfl rfl hn hp hq bd.juns
    (fun key => ⟨noise.junA key.el * val key.el,
      if grad.isJun key.el then noise.junA key.el else 0,
      partialH bd.C bd.M (buildMem bd.M.data m ng) val bd.B fluxes P bd.inds bd.juns (some key.bId) (.jun key.el),
      partialSquaredHEJ (buildMem bd.M.data m ng) bd.B fluxes key grad⟩)
    (fun key t => noise.junA key.el * valuesAt val grad t key.el)
    (fun key t => partialH bd.C bd.M (buildMem bd.M.data m ng) (valuesAt val grad t) bd.B (fluxesAt fluxes grad t) P
      bd.inds bd.juns (some key.bId) (.jun key.el))
    (fun key hk => by
      refine ⟨by rw [ev_], ?_, by rw [ev_]; exact hA key hk⟩
      have : HasDerivAt (fun t => valuesAt val grad t key.el) (if grad.isJun key.el then 1 else 0) x := by
        cases grad with
        | loop l' => exact hasDerivAt_const _ _
        | jun i =>
          by_cases hi : i = key.el
          · subst hi
            simp only [valuesAt, GradEl.isJun, decide_true, if_true, Function.update_self]
            exact hasDerivAt_id x
          · simpa [valuesAt, GradEl.isJun, hi, Function.update_of_ne (Ne.symm hi)] using hasDerivAt_const x (val key.el)
        | ind i => exact hg.elim
        | cap i => exact hg.elim
      refine (this.const_mul (noise.junA key.el)).congr_deriv ?_
      split <;> simp)
    (fun key hk => by
      have e' : partialH bd.C bd.M (buildMem bd.M.data m ng) (valuesAt val grad x) bd.B (fluxesAt fluxes grad x) P
        bd.inds bd.juns (some key.bId) (.jun key.el) = partialH bd.C bd.M (buildMem bd.M.data m ng) val bd.B fluxes P
        bd.inds bd.juns (some key.bId) (.jun key.el) := by rw [ev_, ef_]
      have e2 := partialH_branch bd.C bd.M (buildMem bd.M.data m ng) val bd.B fluxes P bd.inds bd.juns k3 key hk
      refine ⟨e', ?_, ?_, ?_⟩
      · obtain ⟨-, -, -, -, c5, c6⟩ := C61_circuit c hs v0 bd hb m ng val fluxes P
        cases grad with
        | loop l' => exact c5 key hk l'
        | jun i => exact c6 key hk i
        | ind i => exact hg.elim
        | cap i => exact hg.elim
      · refine Eq.mpr (congrArg Matrix.IsHermitian (e'.trans e2)) ?_
        rw [neg_one_smul]
        exact Matrix.IsHermitian.neg (cosOp_herm (buildMem bd.M.data m ng) key.wId (extFlux bd.B fluxes key.bId))
      · refine Eq.mpr (congrArg (fun X => sens ((ev x).getD p 0) ((ev x).getD q 0) X ≠ 0) (e'.trans e2)) ?_
        obtain ⟨G, hG, hGd, hGx⟩ := ham_branch_deriv bd.C bd.M h1 (buildMem bd.M.data m ng)
          (lcHamil bd.M.data (buildMem bd.M.data m ng)) val (extFlux bd.B fluxes) bd.inds bd.juns h2 k3 e hei hej key hk
        replace hGx : G (val key.el) = H x := Except.ok.inj (hGx.symm.trans hHx)
        exact sens_of_sensitive (fun t => ham_herm hs hb (hG t)) hGd (by rw [hGx]; exact stored_level (hl x) hn hp)
          (by rw [hGx]; exact stored_level (hl x) hn hq) hG (hsens key hk))
  obtain ⟨out, ho1, ho2, ho3⟩ := backward_entry (f := fun a => (bd.noise c m ng val fluxes P noise env (ef x)
    (ev x)).partialCcDec a (p, q) 0) (fun a => by
      obtain ⟨s, hs', -⟩ := sumChannels_eps (bd.noise c m ng val fluxes P noise env (ef x) (ev x)) (hl x).len a
        (p := p) (q := q) ((hlen x).symm ▸ hp) ((hlen x).symm ▸ hq) (NoiseCirc.ccChannels _ a)
      exact ⟨_, hs' 0 0⟩) hr g hidx
  refine ⟨_, r, out, fun t => ?_, hd, ?_, ho2, ho3⟩
  · rw [decRate_eq]
    have gp : (ev t)[p]? = some ((ev t).getD p 0) := by
      rw [getD_of_lt ((hlen t).symm ▸ hp), List.getElem?_eq_getElem]
    have gq : (ev t)[q]? = some ((ev t).getD q 0) := by
      rw [getD_of_lt ((hlen t).symm ▸ hq), List.getElem?_eq_getElem]
    obtain ⟨w, w', hpair⟩ := pair_stored (circ t) gp gq ((hlenf t).symm ▸ hp) ((hlenf t).symm ▸ hq)
    rw [hpair]
    simp only
    unfold NoiseCirc.rateOf
    simp only [String.reduceEq, if_false, if_true]
    rw [ccRate_eq (circ t) (pyGet_of_getElem? gp) (pyGet_of_getElem? gq)]
    simp only [Except.map]
    rw [zero_add]
    rfl
  · have : ∀ v f, v = val → f = fluxes → (bd.noise c m ng v f P noise env (ef x) (ev x)).ccBackward params (p, q) 0 g =
        .ok out := by
      rintro _ _ rfl rfl
      exact ho1
    exact this _ _ ev_ ef_

/-- C106, charge noise: the same for `dec_rate("charge", (p, q))`, where the transition is sensitive to the offset of
each charge mode. -/
theorem C106_charge (hc : GoodCircuit c v0) (hb : buildCirc c v0 = .ok bd) (hg : FluxOrJunction c.O grad)
    (hH : ∀ t, fullHamiltonian bd.C bd.M m ng (valuesAt val grad t) (extFlux bd.B (fluxesAt fluxes grad t)) bd.inds
      bd.juns = .ok (H t))
    (hl : ∀ t, Levels (H t) (ev t) (ef t)) (hn : (ef (currentOf val fluxes grad)).Nodup)
    (hp : p < Fintype.card (Idx m)) (hq : q < Fintype.card (Idx m))
    (hA : ∀ i : Fin bd.M.keep.length, bd.M.omega i = 0 → 0 < noise.chargeA i)
    (hsens : ∀ i, bd.M.omega i = 0 → Sensitive (fun t => fullHamiltonian bd.C bd.M m (Function.update ng i t) val
      (extFlux bd.B fluxes) bd.inds bd.juns) p q (ng i))
    (params : List (GradEl bd.loops.length)) (idx : ℕ) (hidx : params[idx]? = some grad) (g : ℝ) (total : Bool) :
    let circ := fun t => bd.noise c m ng (valuesAt val grad t) (fluxesAt fluxes grad t) P noise env (ef t) (ev t)
    ∃ (rate : ℝ → ℝ) (r : ℝ) (out : List ℝ),
      (∀ t, (circ t).decRate "charge" (p, q) total = .ok (.val (rate t))) ∧
      HasDerivAt rate r (currentOf val fluxes grad) ∧
      (circ (currentOf val fluxes grad)).chargeBackward params (p, q) 0 g = .ok out ∧
      out.length = params.length ∧ out[idx]? = some (g * r) := by
  classical
  intro circ
  have hs := hc.noSelf
  obtain ⟨h1, h2⟩ := build_valid hs hb
  have hsym := good_cInv_symm hc hb
  set x := currentOf val fluxes grad with hx
  have ev_ : valuesAt val grad x = val := valuesAt_current bd val fluxes grad
  have ef_ : fluxesAt fluxes grad x = fluxes := fluxesAt_current bd val fluxes grad
  have hherm : ∀ t, (H t).IsHermitian := fun t => ham_herm hs hb (hH t)
  have hHx : fullHamiltonian bd.C bd.M m ng val (extFlux bd.B fluxes) bd.inds bd.juns = .ok (H x) := by
    have := hH x
    rwa [ev_, ef_] at this
  have hlen : ∀ t, (ev t).length = Fintype.card (Idx m) := fun t => (hl t).card
  have hlenf : ∀ t, (ef t).length = Fintype.card (Idx m) := fun t => (hl t).len.trans (hl t).card
  obtain ⟨r, hr, hd⟩ := sumChannels_levels (bd.noise c m ng val fluxes P noise env (ef x) (ev x)) grad hherm
    (param_deriv hs hb m ng val fluxes P hg hH) ev ef hl rfl rfl hn hp hq
    ((List.finRange bd.M.keep.length).filter (fun i => bd.M.omega i = 0))
    (fun i => ⟨noise.chargeA i * 2 * eCharge, 0, partialHng bd.M.cInv (buildMem bd.M.data m ng) i,
      partialSquaredHng bd.C (buildMem bd.M.data m ng) P i grad⟩)
    (fun i _ => noise.chargeA i * 2 * eCharge)
    (fun i _ => partialHng bd.M.cInv (buildMem bd.M.data m ng) i)
    (fun i hi => ⟨rfl, hasDerivAt_const x _,
      mul_pos (mul_pos (hA i (by simpa using (List.mem_filter.1 hi).2)) two_pos) eCharge_pos⟩)
    (fun i hi => by
      have hi0 : bd.M.omega i = 0 := by simpa using (List.mem_filter.1 hi).2
      refine ⟨rfl, ?_, partialHng_herm bd.M.data m ng bd.M.cInv i, ?_⟩
      · have h0 : partialSquaredHng bd.C (buildMem bd.M.data m ng) P i grad = 0 := by
          cases grad with
          | loop l' => rfl
          | jun i => rfl
          | ind i => exact hg.elim
          | cap i => exact hg.elim
        refine Eq.mpr (congrArg (fun X => HasDerivOp (fun _ : ℝ => partialHng bd.M.cInv (buildMem bd.M.data m ng) i) X x)
          h0) ?_
        exact hasDerivOp_const _
      · obtain ⟨G, hG, hGd⟩ := ham_ng_deriv bd.C bd.M h1 bd.M.data hsym m ng val (extFlux bd.B fluxes) bd.inds bd.juns h2 hi0
        have hGx : G (ng i) = H x := by
          have := hG (ng i)
          rw [Function.update_eq_self] at this
          exact Except.ok.inj (this.symm.trans hHx)
        have := sens_of_sensitive (fun t => ham_herm hs hb (hG t)) hGd (by rw [hGx]; exact stored_level (hl x) hn hp)
          (by rw [hGx]; exact stored_level (hl x) hn hq) hG (hsens i hi0)
        rw [← ofReal_neg, sens_smul] at this
        exact right_ne_zero_of_mul this)
  obtain ⟨out, ho1, ho2, ho3⟩ := backward_entry (f := fun a => (bd.noise c m ng val fluxes P noise env (ef x)
    (ev x)).partialChargeDec a (p, q) 0) (fun a => by
      obtain ⟨s, hs', -⟩ := sumChannels_eps (bd.noise c m ng val fluxes P noise env (ef x) (ev x)) (hl x).len a
        (p := p) (q := q) ((hlen x).symm ▸ hp) ((hlen x).symm ▸ hq) (NoiseCirc.chargeChannels _ a)
      exact ⟨_, hs' 0 0⟩) hr g hidx
  refine ⟨_, r, out, fun t => ?_, hd, ?_, ho2, ho3⟩
  · rw [decRate_eq]
    have gp : (ev t)[p]? = some ((ev t).getD p 0) := by
      rw [getD_of_lt ((hlen t).symm ▸ hp), List.getElem?_eq_getElem]
    have gq : (ev t)[q]? = some ((ev t).getD q 0) := by
      rw [getD_of_lt ((hlen t).symm ▸ hq), List.getElem?_eq_getElem]
    obtain ⟨w, w', hpair⟩ := pair_stored (circ t) gp gq ((hlenf t).symm ▸ hp) ((hlenf t).symm ▸ hq)
    rw [hpair]
    simp only
    unfold NoiseCirc.rateOf
    simp only [String.reduceEq, if_false, if_true]
    exact congrArg (fun y => Except.ok (Rate.val y))
      (chargeRate_eq (circ t) (fun i => partialHng_herm bd.M.data m ng bd.M.cInv i) _ _)
  · have : ∀ v f, v = val → f = fluxes → (bd.noise c m ng v f P noise env (ef x) (ev x)).chargeBackward params (p, q) 0 g =
        .ok out := by
      rintro _ _ rfl rfl
      exact ho1
    exact this _ _ ev_ ef_

/-- C106: `get_partial_vec` adds a small number `epsilon` (1e-12) to energy differences. Where no two levels coincide, the
three gradients tend to the ones with `epsilon = 0` as it tends to zero. -/
theorem C106_epsilon (C : NoiseCirc) (hlen : C.efreqs.length = C.evecs.length) (hn : C.efreqs.Nodup)
    (hp : p < C.evecs.length) (hq : q < C.evecs.length) (params : List (GradEl C.nl)) (g : ℝ)
    (backward : List (GradEl C.nl) → ℤ × ℤ → ℝ → ℝ → Except PyErr (List ℝ))
    (hback : backward ∈ [C.fluxBackward, C.ccBackward, C.chargeBackward]) :
    ∃ out : ℝ → ℕ → ℝ, (∀ eps, backward params (p, q) eps g = .ok ((List.range params.length).map (out eps))) ∧
      ∀ i, Tendsto (fun eps => out eps i) (𝓝 0) (𝓝 (out 0 i)) := by
  have main : ∀ chs : GradEl C.nl → List (Channel C.m), ∃ out : ℝ → ℕ → ℝ,
      (∀ eps, gradOutputs (fun a => C.sumChannels a (p, q) eps (chs a) 0) g params =
        .ok ((List.range params.length).map (out eps))) ∧
      ∀ i, Tendsto (fun eps => out eps i) (𝓝 0) (𝓝 (out 0 i)) := by
    intro chs
    choose s hs ht using fun a => sumChannels_eps C hlen a hp hq (chs a)
    refine ⟨fun eps i => ((params[i]?).map fun a => g * s a eps).getD 0, fun eps => ?_, fun i => ?_⟩
    · rw [gradOutputs_ok (r := fun a => s a eps) (fun a => by rw [hs, zero_add])]
      congr 1
      refine List.ext_getElem (by simp) fun i hi hi' => ?_
      rw [List.length_map] at hi
      simp [List.getElem?_eq_getElem hi]
    · show Tendsto (fun eps => ((params[i]?).map fun a => g * s a eps).getD 0) (𝓝 0)
        (𝓝 (((params[i]?).map fun a => g * s a 0).getD 0))
      cases params[i]? with
      | none => exact tendsto_const_nhds
      | some a => exact (ht a hn).const_mul g
  simp only [List.mem_cons, List.not_mem_nil, or_false] at hback
  rcases hback with rfl | rfl | rfl
  · exact main C.fluxChannels
  · exact main C.ccChannels
  · exact main C.chargeChannels

end build

end SQ
