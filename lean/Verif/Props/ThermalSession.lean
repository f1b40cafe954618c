import Verif.Spec.ThermalSession
import Verif.Props.SolverChoice
import Verif.Props.Rates

/-!
# C142: rates between the levels `diag` returned, and the temperature
-/

namespace SQ
open Spec Matrix

/-! ### helper lemmas -/

/-- the three rates of one pair of states have a common factor -/
theorem loss_three (c : NoiseCirc) (ng : Fin c.M.keep.length → ℝ) (hmem : c.mem = buildMem c.M.data c.m ng)
    {ty : String} (hty : ty ∈ lossTypes) {i j : ℤ} (hij : i > j) {w1 w2 d u : ℝ}
    (h1 : pyGet c.efreqs i = .ok w1) (h2 : pyGet c.efreqs j = .ok w2)
    (hdef : ∃ r, c.decRate ty (i, j) false = .ok r)
    (ht : thermal (thermalAlpha |w2 - w1| c.env.T) = some (d, u)) :
    ∃ g, c.decRate ty (i, j) false = .ok (.val (d * g)) ∧ c.decRate ty (j, i) false = .ok (.val (u * g)) ∧
      c.decRate ty (i, j) true = .ok (.val ((d + u) * g)) ∧ c.decRate ty (j, i) true = .ok (.val ((d + u) * g)) := by
  obtain ⟨r, hr⟩ := hdef
  rw [C55_symmetric c ng hmem]
  rw [decRate_eq, decRate_eq, decRate_eq, pair_swap c i j]
  rw [decRate_eq] at hr
  cases hp : c.pair (i, j) with
  | error e => rw [hp] at hr; cases hr
  | ok p =>
    obtain ⟨⟨v1, v2⟩, s1, s2⟩ := p
    obtain ⟨-, hv1, hv2, -, -⟩ := pair_ok hp
    rw [h1] at hv1; rw [h2] at hv2
    cases hv1; cases hv2
    rw [hp] at hr
    simp only [rateOf_loss c hty] at hr
    simp only [Except.map, Prod.swap_prod_mk]
    rw [rateOf_loss c hty, rateOf_loss c hty, rateOf_loss c hty, abs_sub_comm w1 w2,
      lossCoefs_symm c ng hmem ty _ i j s1 s2]
    cases hg : c.lossCoefs ty (i, j) |w2 - w1| s1 s2 with
    | error e => rw [hg] at hr; cases hr
    | ok gs =>
      rcases tempS_cases (thermalAlpha |w2 - w1| c.env.T) hij with ⟨hn, -⟩ | ⟨d', u', ht2, e1, e2, e3⟩
      · rw [hn] at ht; cases ht
      · rw [ht] at ht2
        cases ht2
        refine ⟨gs.sum, ?_⟩
        simp only [Except.map]
        rw [e1, e2, e3, lossSum_some, lossSum_some, lossSum_some]
        simp only [zero_add, and_self]

theorem capCoefs_env (c : NoiseCirc) (env' : NoiseEnv) (omega : ℝ) (st : ℤ × ℤ) (l : List (Edge × ElemId)) :
    ({ c with env := env' } : NoiseCirc).capCoefs omega st l = c.capCoefs omega st l := by
  induction l with
  | nil => rfl
  | cons x l ih =>
    obtain ⟨e, k⟩ := x
    have h2 : ({ c with env := env' } : NoiseCirc).matrixElements "capacitive" e st = c.matrixElements "capacitive" e st := by
      simp only [NoiseCirc.matrixElements, NoiseCirc.coupling]
      by_cases h0 : c.evecs.length = 0
      · simp only [h0, if_true]
      · simp only [h0, if_false]
        cases pyGet c.evecs st.1 with
        | error e => rfl
        | ok s1 =>
          cases pyGet c.evecs st.2 with
          | error e => rfl
          | ok s2 =>
            simp only
            cases couplingOp "capacitive" c.C c.M c.mem.Q c.mem.phi e with
            | error e => rfl
            | ok op => rfl
    unfold NoiseCirc.capCoefs
    rw [ih, h2]

theorem cap_total (c : NoiseCirc) {st : ℤ × ℤ} {w1 w2 d u : ℝ} {r : Rate} (h1 : pyGet c.efreqs st.1 = .ok w1)
    (h2 : pyGet c.efreqs st.2 = .ok w2) (ht : thermal (thermalAlpha |w2 - w1| c.env.T) = some (d, u))
    (hr : c.decRate "capacitive" st true = .ok r) :
    ∃ gs, c.capCoefs |w2 - w1| st c.caps = .ok gs ∧ r = .val ((d + u) * gs.sum) := by
  rw [decRate_eq] at hr
  cases hp : c.pair st with
  | error e => rw [hp] at hr; cases hr
  | ok p =>
    obtain ⟨⟨v1, v2⟩, s1, s2⟩ := p
    obtain ⟨-, hv1, hv2, -, -⟩ := pair_ok (i := st.1) (j := st.2) hp
    rw [h1] at hv1; rw [h2] at hv2
    cases hv1; cases hv2
    rw [hp] at hr
    simp only [rateOf_loss c (show "capacitive" ∈ lossTypes by simp [lossTypes]), NoiseCirc.lossCoefs, if_true] at hr
    cases hg : c.capCoefs |w2 - w1| st c.caps with
    | error e => rw [hg] at hr; cases hr
    | ok gs =>
      rw [hg] at hr
      refine ⟨gs, rfl, ?_⟩
      have htt : tempS (thermalAlpha |w2 - w1| c.env.T) st true = some (d + u) := by
        unfold tempS
        rw [ht]
        rfl
      simp only [Except.map, htt, lossSum_some, zero_add] at hr
      exact (Except.ok.inj hr).symm

theorem total_factor {a b d u d' u' : ℝ} (hb : 0 < b) (hab : b ≤ a) (h : thermal a = some (d, u))
    (h' : thermal b = some (d', u')) : d + u ≤ d' + u' := by
  have key : ∀ x : ℝ, 0 < x → x ≤ 709 → ∀ d u, thermal x = some (d, u) →
      d + u = 2 * ((Real.exp x + 1) / (Real.exp x - 1)) := by
    intro x h0 h1 d u h
    obtain ⟨d1, u1, e, e1, e2, -⟩ := C54_factors x h0 h1
    rw [h] at e
    cases e
    rw [e1, e2, coth_exp h0]
    ring
  have hpos : ∀ x : ℝ, 0 < x → 0 < Real.exp x - 1 := by
    intro x hx
    have := Real.add_one_lt_exp hx.ne'
    linarith
  have ha : 0 < a := by linarith
  by_cases h709 : a > 709
  · have e : thermal a = some (2, 0) := by
      unfold thermal
      rw [if_pos h709]
    rw [h] at e
    cases e
    by_cases hb9 : b > 709
    · have e : thermal b = some (2, 0) := by
        unfold thermal
        rw [if_pos hb9]
      rw [h'] at e
      cases e
      exact le_refl _
    · rw [key b hb (by linarith) _ _ h', add_zero]
      have := hpos b hb
      have : 1 ≤ (Real.exp b + 1) / (Real.exp b - 1) := by
        rw [le_div_iff₀ this]
        linarith
      linarith
  · rw [key b hb (by linarith) _ _ h', key a ha (by linarith) _ _ h]
    have p1 := hpos b hb
    have p2 := hpos a ha
    have he : Real.exp b ≤ Real.exp a := Real.exp_le_exp.2 hab
    have : (Real.exp a + 1) / (Real.exp a - 1) ≤ (Real.exp b + 1) / (Real.exp b - 1) := by
      rw [div_le_div_iff₀ p2 p1]
      nlinarith
    linarith

variable {c : CircSpec} {eigs : EigsFn} {as : List ℂ → List ℕ}

theorem photon_pos {T unit f : ℝ} (hT : 0 < T) (hu : 0 < unit) (hf : f ≠ 0) : 0 < photonOverHeat T unit f := by
  have hpi := Real.pi_pos
  have := abs_pos.2 hf
  have hb : 0 < hbar := hbar_pos
  have hk : 0 < kB := kB_pos
  unfold photonOverHeat
  positivity

theorem thermal_some {x : ℝ} (hx : 0 < x) : ∃ d b, thermal x = some (d, b) ∧ 0 ≤ d ∧ 0 ≤ b := by
  by_cases h709 : x ≤ 709
  · obtain ⟨d, b, ht, -, -, -, h1, h2⟩ := C54_factors x hx h709
    exact ⟨d, b, ht, h1, h2⟩
  · refine ⟨2, 0, ?_, by norm_num, le_refl _⟩
    unfold thermal
    rw [if_pos (by linarith)]

theorem take_getD {ws : List ℝ} {num : ℕ} (hl : num ≤ ws.length) :
    ∀ i, i < num → (ws.take num)[i]? = some (ws.getD i 0) := by
  intro i hn
  rw [List.getElem?_take_of_lt hn, List.getElem?_eq_getElem (by omega), List.getD_eq_getElem _ _ (by omega)]

theorem photon_eq {P : Phys} {w : World P} {ws : List ℝ} {num p q : ℕ} {T unit : ℝ} (hu : 0 < unit)
    (hget : ∀ i, i < num → (ws.take num)[i]? = some (ws.getD i 0))
    (hrep : reported num w = (ws.take num).map (fun f => f / (2 * Real.pi * unit))) (hp : p < num) (hq : q < num) :
    photonOverHeat T unit (transition num p q w) = thermalAlpha |ws.getD q 0 - ws.getD p 0| T := by
  have hrp : ∀ i, i < num → (reported num w).getD i 0 = ws.getD i 0 / (2 * Real.pi * unit) := by
    intro i hn
    rw [hrep, List.getD_eq_getElem?_getD, List.getElem?_map, hget i hn]
    rfl
  unfold photonOverHeat transition thermalAlpha
  rw [hrp p hp, hrp q hq, ← sub_div, abs_div, abs_sub_comm (ws.getD p 0)]
  have hpi := Real.pi_pos
  rw [abs_of_pos (by positivity : 0 < 2 * Real.pi * unit)]
  congr 2
  field_simp

theorem capCoefs_ge (c : NoiseCirc) (hQ : ∀ i Q, c.noise.capQ i = some Q → ∀ w, 0 < Q w) (hv : ∀ i, 0 < c.val i)
    (omega : ℝ) (st : ℤ × ℤ) (l : List (Edge × ElemId)) (gs : List ℝ) (h : c.capCoefs omega st l = .ok gs) :
    ∀ g ∈ gs, 0 ≤ g := by
  induction l generalizing gs with
  | nil =>
    unfold NoiseCirc.capCoefs at h
    cases h
    simp
  | cons x l ih =>
    obtain ⟨e, k⟩ := x
    unfold NoiseCirc.capCoefs at h
    cases hq : c.noise.capQ k with
    | none => rw [hq] at h; exact ih gs h
    | some Q =>
      rw [hq] at h
      simp only at h
      cases hz : c.matrixElements "capacitive" e st with
      | error e => rw [hz] at h; cases h
      | ok z =>
        rw [hz] at h
        simp only at h
        cases hl : c.capCoefs omega st l with
        | error e => rw [hl] at h; cases h
        | ok gs1 =>
          rw [hl] at h
          cases h
          intro g hg
          rcases List.mem_cons.1 hg with rfl | hg
          · have := hQ k Q hq omega
            have := hv k
            positivity
          · exact ih gs1 hl g hg

/-- one pair of computed levels in the session -/
theorem session_three (he : EigsLowest eigs) (ha : CArgsortSpec as) (hs : NoSelfLoops c.els)
    {vals : ElemId → ℝ} {flux : LoopId → ℝ} {u : ℝ}
    {w0 : World (circPhys c eigs as)} (hw : construct (circPhys c eigs as) vals flux u = .ok w0)
    {h : List Act} (hh : Orderly w0 h) (hm : (run w0 h).circ.m ≠ []) {num : ℕ} (h1 : 1 ≤ num)
    (hnum : num + 1 < Fintype.card (Idx ((run w0 h).circ.bd.dims (run w0 h).circ.m)))
    (hu : 0 < (run w0 h).unitFreq) {p q : ℕ} (hp : p < num) (hqp : q < p) (noise : ObjNoise) (env : NoiseEnv)
    {ty : String} (hty : ty ∈ lossTypes) {d b : ℝ}
    (ht : thermal (photonOverHeat env.T (run w0 h).unitFreq (transition num p q (run w0 h))) = some (d, b)) :
    ∃ g, sessionRate noise env ty (p, q) false (diag (some num) (run w0 h)).2 = some (.ok (.val (d * g))) ∧
      sessionRate noise env ty (q, p) false (diag (some num) (run w0 h)).2 = some (.ok (.val (b * g))) ∧
      sessionRate noise env ty (p, q) true (diag (some num) (run w0 h)).2 = some (.ok (.val ((d + b) * g))) ∧
      sessionRate noise env ty (q, p) true (diag (some num) (run w0 h)).2 = some (.ok (.val ((d + b) * g))) := by
  have hdef := (C112_defined he ha hs vals flux u w0 hw h hh hm num h1 hnum noise env false).2.1 p q hp (by omega) ty (by
    simp only [lossTypes, List.mem_cons, List.not_mem_nil, or_false] at hty
    rcases hty with rfl | rfl | rfl <;> simp [sweepTypes])
  obtain ⟨H, hH, hherm, F⟩ := solver_facts he ha hs hw hh hm
  obtain ⟨vs, ws, ev, hlev, hrep, hevs, hlen, heig, hrate⟩ := F num h1 hnum
  have hwl : ws.length = Fintype.card (Idx (Build.dims (run w0 h).circ.bd (run w0 h).circ.m)) := hlev.len.trans hlev.card
  have hwn : num + 1 < ws.length := by rw [hwl]; exact hnum
  have hget := take_getD (num := num) (ws := ws) (by omega)
  have hal := photon_eq (T := env.T) hu hget hrep hp (show q < num by omega)
  rw [hal] at ht
  obtain ⟨r, hr⟩ := hdef
  rw [hrate] at hr
  obtain ⟨g, g1, g2, g3, g4⟩ := loss_three (Build.noise c (run w0 h).circ.bd _ _ _ _ _
    (noise.spec (run w0 h).circ.bd.loops (run w0 h).circ.islands) env (ws.take num) ev) _ rfl hty
    (i := (p : ℤ)) (j := (q : ℤ)) (by exact_mod_cast hqp) (pyGet_of_getElem? (hget p hp)) (pyGet_of_getElem? (hget q (by omega)))
    ⟨r, Option.some.inj hr⟩ ht
  refine ⟨g, ?_, ?_, ?_, ?_⟩
  · rw [hrate]; exact congrArg some g1
  · rw [hrate]; exact congrArg some g2
  · rw [hrate]; exact congrArg some g3
  · rw [hrate]; exact congrArg some g4

/-! ### C142 -/

/-- Detailed balance in a session: after any history of calls and `diag`, take two of the computed levels whose reported
frequencies differ, with `x = h f / (k_B T)`. The rate upward is `exp(-x)` times the rate downward (zero when `x > 709`), the
total rate is the sum and does not depend on the order of the states. -/
theorem C142_balance (he : EigsLowest eigs) (ha : CArgsortSpec as) (hs : NoSelfLoops c.els)
    (vals : ElemId → ℝ) (flux : LoopId → ℝ) (u : ℝ)
    (w0 : World (circPhys c eigs as)) (hw : construct (circPhys c eigs as) vals flux u = .ok w0)
    (h : List Act) (hh : Orderly w0 h) (hm : (run w0 h).circ.m ≠ []) (num : ℕ) (h1 : 1 ≤ num)
    (hnum : num + 1 < Fintype.card (Idx ((run w0 h).circ.bd.dims (run w0 h).circ.m)))
    (hu : 0 < (run w0 h).unitFreq) (p q : ℕ) (hp : p < num) (hqp : q < p) (hpq : transition num p q (run w0 h) ≠ 0)
    (noise : ObjNoise) (env : NoiseEnv) (hT : 0 < env.T) (ty : String) (hty : ty ∈ lossTypes) :
    let x := photonOverHeat env.T (run w0 h).unitFreq (transition num p q (run w0 h))
    let rate := fun (i j : ℕ) total => sessionRate noise env ty (i, j) total (diag (some num) (run w0 h)).2
    ∃ r, rate p q false = some (.ok (.val r)) ∧
      rate q p false = some (.ok (.val (if x ≤ 709 then Real.exp (-x) * r else 0))) ∧
      rate p q true = some (.ok (.val (r + if x ≤ 709 then Real.exp (-x) * r else 0))) ∧
      rate q p true = rate p q true := by
  intro x rate
  have hx : 0 < x := photon_pos hT hu hpq
  by_cases h709 : x ≤ 709
  · obtain ⟨d, b, ht, -, -, hdb, -, -⟩ := C54_factors x hx h709
    obtain ⟨g, g1, g2, g3, g4⟩ := session_three he ha hs hw hh hm h1 hnum hu hp hqp noise env hty ht
    refine ⟨d * g, g1, ?_, ?_, g4.trans g3.symm⟩
    · rw [if_pos h709]
      refine g2.trans ?_
      rw [hdb, mul_assoc]
    · rw [if_pos h709]
      refine g3.trans ?_
      rw [hdb]
      congr 3
      ring
  · have ht : thermal x = some (2, 0) := by
      unfold thermal
      rw [if_pos (by linarith)]
    obtain ⟨g, g1, g2, g3, g4⟩ := session_three he ha hs hw hh hm h1 hnum hu hp hqp noise env hty ht
    refine ⟨2 * g, g1, ?_, ?_, g4.trans g3.symm⟩
    · rw [if_neg h709]
      refine g2.trans ?_
      rw [zero_mul]
    · rw [if_neg h709]
      refine g3.trans ?_
      rw [add_zero, add_zero]

/-- Rates of every type between computed levels are not negative when quality factors, admittances and element values are
positive. -/
theorem C142_nonneg (he : EigsLowest eigs) (ha : CArgsortSpec as) (hs : NoSelfLoops c.els)
    (vals : ElemId → ℝ) (flux : LoopId → ℝ) (u : ℝ)
    (w0 : World (circPhys c eigs as)) (hw : construct (circPhys c eigs as) vals flux u = .ok w0)
    (h : List Act) (hh : Orderly w0 h) (hm : (run w0 h).circ.m ≠ []) (num : ℕ) (h1 : 1 ≤ num)
    (hnum : num + 1 < Fintype.card (Idx ((run w0 h).circ.bd.dims (run w0 h).circ.m)))
    (noise : ObjNoise) (env : NoiseEnv) (hT : 0 < env.T) (hpos : PositiveNoise noise env.T)
    (hv : ∀ i, 0 < (run w0 h).vals i) (p q : ℤ) (ty : String) (total : Bool) (r : ℝ)
    (hr : sessionRate noise env ty (p, q) total (diag (some num) (run w0 h)).2 = some (.ok (.val r))) : 0 ≤ r := by
  obtain ⟨H, hH, hherm, F⟩ := solver_facts he ha hs hw hh hm
  obtain ⟨vs, ws, ev, hlev, hrep, hevs, hlen, heig, hrate⟩ := F num h1 hnum
  rw [hrate] at hr
  exact C55_nonneg _ hT ⟨hpos.capQ, hpos.indQ, hpos.junY, fun x _ => hv x.2, fun k _ => hv k.el, fun k _ => hv k.el⟩ ty (p, q)
    total r (Option.some.inj hr)

/-- Heating never lowers capacitive loss: in any session, the total capacitive rate between two computed levels of different
frequency is not negative, and at least as large at a higher temperature. -/
theorem C142_temperature (he : EigsLowest eigs) (ha : CArgsortSpec as) (hs : NoSelfLoops c.els)
    (vals : ElemId → ℝ) (flux : LoopId → ℝ) (u : ℝ)
    (w0 : World (circPhys c eigs as)) (hw : construct (circPhys c eigs as) vals flux u = .ok w0)
    (h : List Act) (hh : Orderly w0 h) (hm : (run w0 h).circ.m ≠ []) (num : ℕ) (h1 : 1 ≤ num)
    (hnum : num + 1 < Fintype.card (Idx ((run w0 h).circ.bd.dims (run w0 h).circ.m)))
    (hu : 0 < (run w0 h).unitFreq) (p q : ℕ) (hp : p < num) (hq : q < num) (hpq : transition num p q (run w0 h) ≠ 0)
    (noise : ObjNoise) (env env' : NoiseEnv) (hT : 0 < env.T) (hTT : env.T ≤ env'.T)
    (hQ : ∀ i Q, noise.capQ i = some Q → ∀ w, 0 < Q w) (hv : ∀ i, 0 < (run w0 h).vals i) :
    ∃ r r', sessionRate noise env "capacitive" (p, q) true (diag (some num) (run w0 h)).2 = some (.ok (.val r)) ∧
      sessionRate noise env' "capacitive" (p, q) true (diag (some num) (run w0 h)).2 = some (.ok (.val r')) ∧
      0 ≤ r ∧ r ≤ r' := by
  have hT' : 0 < env'.T := by linarith
  have hd := fun env => (C112_defined he ha hs vals flux u w0 hw h hh hm num h1 hnum noise env true).2.1 p q hp hq "capacitive"
    (by simp [sweepTypes])
  obtain ⟨H, hH, hherm, F⟩ := solver_facts he ha hs hw hh hm
  obtain ⟨vs, ws, ev, hlev, hrep, hevs, hlen, heig, hrate⟩ := F num h1 hnum
  have hwl : ws.length = Fintype.card (Idx (Build.dims (run w0 h).circ.bd (run w0 h).circ.m)) := hlev.len.trans hlev.card
  have hwn : num + 1 < ws.length := by rw [hwl]; exact hnum
  have hget := take_getD (num := num) (ws := ws) (by omega)
  have hal := fun T => photon_eq (T := T) hu hget hrep hp hq
  obtain ⟨d, b, ht, hd0, hb0⟩ := thermal_some (photon_pos hT hu hpq)
  obtain ⟨d', b', ht', hd0', hb0'⟩ := thermal_some (photon_pos hT' hu hpq)
  have hle : photonOverHeat env'.T (run w0 h).unitFreq (transition num p q (run w0 h)) ≤
      photonOverHeat env.T (run w0 h).unitFreq (transition num p q (run w0 h)) := by
    have hpi := Real.pi_pos
    have := abs_nonneg (transition num p q (run w0 h))
    have hb : 0 < hbar := hbar_pos
    have hk : 0 < kB := kB_pos
    unfold photonOverHeat
    exact div_le_div_of_nonneg_left (by positivity) (by positivity) (mul_le_mul_of_nonneg_left hTT hk.le)
  have hf := total_factor (photon_pos hT' hu hpq) hle ht ht'
  rw [hal] at ht ht'
  obtain ⟨r, hr⟩ := hd env
  obtain ⟨r', hr'⟩ := hd env'
  rw [hrate] at hr hr'
  obtain ⟨gs, hgs, rfl⟩ := cap_total (Build.noise c (run w0 h).circ.bd _ _ _ _ _
    (noise.spec (run w0 h).circ.bd.loops (run w0 h).circ.islands) env (ws.take num) ev) (st := ((p : ℤ), (q : ℤ)))
    (pyGet_of_getElem? (hget p hp)) (pyGet_of_getElem? (hget q hq)) ht (Option.some.inj hr)
  obtain ⟨gs', hgs', rfl⟩ := cap_total (Build.noise c (run w0 h).circ.bd _ _ _ _ _
    (noise.spec (run w0 h).circ.bd.loops (run w0 h).circ.islands) env' (ws.take num) ev) (st := ((p : ℤ), (q : ℤ)))
    (pyGet_of_getElem? (hget p hp)) (pyGet_of_getElem? (hget q hq)) ht' (Option.some.inj hr')
  have hsame := (capCoefs_env (Build.noise c (run w0 h).circ.bd _ _ _ _ _
    (noise.spec (run w0 h).circ.bd.loops (run w0 h).circ.islands) env (ws.take num) ev) env' |ws.getD q 0 - ws.getD p 0|
    ((p : ℤ), (q : ℤ)) _).trans hgs
  obtain rfl : gs = gs' := Except.ok.inj (hsame.symm.trans hgs')
  have hg0 : 0 ≤ gs.sum := List.sum_nonneg (capCoefs_ge _ hQ hv _ _ _ _ hgs)
  refine ⟨_, _, by rw [hrate]; exact hr, by rw [hrate]; exact hr', mul_nonneg (by linarith) hg0, mul_le_mul_of_nonneg_right hf hg0⟩

end SQ
