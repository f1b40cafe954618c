import Verif.Props.DecRateGrad
import Verif.Lemmas.ThreeStates

/-!
# C106: circuits that meet the hypotheses
-/

namespace SQ
open Matrix Complex SQ.Spec Filter Topology

/-- the transition between the lowest and the highest of three charge states is sensitive to a parameter that changes
the coupling -/
theorem three_sensitive {k : ℕ} (hk : k = 1) (i : Fin k) {C : ℝ} (hC : 0 < C) {H : ℝ → Op (fun _ : Fin k => 3)}
    {ham : ℝ → Except PyErr (Op (fun _ : Fin k => 3))} (hham : ∀ t, ham t = .ok (H t)) (hherm : ∀ t, (H t).IsHermitian)
    {r : ℝ → ℝ} {r' x : ℝ} (hr : HasDerivAt r r' x) (hx : r x ≠ 0) (hr' : r' ≠ 0)
    (hH : ∀ t, H t = charging (fun _ => 3) i C 0 - ((r t : ℂ) • onMode (fun _ => 3) i (chargeRaise 3) +
      ((r t : ℂ) • onMode (fun _ => 3) i (chargeRaise 3))ᴴ)) : Sensitive ham 0 2 x := by
  choose vs ws hl using fun t => levels_exists (hherm t)
  refine ⟨fun t => (ws t).getD 0 0 - (ws t).getD 2 0, fun t => ⟨H t, hham t, vs t, ws t, hl t, rfl⟩, ?_⟩
  set e := (2 * eCharge) ^ 2 / (2 * C) / hbar with he
  have hev : ∀ᶠ t in 𝓝 x, (ws t).getD 0 0 - (ws t).getD 2 0 = -2 * √(e ^ 2 / 4 + 2 * r t ^ 2) := by
    filter_upwards [hr.continuousAt.eventually_ne hx] with t ht
    have h := hl t
    rw [hH t] at h
    have := three_levels hk i C (r t) hC (by exact_mod_cast ht) h
    rw [this, threeLevels, ← he, Complex.norm_real, Real.norm_eq_abs, sq_abs]
    simp only [List.getD_cons_zero, List.getD_cons_succ]
    ring
  have hpos : 0 < e ^ 2 / 4 + 2 * r x ^ 2 := by positivity
  have hd : HasDerivAt (fun t => -2 * √(e ^ 2 / 4 + 2 * r t ^ 2))
      (-2 * ((2 * (2 * r x * r')) / (2 * √(e ^ 2 / 4 + 2 * r x ^ 2)))) x := by
    have h1 : HasDerivAt (fun t => e ^ 2 / 4 + 2 * r t ^ 2) (2 * (2 * r x * r')) x := by
      have := ((hr.pow 2).const_mul 2).const_add (e ^ 2 / 4)
      refine this.congr_deriv ?_
      simp
    exact (h1.sqrt hpos.ne').const_mul (-2)
  have hd2 : deriv (fun t => (ws t).getD 0 0 - (ws t).getD 2 0) x =
      -2 * ((2 * (2 * r x * r')) / (2 * √(e ^ 2 / 4 + 2 * r x ^ 2))) :=
    (hd.congr_of_eventuallyEq hev).deriv
  rw [hd2]
  have := Real.sqrt_pos.2 hpos
  refine mul_ne_zero (by norm_num) (div_ne_zero ?_ (by positivity))
  exact mul_ne_zero two_ne_zero (mul_ne_zero (mul_ne_zero two_ne_zero hx) hr')

/-- A SQUID with three charge states at a quarter of a flux quantum meets the hypotheses of `C106_flux`, the parameter
being the flux. -/
theorem C106_example_flux : ∃ (c : CircSpec) (v0 : ElemId → ℝ) (bd : Build) (l : Fin bd.loops.length)
    (H : ℝ → Op (fun _ : Fin bd.M.keep.length => 3)) (ev : ℝ → List (Idx (fun _ : Fin bd.M.keep.length => 3) → ℂ))
    (ef : ℝ → List ℝ),
    NoSelfLoops c.els ∧ buildCirc c v0 = .ok bd ∧ FluxOrJunction c.O (.loop l) ∧ bd.loops.length = 1 ∧
    (∀ t, fullHamiltonian bd.C bd.M (fun _ => 3) (fun _ => 0) (valuesAt v0 (.loop l) t)
      (extFlux bd.B (fluxesAt (fun _ => Real.pi / 2) (.loop l) t)) bd.inds bd.juns = .ok (H t)) ∧
    (∀ t, Levels (H t) (ev t) (ef t)) ∧
    (ef (currentOf v0 (fun _ => Real.pi / 2) (.loop l))).Nodup ∧
    2 < Fintype.card (Idx (fun _ : Fin bd.M.keep.length => 3)) ∧
    ∀ l', Sensitive (fun t => fullHamiltonian bd.C bd.M (fun _ => 3) (fun _ => 0) v0
      (extFlux bd.B (Function.update (fun _ => Real.pi / 2) l' t)) bd.inds bd.juns) 0 2 (Real.pi / 2) := by
  choose lib hlib using exists_lib
  choose argmax hm using exists_argmax
  obtain ⟨argsort, ha⟩ := exists_argsort
  have hj : OnlyJunctions squidObjs [4, 0, 2] := by
    refine ⟨?_, 0, by simp, rfl⟩
    intro i hi
    simp at hi
    rcases hi with rfl | rfl | rfl <;> decide
  obtain ⟨b, hb, hk, hlo, -⟩ := C92_squid false .junctions squidObjs [4, 0, 2] 0 2 0 (by decide) rfl rfl rfl rfl
    (fun _ => LoopObj.init 0 0) lib hlib exSv exSv_spec argsort ha argmax hm (fun _ _ => 0) _ squid_values
  obtain ⟨b', hb', -, hH⟩ := C92_symmetric_squid false .junctions (by decide) squidObjs [4, 0, 2] 0 2 0 (by decide) rfl rfl rfl rfl
    (fun _ => LoopObj.init 0 0) lib hlib exSv exSv_spec argsort ha argmax hm (fun _ _ => 0) _ squid_values rfl
  obtain rfl : b' = b := Except.ok.inj (hb'.symm.trans hb)
  have hgood := oe_good (vals := fun _ => 1) (torch := false) (fd := .junctions) (h := fun _ => LoopObj.init 0 0)
    (sv := exSv) (argsort := argsort) (draws := fun _ _ => 0) hj hlib hm squid_values
  have hlen : b'.loops.length = 1 := by rw [hlo]; rfl
  have hC := totalCap_pos hj squid_values
  set C := totalCap (squidObjs.withVals fun _ => 1) [4, 0, 2] with hCdef
  let i : Fin b'.M.keep.length := ⟨0, by omega⟩
  let l : Fin b'.loops.length := ⟨0, by omega⟩
  have hall : ∀ l' : Fin b'.loops.length, l' = l := fun l' => Fin.ext (by have := l'.isLt; show (l' : ℕ) = 0; omega)
  let H : ℝ → Op (fun _ : Fin b'.M.keep.length => 3) := fun t => charging (fun _ => 3) i C 0 -
    (((Real.cos (t / 2) : ℝ) : ℂ) • onMode (fun _ => 3) i (chargeRaise 3) +
      (((Real.cos (t / 2) : ℝ) : ℂ) • onMode (fun _ => 3) i (chargeRaise 3))ᴴ)
  have hham : ∀ t, fullHamiltonian b'.C b'.M (fun _ => 3) (fun _ => 0) (fun _ => 1)
      (extFlux b'.B (Function.update (fun _ => Real.pi / 2) l t)) b'.inds b'.juns = .ok (H t) := by
    intro t
    have h0 := hH (fun _ => t) (fun _ => 3) (fun _ => 0) i
    have e1 : b'.fluxes (fun _ => t) = extFlux b'.B (Function.update (fun _ => Real.pi / 2) l t) := by
      unfold Build.fluxes
      congr 1
      funext l'
      rw [hall l', Function.update_self]
    rw [← e1]
    refine h0.trans ?_
    rw [chargeCos_coupling]
    have e2 : (((2 * 1 * Real.cos (t / 2) : ℝ) : ℂ) / 2 * Complex.exp (Complex.I * ((0 : ℝ) : ℂ))) =
        ((Real.cos (t / 2) : ℝ) : ℂ) := by
      simp
    rw [e2]
  have hherm : ∀ t, (H t).IsHermitian := fun t => ham_herm hgood.noSelf hb (hham t)
  have hcard : ∀ k, k = 1 → Fintype.card (Idx (fun _ : Fin k => 3)) = 3 := by rintro _ rfl; rfl
  have hcos : Real.cos (Real.pi / 2 / 2) ≠ 0 := by
    rw [show Real.pi / 2 / 2 = Real.pi / 4 by ring, Real.cos_pi_div_four]; positivity
  have hsin : Real.sin (Real.pi / 2 / 2) ≠ 0 := by
    rw [show Real.pi / 2 / 2 = Real.pi / 4 by ring, Real.sin_pi_div_four]; positivity
  choose ev ef hl using fun t => levels_exists (hherm t)
  refine ⟨_, _, b', l, H, ev, ef, hgood.noSelf, hb, trivial, hlen, hham, hl, ?_, by rw [hcard _ hk]; decide, ?_⟩
  · exact charge_nodup hk (fun _ => 3) i C 0 _ (by exact_mod_cast hcos) (hl (Real.pi / 2))
  · intro l'
    rw [hall l']
    refine three_sensitive hk i hC hham hherm (r := fun t => Real.cos (t / 2))
      (r' := -Real.sin (Real.pi / 2 / 2) * (1 / 2)) ?_ hcos (mul_ne_zero (neg_ne_zero.2 hsin) (by norm_num)) (fun t => rfl)
    exact (Real.hasDerivAt_cos _).comp _ ((hasDerivAt_id (Real.pi / 2)).div_const 2)

/-- A transmon with three charge states meets the hypotheses of `C106_critical_current`, the parameter being its
Josephson energy. -/
theorem C106_example_cc : ∃ (c : CircSpec) (v0 : ElemId → ℝ) (bd : Build) (e : ElemId)
    (H : ℝ → Op (fun _ : Fin bd.M.keep.length => 3)) (ev : ℝ → List (Idx (fun _ : Fin bd.M.keep.length => 3) → ℂ))
    (ef : ℝ → List ℝ),
    NoSelfLoops c.els ∧ buildCirc c v0 = .ok bd ∧ FluxOrJunction c.O (.jun 0 : GradEl bd.loops.length) ∧
    bd.juns.map (·.el) = [0] ∧ 0 < v0 0 ∧ (∀ k ∈ bd.inds, k.el ≠ e) ∧ (∀ k ∈ bd.juns, k.el ≠ e) ∧
    (∀ t, fullHamiltonian bd.C bd.M (fun _ => 3) (fun _ => 0) (valuesAt v0 (.jun 0 : GradEl bd.loops.length) t)
      (extFlux bd.B (fluxesAt (fun _ => 0) (.jun 0) t)) bd.inds bd.juns = .ok (H t)) ∧
    (∀ t, Levels (H t) (ev t) (ef t)) ∧
    (ef (currentOf v0 (fun _ => 0) (.jun 0 : GradEl bd.loops.length))).Nodup ∧
    2 < Fintype.card (Idx (fun _ : Fin bd.M.keep.length => 3)) ∧
    ∀ key ∈ bd.juns, Sensitive (fun t => fullHamiltonian bd.C bd.M (fun _ => 3) (fun _ => 0) (Function.update v0 e t)
      (extFlux bd.B fun _ => 0) bd.inds (ownJunction bd.juns key.bId e)) 0 2 (v0 key.el) := by
  choose lib hlib using exists_lib
  choose argmax hm using exists_argmax
  obtain ⟨argsort, ha⟩ := exists_argsort
  have hj : OnlyJunctions transmonObjs [0] := ⟨by intro i hi; simp at hi; subst hi; simp [transmonObjs], 0, by simp, rfl⟩
  let v : ℝ → ElemId → ℝ := fun x i => if i = 0 then x else 1
  have hv : ∀ x, ParallelValues transmonObjs [0] (v x) := transmon_values
  have hcaps : CapsOK transmonObjs := by
    intro i
    unfold transmonObjs
    by_cases h : i = 0 <;> simp [h]
  let c := parallelSpec false .junctions transmonObjs [0] (fun _ => LoopObj.init 0 0) lib exSv argsort argmax (fun _ _ => 0)
  obtain ⟨b, hb, hk, hlo, -⟩ := C92_transmon false .junctions transmonObjs [0] hj
    (by intro i hi; simp at hi; subst hi; rfl) (fun _ => LoopObj.init 0 0) lib hlib exSv exSv_spec argsort ha
    argmax hm (fun _ _ => 0) (v 1) (hv 1)
  have hgood := oe_good (torch := false) (fd := .junctions) (h := fun _ => LoopObj.init 0 0) (sv := exSv)
    (argsort := argsort) (draws := fun _ _ => 0) hj hlib hm (hv 1)
  obtain ⟨hin, hju⟩ := oe_juns hj hgood.noSelf hb
  have hju' : b.juns.map (·.el) = [0] := hju.trans (by decide)
  obtain ⟨hb1, hb2⟩ := build_valid hgood.noSelf hb
  have hC := totalCap_pos hj (hv 1)
  have hCt : ∀ t, totalCap (transmonObjs.withVals (v t)) [0] = totalCap (transmonObjs.withVals (v 1)) [0] := by
    intro t
    simp [totalCap, placedCap, transmonObjs, Objs.withVals, v]
  set C := totalCap (transmonObjs.withVals (v 1)) [0] with hCdef
  let i : Fin b.M.keep.length := ⟨0, by omega⟩
  let H : ℝ → Op (fun _ : Fin b.M.keep.length => 3) := fun t => charging (fun _ => 3) i C 0 -
    (((t / 2 : ℝ) : ℂ) • onMode (fun _ => 3) i (chargeRaise 3) +
      (((t / 2 : ℝ) : ℂ) • onMode (fun _ => 3) i (chargeRaise 3))ᴴ)
  have hupd : ∀ t, Function.update (v 1) 0 t = v t := by
    intro t
    funext j
    by_cases hj0 : j = 0
    · subst hj0; simp [v]
    · simp [v, hj0]
  have hham : ∀ t, fullHamiltonian b.C b.M (fun _ => 3) (fun _ => 0) (v t) (extFlux b.B fun _ => 0) b.inds b.juns =
      .ok (H t) := by
    intro t
    obtain ⟨b', hb', -, -, hH⟩ := C92_transmon false .junctions transmonObjs [0] hj
      (by intro i hi; simp at hi; subst hi; rfl) (fun _ => LoopObj.init 0 0) lib hlib exSv exSv_spec argsort ha
      argmax hm (fun _ _ => 0) (v t) (hv t)
    obtain rfl : b' = b := by
      have e := buildCirc_congr c hcaps (v := v t) (v' := v 1) (fun i hi => by
        have : i ≠ 0 := by rintro rfl; exact hi rfl
        simp [v, this])
      exact Except.ok.inj (hb'.symm.trans (e.trans hb))
    refine (hH (fun _ => 0) (fun _ => 3) (fun _ => 0) i).trans ?_
    have e1 : List.filter (fun i => decide ((transmonObjs.elem i).kind = Kind.jj)) [0] = [0] := by decide
    rw [hCt t, e1]
    have e3 : ((([0] : List ElemId).map (v t)).sum : ℂ) = ((t : ℝ) : ℂ) := by simp [v]
    rw [e3, chargeCos_coupling]
    have e2 : (((t : ℝ) : ℂ) / 2 * Complex.exp (Complex.I * ((0 : ℝ) : ℂ))) = ((t / 2 : ℝ) : ℂ) := by
      simp
    rw [e2]
  have hherm : ∀ t, (H t).IsHermitian := fun t => ham_herm hgood.noSelf hb (hham t)
  have hcard : ∀ k, k = 1 → Fintype.card (Idx (fun _ : Fin k => 3)) = 3 := by rintro _ rfl; rfl
  choose ev ef hl using fun t => levels_exists (hherm t)
  have hju0 : ∀ k ∈ b.juns, k.el = 0 := fun k hk => by
    have := List.mem_map_of_mem (f := (·.el)) hk
    rw [hju'] at this
    simpa using this
  refine ⟨c, v 1, b, 5, H, ev, ef, hgood.noSelf, hb, rfl, hju', by simp [v], ?_, ?_, ?_, hl, ?_,
    by rw [hcard _ hk]; decide, ?_⟩
  · rw [hin]; simp
  · intro k hk'; rw [hju0 k hk']; decide
  · intro t
    show fullHamiltonian b.C b.M (fun _ => 3) (fun _ => 0) (Function.update (v 1) 0 t) (extFlux b.B fun _ => 0)
      b.inds b.juns = .ok (H t)
    rw [hupd t]; exact hham t
  · refine charge_nodup hk (fun _ => 3) i C 0 (((1 / 2 : ℝ) : ℂ)) (by norm_num) (vs := ev 1) ?_
    exact hl (v 1 0)
  · intro key hkey
    rw [hju0 key hkey]
    have hown : ∀ t, fullHamiltonian b.C b.M (fun _ => 3) (fun _ => 0) (Function.update (v 1) 5 t)
        (extFlux b.B fun _ => 0) b.inds (ownJunction b.juns key.bId 5) = .ok (H t) := by
      intro t
      rw [← hham t]
      have e1 := hamiltonianOf_eq b.C b.M hb1 (buildMem b.M.data (fun _ => 3) (fun _ => 0))
        (lcHamil b.M.data (buildMem b.M.data (fun _ => 3) (fun _ => 0))) (Function.update (v 1) 5 t)
        (extFlux b.B fun _ => 0) b.inds (ownJunction b.juns key.bId 5) hb2
      have e2 := hamiltonianOf_eq b.C b.M hb1 (buildMem b.M.data (fun _ => 3) (fun _ => 0))
        (lcHamil b.M.data (buildMem b.M.data (fun _ => 3) (fun _ => 0))) (v t)
        (extFlux b.B fun _ => 0) b.inds b.juns hb2
      refine e1.trans (Eq.trans ?_ e2.symm)
      have hone : b.juns = [key] := by
        have h1 : b.juns.length = 1 := by simpa using congrArg List.length hju'
        obtain ⟨k, hk1⟩ := List.length_eq_one_iff.1 h1
        rw [hk1] at hkey ⊢
        rw [List.mem_singleton.1 hkey]
      rw [hin, hone]
      simp [ownJunction, v, hju0 key hkey]
    refine three_sensitive hk i hC hown hherm (r := fun t => t / 2) (r' := 1 / 2)
      ((hasDerivAt_id _).div_const 2) (by simp [v]) (by norm_num) (fun t => rfl)

/-- some transition of three charge states is sensitive to the offset charge, unless the offset is zero -/
theorem three_charge_sensitive {k : ℕ} (hk : k = 1) (i : Fin k) {C : ℝ} (hC : 0 < C) {r x : ℝ} (hr : r ≠ 0) (hx : x ≠ 0)
    {H : ℝ → Op (fun _ : Fin k => 3)} {dH : Op (fun _ : Fin k => 3)}
    {ham : ℝ → Except PyErr (Op (fun _ : Fin k => 3))} (hham : ∀ t, ham t = .ok (H t)) (hherm : ∀ t, (H t).IsHermitian)
    (hd : HasDerivOp H dH x)
    (hH : ∀ t, H t = charging (fun _ => 3) i C t - ((r : ℂ) • onMode (fun _ => 3) i (chargeRaise 3) +
      ((r : ℂ) • onMode (fun _ => 3) i (chargeRaise 3))ᴴ)) : ∃ p q, p < 3 ∧ q < 3 ∧ Sensitive ham p q x := by
  choose vs ws hl using fun t => levels_exists (hherm t)
  have hcard : ∀ k, k = 1 → Fintype.card (Idx (fun _ : Fin k => 3)) = 3 := by rintro _ rfl; rfl
  have hnd : (ws x).Nodup := by
    have h := hl x
    rw [hH x] at h
    exact charge_nodup hk (fun _ => 3) i C x r (by exact_mod_cast hr) h
  have hlev : ∀ p, p < 3 → ∃ psi, IsLevel (H x) p psi := by
    intro p hp
    have hp' : p < (vs x).length := by rw [(hl x).card, hcard k hk]; exact hp
    exact ⟨_, isLevel_of_nodup (hl x) hnd (List.getElem?_eq_getElem hp')⟩
  have hder : ∀ p q, p < 3 → q < 3 → ∃ d, HasDerivAt (fun t => (ws t).getD p 0 - (ws t).getD q 0) d x := by
    intro p q hp hq
    obtain ⟨psi, h1⟩ := hlev p hp
    obtain ⟨psi', h2⟩ := hlev q hq
    obtain ⟨f, hf, hfd⟩ := sens_slope hherm hd h1 h2
    have : f = fun t => (ws t).getD p 0 - (ws t).getD q 0 := by
      funext t
      obtain ⟨v', w', hl', e⟩ := hf t
      rw [e, levels_unique hl' (hl t)]
    exact ⟨_, this ▸ hfd⟩
  have hsens : ∀ p q d, HasDerivAt (fun t => (ws t).getD p 0 - (ws t).getD q 0) d x → d ≠ 0 → Sensitive ham p q x :=
    fun p q d h1 h2 => ⟨_, fun t => ⟨H t, hham t, vs t, ws t, hl t, rfl⟩, by rw [h1.deriv]; exact h2⟩
  obtain ⟨a, ha⟩ := hder 0 1 (by decide) (by decide)
  obtain ⟨b, hb⟩ := hder 0 2 (by decide) (by decide)
  obtain ⟨c, hc⟩ := hder 1 2 (by decide) (by decide)
  by_contra hno
  have ha0 : a = 0 := by
    by_contra h; exact hno ⟨0, 1, by decide, by decide, hsens _ _ _ ha h⟩
  have hb0 : b = 0 := by
    by_contra h; exact hno ⟨0, 2, by decide, by decide, hsens _ _ _ hb h⟩
  have hc0 : c = 0 := by
    by_contra h; exact hno ⟨1, 2, by decide, by decide, hsens _ _ _ hc h⟩
  subst ha0 hb0 hc0
  have h1 := ((ha.pow 2).add (hb.pow 2)).add (hc.pow 2)
  have e1 : ∀ t, ((ws t).getD 0 0 - (ws t).getD 1 0) ^ 2 + ((ws t).getD 0 0 - (ws t).getD 2 0) ^ 2 +
      ((ws t).getD 1 0 - (ws t).getD 2 0) ^ 2 =
      ((2 * eCharge) ^ 2 / (2 * C) / hbar) ^ 2 * (24 * t ^ 2 + 2) + 12 * ‖(r : ℂ)‖ ^ 2 := by
    intro t
    have h := hl t
    rw [hH t] at h
    exact three_distances hk i C t r (by exact_mod_cast hr) h
  have h2 : HasDerivAt (fun t : ℝ => ((2 * eCharge) ^ 2 / (2 * C) / hbar) ^ 2 * (24 * t ^ 2 + 2) + 12 * ‖(r : ℂ)‖ ^ 2)
      (((2 * eCharge) ^ 2 / (2 * C) / hbar) ^ 2 * (24 * (2 * x))) x := by
    have h3 := (((((hasDerivAt_pow 2 x).const_mul 24).add_const 2).const_mul
      (((2 * eCharge) ^ 2 / (2 * C) / hbar) ^ 2)).add_const (12 * ‖(r : ℂ)‖ ^ 2))
    refine h3.congr_deriv ?_
    norm_num
  have h3 := h1.unique (h2.congr_of_eventuallyEq (Eventually.of_forall e1))
  have h4 : ((2 * eCharge) ^ 2 / (2 * C) / hbar) ^ 2 * (24 * (2 * x)) = 0 := by
    rw [← h3]; simp
  have hep : 0 < (2 * eCharge) ^ 2 / (2 * C) / hbar := by
    have := hbar_pos
    have := eCharge_pos
    positivity
  exact mul_ne_zero (pow_ne_zero 2 hep.ne') (mul_ne_zero (by norm_num) (mul_ne_zero two_ne_zero hx)) h4

/-- A transmon with three charge states and a quarter of a Cooper pair of offset charge meets the hypotheses of
`C106_charge` for some pair of states, the parameter being its Josephson energy. -/
theorem C106_example_charge : ∃ (c : CircSpec) (v0 : ElemId → ℝ) (bd : Build) (p q : ℕ)
    (H : ℝ → Op (fun _ : Fin bd.M.keep.length => 3)) (ev : ℝ → List (Idx (fun _ : Fin bd.M.keep.length => 3) → ℂ))
    (ef : ℝ → List ℝ),
    GoodCircuit c v0 ∧ buildCirc c v0 = .ok bd ∧ FluxOrJunction c.O (.jun 0 : GradEl bd.loops.length) ∧
    bd.juns.map (·.el) = [0] ∧
    (∀ t, fullHamiltonian bd.C bd.M (fun _ => 3) (fun _ => 1 / 4) (valuesAt v0 (.jun 0 : GradEl bd.loops.length) t)
      (extFlux bd.B (fluxesAt (fun _ => 0) (.jun 0) t)) bd.inds bd.juns = .ok (H t)) ∧
    (∀ t, Levels (H t) (ev t) (ef t)) ∧
    (ef (currentOf v0 (fun _ => 0) (.jun 0 : GradEl bd.loops.length))).Nodup ∧
    p < Fintype.card (Idx (fun _ : Fin bd.M.keep.length => 3)) ∧
    q < Fintype.card (Idx (fun _ : Fin bd.M.keep.length => 3)) ∧
    (∃ i, bd.M.omega i = 0) ∧
    ∀ i, bd.M.omega i = 0 → Sensitive (fun t => fullHamiltonian bd.C bd.M (fun _ => 3)
      (Function.update (fun _ => 1 / 4) i t) v0 (extFlux bd.B fun _ => 0) bd.inds bd.juns) p q (1 / 4) := by
  choose lib hlib using exists_lib
  choose argmax hm using exists_argmax
  obtain ⟨argsort, ha⟩ := exists_argsort
  have hj : OnlyJunctions transmonObjs [0] := ⟨by intro i hi; simp at hi; subst hi; simp [transmonObjs], 0, by simp, rfl⟩
  let v : ℝ → ElemId → ℝ := fun x i => if i = 0 then x else 1
  have hv : ∀ x, ParallelValues transmonObjs [0] (v x) := transmon_values
  have hcaps : CapsOK transmonObjs := by
    intro i
    unfold transmonObjs
    by_cases h : i = 0 <;> simp [h]
  let c := parallelSpec false .junctions transmonObjs [0] (fun _ => LoopObj.init 0 0) lib exSv argsort argmax (fun _ _ => 0)
  obtain ⟨b, hb, hk, hlo, -⟩ := C92_transmon false .junctions transmonObjs [0] hj
    (by intro i hi; simp at hi; subst hi; rfl) (fun _ => LoopObj.init 0 0) lib hlib exSv exSv_spec argsort ha
    argmax hm (fun _ _ => 0) (v 1) (hv 1)
  have hgood := oe_good (torch := false) (fd := .junctions) (h := fun _ => LoopObj.init 0 0) (sv := exSv)
    (argsort := argsort) (draws := fun _ _ => 0) hj hlib hm (hv 1)
  obtain ⟨hin, hju⟩ := oe_juns hj hgood.noSelf hb
  have hju' : b.juns.map (·.el) = [0] := hju.trans (by decide)
  obtain ⟨hb1, hb2⟩ := build_valid hgood.noSelf hb
  have hC := totalCap_pos hj (hv 1)
  have hCt : ∀ t, totalCap (transmonObjs.withVals (v t)) [0] = totalCap (transmonObjs.withVals (v 1)) [0] := by
    intro t
    simp [totalCap, placedCap, transmonObjs, Objs.withVals, v]
  set C := totalCap (transmonObjs.withVals (v 1)) [0] with hCdef
  let i : Fin b.M.keep.length := ⟨0, by omega⟩
  have hall : ∀ j : Fin b.M.keep.length, j = i := fun j => Fin.ext (by have := j.isLt; show (j : ℕ) = 0; omega)
  let H : ℝ → ℝ → Op (fun _ : Fin b.M.keep.length => 3) := fun s t => charging (fun _ => 3) i C s -
    (((t / 2 : ℝ) : ℂ) • onMode (fun _ => 3) i (chargeRaise 3) +
      (((t / 2 : ℝ) : ℂ) • onMode (fun _ => 3) i (chargeRaise 3))ᴴ)
  have hupd : ∀ t, Function.update (v 1) 0 t = v t := by
    intro t
    funext j
    by_cases hj0 : j = 0
    · subst hj0; simp [v]
    · simp [v, hj0]
  have hham : ∀ s t, fullHamiltonian b.C b.M (fun _ => 3) (fun _ => s) (v t) (extFlux b.B fun _ => 0) b.inds b.juns =
      .ok (H s t) := by
    intro s t
    obtain ⟨b', hb', -, -, hH⟩ := C92_transmon false .junctions transmonObjs [0] hj
      (by intro i hi; simp at hi; subst hi; rfl) (fun _ => LoopObj.init 0 0) lib hlib exSv exSv_spec argsort ha
      argmax hm (fun _ _ => 0) (v t) (hv t)
    obtain rfl : b' = b := by
      have e := buildCirc_congr c hcaps (v := v t) (v' := v 1) (fun i hi => by
        have : i ≠ 0 := by rintro rfl; exact hi rfl
        simp [v, this])
      exact Except.ok.inj (hb'.symm.trans (e.trans hb))
    refine (hH (fun _ => 0) (fun _ => 3) (fun _ => s) i).trans ?_
    have e1 : List.filter (fun i => decide ((transmonObjs.elem i).kind = Kind.jj)) [0] = [0] := by decide
    rw [hCt t, e1]
    have e3 : ((([0] : List ElemId).map (v t)).sum : ℂ) = ((t : ℝ) : ℂ) := by simp [v]
    rw [e3, chargeCos_coupling]
    have e2 : (((t : ℝ) : ℂ) / 2 * Complex.exp (Complex.I * ((0 : ℝ) : ℂ))) = ((t / 2 : ℝ) : ℂ) := by
      simp
    rw [e2]
  have hherm : ∀ s t, (H s t).IsHermitian := fun s t => ham_herm hgood.noSelf hb (hham s t)
  have hcard : ∀ k, k = 1 → Fintype.card (Idx (fun _ : Fin k => 3)) = 3 := by rintro _ rfl; rfl
  have hom : b.M.omega i = 0 := (oe_facts hj hlib exSv_spec ha hm (hv 1) hb).2.2.2.1 i
  have hus : ∀ s : ℝ, Function.update (fun _ : Fin b.M.keep.length => (1 / 4 : ℝ)) i s = fun _ => s := by
    intro s
    funext j
    rw [hall j, Function.update_self]
  obtain ⟨Hn, hHn, hdn⟩ := ham_ng_deriv b.C b.M hb1 b.M.data (good_cInv_symm hgood hb) (fun _ => 3) (fun _ => 1 / 4) (v 1)
    (extFlux b.B fun _ => 0) b.inds b.juns hb2 (i := i) hom
  have hHe : Hn = fun s => H s 1 := by
    funext s
    have h1 := hHn s
    rw [hus s] at h1
    exact Except.ok.inj (h1.symm.trans (hham s 1))
  obtain ⟨p, q, hp, hq, hs⟩ := three_charge_sensitive hk i hC (r := 1 / 2) (x := 1 / 4) (by norm_num) (by norm_num)
    (fun s => hham s 1) (fun s => hherm s 1) (hHe ▸ hdn) (fun s => rfl)
  choose ev ef hl using fun t => levels_exists (hherm (1 / 4) t)
  refine ⟨c, v 1, b, p, q, H (1 / 4), ev, ef, hgood, hb, rfl, hju', ?_, hl, ?_,
    by rw [hcard _ hk]; exact hp, by rw [hcard _ hk]; exact hq, ⟨i, hom⟩, ?_⟩
  · intro t
    show fullHamiltonian b.C b.M (fun _ => 3) (fun _ => 1 / 4) (Function.update (v 1) 0 t) (extFlux b.B fun _ => 0)
      b.inds b.juns = .ok (H (1 / 4) t)
    rw [hupd t]; exact hham (1 / 4) t
  · refine charge_nodup hk (fun _ => 3) i C (1 / 4) (((1 / 2 : ℝ) : ℂ)) (by norm_num) (vs := ev 1) ?_
    exact hl (v 1 0)
  · intro j _
    rw [hall j]
    simp only [hus]
    exact hs

end SQ
