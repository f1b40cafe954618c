import Verif.Spec.Elements
import Verif.Lemmas.Globals

namespace SQ
open SQ.Spec Real

/-! ## helper facts about the unit tables -/

theorem Spec.FreqUnit.pos {u : String} {x : ℝ} (h : FreqUnit u x) : 0 < x := by cases h <;> norm_num
theorem Spec.FaradUnit.pos {u : String} {x : ℝ} (h : FaradUnit u x) : 0 < x := by cases h <;> norm_num
theorem Spec.HenryUnit.pos {u : String} {x : ℝ} (h : HenryUnit u x) : 0 < x := by cases h <;> norm_num

theorem Spec.FreqUnit.unique {u : String} {x y : ℝ} (h : FreqUnit u x) (h' : FreqUnit u y) : x = y := by
  have := ((freq_get_iff u x).2 h).symm.trans ((freq_get_iff u y).2 h'); simpa using this
theorem Spec.FaradUnit.unique {u : String} {x y : ℝ} (h : FaradUnit u x) (h' : FaradUnit u y) :
    x = y := by
  have := ((farad_get_iff u x).2 h).symm.trans ((farad_get_iff u y).2 h'); simpa using this
theorem Spec.HenryUnit.unique {u : String} {x y : ℝ} (h : HenryUnit u x) (h' : HenryUnit u y) :
    x = y := by
  have := ((henry_get_iff u x).2 h).symm.trans ((henry_get_iff u y).2 h'); simpa using this

theorem farad_not_freq {u : String} {x : ℝ} (h : FaradUnit u x) : freqList.has u = false := by
  cases h <;> simp [freqList, Table.has_cons, Table.has_nil]
theorem freq_not_farad {u : String} {x : ℝ} (h : FreqUnit u x) : faradList.has u = false := by
  cases h <;> simp [faradList, Table.has_cons, Table.has_nil]
theorem freq_not_henry {u : String} {x : ℝ} (h : FreqUnit u x) : henryList.has u = false := by
  cases h <;> simp [henryList, Table.has_cons, Table.has_nil]
theorem henry_not_freq {u : String} {x : ℝ} (h : HenryUnit u x) : freqList.has u = false := by
  cases h <;> simp [freqList, Table.has_cons, Table.has_nil]

theorem hbar_pos : 0 < hbar := by unfold hbar; norm_num
theorem eCharge_pos : 0 < eCharge := by unfold eCharge; norm_num
theorem Phi0_pos : 0 < Phi0 := by unfold Phi0; norm_num
theorem kB_pos : 0 < kB := by unfold kB; norm_num

/-- A unit string names at most one number for a given capacitance. -/
theorem Spec.CapMeans.value_unique {v v' : ℝ} {u : String} {C : ℝ} (h : CapMeans v u C)
    (h' : CapMeans v' u C) : v = v' := by
  have hh := hbar_pos
  have hp := Real.pi_pos
  cases h with
  | farad hx =>
    generalize hC : v * _ = C' at h'
    cases h' with
    | farad hx' =>
      have := hx.pos
      rw [hx'.unique hx] at hC
      exact mul_right_cancel₀ this.ne' hC
    | energy hx' _ _ =>
      have := (freq_has_iff _).2 ⟨_, hx'⟩
      rw [farad_not_freq hx] at this; cases this
  | energy hx hC he =>
    cases h' with
    | farad hx' =>
      have := (freq_has_iff _).2 ⟨_, hx⟩
      rw [farad_not_freq hx'] at this; cases this
    | energy hx' _ he' =>
      rw [hx'.unique hx] at he'
      have hx0 := hx.pos
      rw [he] at he'
      have h1 := mul_left_cancel₀ (by positivity) he'
      exact mul_right_cancel₀ hx0.ne' h1

/-- A unit string names at most one number for a given inductance. -/
theorem Spec.IndMeans.value_unique {v v' : ℝ} {u : String} {L : ℝ} (h : IndMeans v u L)
    (h' : IndMeans v' u L) : v = v' := by
  have hh := hbar_pos
  have hp := Real.pi_pos
  cases h with
  | henry hx =>
    generalize hC : v * _ = C' at h'
    cases h' with
    | henry hx' =>
      have := hx.pos
      rw [hx'.unique hx] at hC
      exact mul_right_cancel₀ this.ne' hC
    | energy hx' _ _ =>
      have := (freq_has_iff _).2 ⟨_, hx'⟩
      rw [henry_not_freq hx] at this; cases this
  | energy hx hC he =>
    cases h' with
    | henry hx' =>
      have := (freq_has_iff _).2 ⟨_, hx⟩
      rw [henry_not_freq hx'] at this; cases this
    | energy hx' _ he' =>
      rw [hx'.unique hx] at he'
      have hx0 := hx.pos
      rw [he] at he'
      have h1 := mul_left_cancel₀ (by positivity) he'
      exact mul_right_cancel₀ hx0.ne' h1

end SQ
