import Verif.Props.Params
import Verif.Props.Globals
import Verif.Props.Elements

/-!
# C144: what a newly made element means
-/

namespace SQ
open Spec Real

/-! ### helper lemmas -/

theorem cap_set_err (z v err : ℝ) (u : String) (el : Elem) (hv : 0 < v) (he : 0 ≤ err)
    (hu : (∃ x, FaradUnit u x) ∨ ∃ x, FreqUnit u x) :
    ∃ C, CapMeans v u C ∧ capSetValue z v (some u) err el = (.ok (), ⟨C + C * err / 100 * z, err⟩) := by
  have hh := hbar_pos
  have hp := Real.pi_pos
  have hec := eCharge_pos
  rcases hu with ⟨x, hx⟩ | ⟨x, hx⟩
  · have h1 := (farad_get_iff _ _).2 hx
    have h2 := (farad_has_iff _).2 ⟨_, hx⟩
    have hx0 := hx.pos
    have : ¬ v * x * err / 100 < 0 := not_lt.2 (by positivity)
    exact ⟨v * x, .farad hx, by simp [capSetValue, capUnitOk, capMean, h1, h2, setValueWithError, this]⟩
  · have h1 := (freq_get_iff _ _).2 hx
    have h2 := (freq_has_iff _).2 ⟨_, hx⟩
    have h3 := freq_not_farad hx
    have hx0 := hx.pos
    have hD : v * x * (2 * π * hbar) ≠ 0 := by positivity
    have : ¬ eCharge ^ 2 / 2 / (v * x * (2 * π * hbar)) * err / 100 < 0 := not_lt.2 (by positivity)
    refine ⟨eCharge ^ 2 / 2 / (v * x * (2 * π * hbar)), .energy hx (by positivity) (by field_simp), ?_⟩
    simp [capSetValue, capUnitOk, capMean, h1, h2, h3, pyDiv, hv.ne', hx0.ne', hh.ne', setValueWithError, this]

theorem ind_set_err (z v err : ℝ) (u : String) (el : Elem) (hv : 0 < v) (he : 0 ≤ err)
    (hu : (∃ x, HenryUnit u x) ∨ ∃ x, FreqUnit u x) :
    ∃ L, IndMeans v u L ∧ indSetValue z v (some u) err el = (.ok (), ⟨L + L * err / 100 * z, err⟩) := by
  have hh := hbar_pos
  have hp := Real.pi_pos
  have hec := Phi0_pos
  rcases hu with ⟨x, hx⟩ | ⟨x, hx⟩
  · have h1 := (henry_get_iff _ _).2 hx
    have h2 := (henry_has_iff _).2 ⟨_, hx⟩
    have hx0 := hx.pos
    have : ¬ v * x * err / 100 < 0 := not_lt.2 (by positivity)
    exact ⟨v * x, .henry hx, by simp [indSetValue, indUnitOk, indMean, h1, h2, setValueWithError, this]⟩
  · have h1 := (freq_get_iff _ _).2 hx
    have h2 := (freq_has_iff _).2 ⟨_, hx⟩
    have h3 := freq_not_henry hx
    have hx0 := hx.pos
    have hD : v * x * (2 * π * hbar) ≠ 0 := by positivity
    have : ¬ (Phi0 / 2 / π) ^ 2 / (v * x * (2 * π * hbar)) * err / 100 < 0 := not_lt.2 (by positivity)
    refine ⟨(Phi0 / 2 / π) ^ 2 / (v * x * (2 * π * hbar)), .energy hx (by positivity) (by field_simp), ?_⟩
    simp [indSetValue, indUnitOk, indMean, h1, h2, h3, pyDiv, hv.ne', hx0.ne', hh.ne', setValueWithError, this]

theorem jj_set_err (z v err x : ℝ) (u : String) (el : Elem) (hv : 0 < v) (he : 0 ≤ err) (hx : FreqUnit u x) :
    jjSetValue z v (some u) err el = (.ok (), ⟨2 * π * (v * x) + 2 * π * (v * x) * err / 100 * z, err⟩) := by
  have hp := Real.pi_pos
  have h1 := (freq_get_iff _ _).2 hx
  have h2 := (freq_has_iff _).2 ⟨_, hx⟩
  have hx0 := hx.pos
  have : ¬ v * x * 2 * π * err / 100 < 0 := not_lt.2 (by positivity)
  have e : v * x * 2 * π = 2 * π * (v * x) := by ring
  rw [e] at this
  simp [jjSetValue, jjUnitOk, h1, h2, setValueWithError, e, this]

theorem cap_last {h : List GCall} {u : String} (hl : LastWrite CapWrite "GHz" h u) :
    (∃ x, FaradUnit u x) ∨ ∃ x, FreqUnit u x := by
  induction hl with
  | none => exact Or.inr ⟨_, .GHz⟩
  | write hw =>
    cases hw with
    | freq hx => exact Or.inr ⟨_, hx⟩
    | farad hx => exact Or.inl ⟨_, hx⟩
  | skip _ _ ih => exact ih

theorem ind_last {h : List GCall} {u : String} (hl : LastWrite IndWrite "GHz" h u) :
    (∃ x, HenryUnit u x) ∨ ∃ x, FreqUnit u x := by
  induction hl with
  | none => exact Or.inr ⟨_, .GHz⟩
  | write hw =>
    cases hw with
    | freq hx => exact Or.inr ⟨_, hx⟩
    | henry hx => exact Or.inl ⟨_, hx⟩
  | skip _ _ ih => exact ih

theorem jj_last {h : List GCall} {u : String} (hl : LastWrite JJWrite "GHz" h u) : ∃ x, FreqUnit u x := by
  induction hl with
  | none => exact ⟨_, .GHz⟩
  | write hw => cases hw with | freq hx => exact ⟨_, hx⟩
  | skip _ _ ih => exact ih

/-- C144: after any history of calls of the module-level setters, an element made without a unit takes the unit last accepted
for its kind (gigahertz if none was): its value is the one that the number means in that unit, changed by the tolerance and the
random draw. -/
theorem C144_default (h : List GCall) (z v err : ℝ) (hv : 0 < v) (he : 0 ≤ err) :
    let g := runCalls Globals.init h
    (∃ u C, LastWrite CapWrite "GHz" h u ∧ CapMeans v u C ∧
      capNew g z v none err false = .ok (⟨C + C * err / 100 * z, err⟩, false)) ∧
    (∃ u L, LastWrite IndWrite "GHz" h u ∧ IndMeans v u L ∧
      indNew g z v none err false = .ok (⟨L + L * err / 100 * z, err⟩, false)) ∧
    (∃ u x, LastWrite JJWrite "GHz" h u ∧ FreqUnit u x ∧
      jjNew g z v none err false = .ok (⟨2 * π * (v * x) + 2 * π * (v * x) * err / 100 * z, err⟩, false)) := by
  obtain ⟨-, h1, h2, h3⟩ := C02_units_history h
  refine ⟨?_, ?_, ?_⟩
  · obtain ⟨C, hC, hs⟩ := cap_set_err z v err _ ⟨0, 0⟩ hv he (cap_last h1)
    refine ⟨_, C, h1, hC, ?_⟩
    simp only [capNew, capInit, elemInit, hs, componentInit]
    rfl
  · obtain ⟨L, hL, hs⟩ := ind_set_err z v err _ ⟨0, 0⟩ hv he (ind_last h2)
    refine ⟨_, L, h2, hL, ?_⟩
    simp only [indNew, indInit, elemInit, hs, componentInit]
    rfl
  · obtain ⟨x, hx⟩ := jj_last h3
    refine ⟨_, x, h3, hx, ?_⟩
    simp only [jjNew, jjInit, elemInit, jj_set_err z v err x _ ⟨0, 0⟩ hv he hx, componentInit]
    rfl

/-- An element made with a documented unit of its kind has the value that the number means in that unit, whatever the default
units are. -/
theorem C144_unit (g : Globals) (z v err : ℝ) (u : String) (hv : 0 < v) (he : 0 ≤ err) :
    ((∃ x, FaradUnit u x) ∨ (∃ x, FreqUnit u x) → ∃ C, CapMeans v u C ∧
      capNew g z v (some u) err false = .ok (⟨C + C * err / 100 * z, err⟩, false)) ∧
    ((∃ x, HenryUnit u x) ∨ (∃ x, FreqUnit u x) → ∃ L, IndMeans v u L ∧
      indNew g z v (some u) err false = .ok (⟨L + L * err / 100 * z, err⟩, false)) ∧
    (∀ x, FreqUnit u x →
      jjNew g z v (some u) err false = .ok (⟨2 * π * (v * x) + 2 * π * (v * x) * err / 100 * z, err⟩, false)) := by
  refine ⟨fun hu => ?_, fun hu => ?_, fun x hx => ?_⟩
  · obtain ⟨C, hC, hs⟩ := cap_set_err z v err u ⟨0, 0⟩ hv he hu
    refine ⟨C, hC, ?_⟩
    have hok : capUnitOk (some u) = true := by
      rw [← farad_has_iff, ← freq_has_iff] at hu
      rcases hu with h | h <;> simp [capUnitOk, h]
    simp only [capNew, capInit, elemInit, hs, componentInit, hok]
    rfl
  · obtain ⟨L, hL, hs⟩ := ind_set_err z v err u ⟨0, 0⟩ hv he hu
    refine ⟨L, hL, ?_⟩
    have hok : indUnitOk (some u) = true := by
      rw [← henry_has_iff, ← freq_has_iff] at hu
      rcases hu with h | h <;> simp [indUnitOk, h]
    simp only [indNew, indInit, elemInit, hs, componentInit, hok]
    rfl
  · have hok : jjUnitOk (some u) = true := (freq_has_iff u).2 ⟨_, hx⟩
    simp only [jjNew, jjInit, elemInit, jj_set_err z v err x u ⟨0, 0⟩ hv he hx, componentInit, hok]
    rfl

/-- A unit that is not documented for the kind of element is rejected with a `ValueError` and no element is made. -/
theorem C144_rejected (g : Globals) (z v err : ℝ) (u : String) (rg : Bool) :
    ((¬ ((∃ x, FaradUnit u x) ∨ ∃ x, FreqUnit u x)) → capNew g z v (some u) err rg = .error .valueError) ∧
    ((¬ ((∃ x, HenryUnit u x) ∨ ∃ x, FreqUnit u x)) → indNew g z v (some u) err rg = .error .valueError) ∧
    ((¬ ∃ x, FreqUnit u x) → jjNew g z v (some u) err rg = .error .valueError) := by
  rw [← farad_has_iff, ← henry_has_iff, ← freq_has_iff]
  refine ⟨fun h => ?_, fun h => ?_, fun h => ?_⟩
  · rw [not_or] at h
    simp [capNew, capInit, elemInit, capUnitOk, componentInit, h.1, h.2]
  · rw [not_or] at h
    simp [indNew, indInit, elemInit, indUnitOk, componentInit, h.1, h.2]
  · simp [jjNew, jjInit, elemInit, jjUnitOk, componentInit, h]

/-- After `set_unit_cap("fF")`, a rejected `set_unit_cap("nH")` and `set_unit_ind("nH")`: `Capacitor(2)` has 2 fF,
`Inductor(3)` has 3 nH, `Junction(5)` has the energy of 5 GHz; `Junction(5, "fF")` is rejected. -/
theorem C144_example (z : ℝ) :
    let g := runCalls Globals.init [.unitCap "fF", .unitCap "nH", .unitInd "nH"]
    capNew g z 2 none 0 false = .ok (⟨2 / 1000000000000000, 0⟩, false) ∧
    indNew g z 3 none 0 false = .ok (⟨3 / 1000000000, 0⟩, false) ∧
    jjNew g z 5 none 0 false = .ok (⟨2 * π * 5000000000, 0⟩, false) ∧
    jjNew g z 5 (some "fF") 0 false = .error .valueError := by
  intro g
  have hc : getUnitCap g = "fF" := by
    simp [g, runCalls, GCall.exec, setUnitCap, setUnitInd, Table.has, freqList, faradList, henryList, getUnitCap]
  have hi : getUnitInd g = "nH" := by
    simp [g, runCalls, GCall.exec, setUnitCap, setUnitInd, Table.has, freqList, faradList, henryList, getUnitInd]
  have hj : getUnitJJ g = "GHz" := by
    simp [g, runCalls, GCall.exec, setUnitCap, setUnitInd, Table.has, freqList, faradList, henryList, getUnitJJ, Globals.init]
  refine ⟨?_, ?_, ?_, ?_⟩
  · have e1 : ∀ x : Option String, x = none → capNew g z 2 x 0 false = capNew g z 2 (some "fF") 0 false := by
      rintro _ rfl
      have hok : capUnitOk (some "fF") = true := by simp [capUnitOk, Table.has, freqList, faradList]
      simp [capNew, capInit, elemInit, hc, hok]
    rw [e1 none rfl]
    obtain ⟨C, hC, hs⟩ := (C144_unit g z 2 0 "fF" (by norm_num) le_rfl).1 (Or.inl ⟨_, .fF⟩)
    rw [hs]
    have : C = 2 / 1000000000000000 := by
      cases hC with
      | farad hx =>
        have h := (farad_get_iff _ _).2 hx
        simp [Table.get, faradList] at h
        rw [← h]
        norm_num
      | energy hx =>
        have h := (freq_has_iff _).2 ⟨_, hx⟩
        simp [Table.has, freqList] at h
    rw [this]
    norm_num
  · have e1 : ∀ x : Option String, x = none → indNew g z 3 x 0 false = indNew g z 3 (some "nH") 0 false := by
      rintro _ rfl
      have hok : indUnitOk (some "nH") = true := by simp [indUnitOk, Table.has, freqList, henryList]
      simp [indNew, indInit, elemInit, hi, hok]
    rw [e1 none rfl]
    obtain ⟨C, hC, hs⟩ := (C144_unit g z 3 0 "nH" (by norm_num) le_rfl).2.1 (Or.inl ⟨_, .nH⟩)
    rw [hs]
    have : C = 3 / 1000000000 := by
      cases hC with
      | henry hx =>
        have h := (henry_get_iff _ _).2 hx
        simp [Table.get, henryList] at h
        rw [← h]
        norm_num
      | energy hx =>
        have h := (freq_has_iff _).2 ⟨_, hx⟩
        simp [Table.has, freqList] at h
    rw [this]
    norm_num
  · have e1 : ∀ x : Option String, x = none → jjNew g z 5 x 0 false = jjNew g z 5 (some "GHz") 0 false := by
      rintro _ rfl
      have hok : jjUnitOk (some "GHz") = true := by simp [jjUnitOk, Table.has, freqList]
      simp [jjNew, jjInit, elemInit, hj, hok]
    rw [e1 none rfl, (C144_unit g z 5 0 "GHz" (by norm_num) le_rfl).2.2 _ .GHz]
    norm_num
  · refine (C144_rejected g z 5 0 "fF" false).2.2 ?_
    intro hx
    have h := (freq_has_iff _).2 hx
    simp [Table.has, freqList] at h

end SQ
