import Verif.Model.Elements
import Verif.Lemmas.Elements

/-!
# C05–C10: element values, units, fabrication error, loop and charge setters
-/

namespace SQ
open SQ.Spec Real

/-! ## C05 capacitor -/

/-- Setting a non-zero value (zero fabrication error, whatever is drawn) in any documented unit
stores the capacitance that the number and unit mean. -/
theorem C05_capacitor_set (z v : ℝ) (u : String) (el : Elem) (hv : v ≠ 0)
    (hu : (∃ x, FaradUnit u x) ∨ ∃ x, FreqUnit u x) :
    ∃ C, capSetValue z v (some u) 0 el = (.ok (), ⟨C, 0⟩) ∧ CapMeans v u C ∧ C ≠ 0 := by
  have hh := hbar_pos
  have hp := Real.pi_pos
  have he := eCharge_pos
  rcases hu with ⟨x, hx⟩ | ⟨x, hx⟩
  · refine ⟨v * x, ?_, .farad hx, mul_ne_zero hv hx.pos.ne'⟩
    have h1 := (farad_get_iff _ _).2 hx
    have h2 := (farad_has_iff _).2 ⟨_, hx⟩
    simp [capSetValue, capUnitOk, capMean, h1, h2, setValueWithError]
  · have hx0 := hx.pos
    have hD : v * x * (2 * π * hbar) ≠ 0 := by positivity
    refine ⟨eCharge ^ 2 / 2 / (v * x * (2 * π * hbar)), ?_, .energy hx (by positivity) ?_,
      by positivity⟩
    · have h1 := (freq_get_iff _ _).2 hx
      have h2 := (freq_has_iff _).2 ⟨_, hx⟩
      have h3 := freq_not_farad hx
      simp only [capSetValue, capUnitOk, h2, h3, capMean, h1, pyDiv, if_neg hD, setValueWithError]
      simp
    · field_simp

/-- Reading a non-zero capacitance in any documented unit returns a number that means it. -/
theorem C05_capacitor_get (u : String) (el : Elem) (hC : el.value ≠ 0)
    (hu : (∃ x, FaradUnit u x) ∨ ∃ x, FreqUnit u x) :
    ∃ v, capGetValue u el = .ok v ∧ CapMeans v u el.value := by
  have hh := hbar_pos
  have hp := Real.pi_pos
  rcases hu with ⟨x, hx⟩ | ⟨x, hx⟩
  · have h1 := (farad_get_iff _ _).2 hx
    have h2 := (farad_has_iff _).2 ⟨_, hx⟩
    have hx0 := hx.pos.ne'
    refine ⟨el.value / x, by simp [capGetValue, h1, h2, pyDiv, hx0], ?_⟩
    have := CapMeans.farad (v := el.value / x) hx
    rwa [div_mul_cancel₀ _ hx0] at this
  · have h1 := (freq_get_iff _ _).2 hx
    have h2 := (freq_has_iff _).2 ⟨_, hx⟩
    have h3 := freq_not_farad hx
    have hx0 := hx.pos.ne'
    refine ⟨eCharge ^ 2 / 2 / el.value / (2 * π * hbar) / x, ?_, .energy hx hC ?_⟩
    · simp [capGetValue, h1, h2, h3, pyDiv, hx0, hC]
    · field_simp

/-- Round trip through every pair of units: reading back in the unit used for setting returns
the number given; reading in another unit returns the number that means the same capacitance. -/
theorem C05_capacitor_roundtrip (z v : ℝ) (u u' : String) (el : Elem) (hv : v ≠ 0)
    (hu : (∃ x, FaradUnit u x) ∨ ∃ x, FreqUnit u x)
    (hu' : (∃ x, FaradUnit u' x) ∨ ∃ x, FreqUnit u' x) :
    ∃ C v' el', capSetValue z v (some u) 0 el = (.ok (), el') ∧
      capGetValue u el' = .ok v ∧ capGetValue u' el' = .ok v' ∧
      CapMeans v u C ∧ CapMeans v' u' C := by
  obtain ⟨C, hset, hm, hC⟩ := C05_capacitor_set z v u el hv hu
  obtain ⟨w, hw, hmw⟩ := C05_capacitor_get u ⟨C, 0⟩ hC hu
  obtain ⟨v', hv', hm'⟩ := C05_capacitor_get u' ⟨C, 0⟩ hC hu'
  have := CapMeans.value_unique hm hmw
  subst this
  exact ⟨C, v', _, hset, hw, hv', hm, hm'⟩

/-- 0 F is the only zero case: it can be set and read in farad units, not as an energy. -/
theorem C05_capacitor_zero (z : ℝ) (u u' : String) (el : Elem)
    (hu : ∃ x, FaradUnit u x) (hu' : ∃ x, FreqUnit u' x) :
    capSetValue z 0 (some u) 0 el = (.ok (), ⟨0, 0⟩) ∧
    capGetValue u ⟨0, 0⟩ = .ok 0 ∧ capGetValue u' ⟨0, 0⟩ = .error .zeroDivision ∧
    (capSetValue z 0 (some u') 0 el).1 = .error .zeroDivision := by
  obtain ⟨x, hx⟩ := hu
  obtain ⟨y, hy⟩ := hu'
  have h1 := (farad_get_iff _ _).2 hx
  have h2 := (farad_has_iff _).2 ⟨_, hx⟩
  have k1 := (freq_get_iff _ _).2 hy
  have k2 := (freq_has_iff _).2 ⟨_, hy⟩
  have k3 := freq_not_farad hy
  refine ⟨?_, ?_, ?_, ?_⟩
  · simp [capSetValue, capUnitOk, capMean, h1, h2, setValueWithError]
  · simp [capGetValue, h1, h2, pyDiv, hx.pos.ne']
  · simp [capGetValue, k1, k2, k3, pyDiv]
  · simp [capSetValue, capUnitOk, capMean, k1, k2, k3, pyDiv]

/-- 3 fF read back in GHz: hypotheses met by a farad unit and a frequency unit. -/
example (z : ℝ) : ∃ C v' el', capSetValue z 3 (some "fF") 0 ⟨0, 7⟩ = (.ok (), el') ∧
      capGetValue "fF" el' = .ok 3 ∧ capGetValue "GHz" el' = .ok v' ∧
      CapMeans 3 "fF" C ∧ CapMeans v' "GHz" C :=
  C05_capacitor_roundtrip z 3 "fF" "GHz" ⟨0, 7⟩ (by norm_num) (.inl ⟨_, .fF⟩) (.inr ⟨_, .GHz⟩)

/-! ## C06 inductor -/

theorem C06_inductor_set (z v : ℝ) (u : String) (el : Elem) (hv : v ≠ 0)
    (hu : (∃ x, HenryUnit u x) ∨ ∃ x, FreqUnit u x) :
    ∃ L, indSetValue z v (some u) 0 el = (.ok (), ⟨L, 0⟩) ∧ IndMeans v u L ∧ L ≠ 0 := by
  have hh := hbar_pos
  have hp := Real.pi_pos
  have he := Phi0_pos
  rcases hu with ⟨x, hx⟩ | ⟨x, hx⟩
  · refine ⟨v * x, ?_, .henry hx, mul_ne_zero hv hx.pos.ne'⟩
    have h1 := (henry_get_iff _ _).2 hx
    have h2 := (henry_has_iff _).2 ⟨_, hx⟩
    simp [indSetValue, indUnitOk, indMean, h1, h2, setValueWithError]
  · have hx0 := hx.pos
    have hD : v * x * (2 * π * hbar) ≠ 0 := by positivity
    refine ⟨(Phi0 / 2 / π) ^ 2 / (v * x * (2 * π * hbar)), ?_, .energy hx (by positivity) ?_,
      by positivity⟩
    · have h1 := (freq_get_iff _ _).2 hx
      have h2 := (freq_has_iff _).2 ⟨_, hx⟩
      have h3 := freq_not_henry hx
      simp only [indSetValue, indUnitOk, h2, h3, indMean, h1, pyDiv, if_neg hD, setValueWithError]
      simp
    · field_simp

theorem C06_inductor_get (u : String) (el : Elem) (hL : el.value ≠ 0)
    (hu : (∃ x, HenryUnit u x) ∨ ∃ x, FreqUnit u x) :
    ∃ v, indGetValue u el = .ok v ∧ IndMeans v u el.value := by
  have hh := hbar_pos
  have hp := Real.pi_pos
  rcases hu with ⟨x, hx⟩ | ⟨x, hx⟩
  · have h1 := (henry_get_iff _ _).2 hx
    have h2 := (henry_has_iff _).2 ⟨_, hx⟩
    have hx0 := hx.pos.ne'
    refine ⟨el.value / x, by simp [indGetValue, h1, h2, pyDiv, hx0], ?_⟩
    have := IndMeans.henry (v := el.value / x) hx
    rwa [div_mul_cancel₀ _ hx0] at this
  · have h1 := (freq_get_iff _ _).2 hx
    have h2 := (freq_has_iff _).2 ⟨_, hx⟩
    have h3 := freq_not_henry hx
    have hx0 := hx.pos.ne'
    refine ⟨(Phi0 / 2 / π) ^ 2 / el.value / (2 * π * hbar) / x, ?_, .energy hx hL ?_⟩
    · simp [indGetValue, h1, h2, h3, pyDiv, hx0, hL]
    · field_simp

theorem C06_inductor_roundtrip (z v : ℝ) (u u' : String) (el : Elem) (hv : v ≠ 0)
    (hu : (∃ x, HenryUnit u x) ∨ ∃ x, FreqUnit u x)
    (hu' : (∃ x, HenryUnit u' x) ∨ ∃ x, FreqUnit u' x) :
    ∃ L v' el', indSetValue z v (some u) 0 el = (.ok (), el') ∧
      indGetValue u el' = .ok v ∧ indGetValue u' el' = .ok v' ∧
      IndMeans v u L ∧ IndMeans v' u' L := by
  obtain ⟨L, hset, hm, hL⟩ := C06_inductor_set z v u el hv hu
  obtain ⟨w, hw, hmw⟩ := C06_inductor_get u ⟨L, 0⟩ hL hu
  obtain ⟨v', hv', hm'⟩ := C06_inductor_get u' ⟨L, 0⟩ hL hu'
  have := IndMeans.value_unique hm hmw
  subst this
  exact ⟨L, v', _, hset, hw, hv', hm, hm'⟩

example (z : ℝ) : ∃ L v' el', indSetValue z 2 (some "nH") 0 ⟨0, 7⟩ = (.ok (), el') ∧
      indGetValue "nH" el' = .ok 2 ∧ indGetValue "MHz" el' = .ok v' ∧
      IndMeans 2 "nH" L ∧ IndMeans v' "MHz" L :=
  C06_inductor_roundtrip z 2 "nH" "MHz" ⟨0, 7⟩ (by norm_num) (.inl ⟨_, .nH⟩) (.inr ⟨_, .MHz⟩)

/-! ## C07 junction: the round trip is off by 2π -/

/-- What the code does instead of a round trip: the number read back is `2π` times the number
set, converted between the two frequency units. -/
theorem C07_junction_roundtrip_partial (z v : ℝ) (u u' : String) (x x' : ℝ) (el : Elem)
    (hu : FreqUnit u x) (hu' : FreqUnit u' x') :
    ∃ el', jjSetValue z v (some u) 0 el = (.ok (), el') ∧
      jjGetValue u' el' = .ok (2 * π * (v * x / x')) := by
  have h1 := (freq_get_iff _ _).2 hu
  have h2 := (freq_has_iff _).2 ⟨_, hu⟩
  have h1' := (freq_get_iff _ _).2 hu'
  have h2' := (freq_has_iff _).2 ⟨_, hu'⟩
  refine ⟨⟨v * x * 2 * π, 0⟩, ?_, ?_⟩
  · simp [jjSetValue, jjUnitOk, h1, h2, setValueWithError]
  · simp [jjGetValue, h1', h2', pyDiv, hu'.pos.ne']; ring

/-- The round trip claimed by C07 fails for every non-zero value. -/
theorem C07_junction_roundtrip_fails (z v : ℝ) (u : String) (el : Elem) (hv : v ≠ 0)
    (hu : ∃ x, FreqUnit u x) :
    ∃ el', jjSetValue z v (some u) 0 el = (.ok (), el') ∧ jjGetValue u el' ≠ .ok v := by
  obtain ⟨x, hx⟩ := hu
  obtain ⟨el', h1, h2⟩ := C07_junction_roundtrip_partial z v u u x x el hx hx
  refine ⟨el', h1, ?_⟩
  rw [h2, mul_div_cancel_right₀ _ hx.pos.ne']
  intro h
  have h' : 2 * π * v = v := by simpa using h
  have : (2 * π - 1) * v = 0 := by linarith
  rcases mul_eq_zero.1 this with h0 | h0
  · have := Real.two_le_pi; linarith
  · exact hv h0

example (z : ℝ) : ∃ el', jjSetValue z 10 (some "GHz") 0 ⟨0, 0⟩ = (.ok (), el') ∧
    jjGetValue "GHz" el' ≠ .ok 10 :=
  C07_junction_roundtrip_fails z 10 "GHz" _ (by norm_num) ⟨_, .GHz⟩

/-! ## C08 unit validation -/

/-- Undocumented unit strings: `ValueError`, element untouched, for setters and getters of all
three kinds. -/
theorem C08_units_rejected (z v err : ℝ) (u : String) (el : Elem) :
    ((¬ ((∃ x, FaradUnit u x) ∨ ∃ x, FreqUnit u x)) →
      capSetValue z v (some u) err el = (.error .valueError, el) ∧
      capGetValue u el = .error .valueError) ∧
    ((¬ ((∃ x, HenryUnit u x) ∨ ∃ x, FreqUnit u x)) →
      indSetValue z v (some u) err el = (.error .valueError, el) ∧
      indGetValue u el = .error .valueError) ∧
    ((¬ ∃ x, FreqUnit u x) →
      jjSetValue z v (some u) err el = (.error .valueError, el) ∧
      jjGetValue u el = .error .valueError) := by
  rw [← farad_has_iff, ← henry_has_iff, ← freq_has_iff]
  refine ⟨fun h => ?_, fun h => ?_, fun h => ?_⟩
  · rw [not_or] at h
    simp [capSetValue, capUnitOk, capGetValue, h.1, h.2]
  · rw [not_or] at h
    simp [indSetValue, indUnitOk, indGetValue, h.1, h.2]
  · simp [jjSetValue, jjUnitOk, jjGetValue, h]

/-- Documented unit strings are accepted: positive values with non-negative error are stored and
can be read in every documented unit of that element kind. -/
theorem C08_units_accepted (z v err : ℝ) (u : String) (el : Elem) (hv : 0 < v) (he : 0 ≤ err) :
    ((∃ x, FaradUnit u x) ∨ (∃ x, FreqUnit u x) → (capSetValue z v (some u) err el).1 = .ok ()) ∧
    ((∃ x, HenryUnit u x) ∨ (∃ x, FreqUnit u x) → (indSetValue z v (some u) err el).1 = .ok ()) ∧
    ((∃ x, FreqUnit u x) → (jjSetValue z v (some u) err el).1 = .ok ()) := by
  have hh := hbar_pos
  have hp := Real.pi_pos
  have hec := eCharge_pos
  have hP := Phi0_pos
  refine ⟨?_, ?_, ?_⟩
  · rintro (⟨x, hx⟩ | ⟨x, hx⟩)
    · have h1 := (farad_get_iff _ _).2 hx
      have h2 := (farad_has_iff _).2 ⟨_, hx⟩
      have hx0 := hx.pos
      have : ¬ v * x * err / 100 < 0 := not_lt.2 (by positivity)
      simp [capSetValue, capUnitOk, capMean, h1, h2, setValueWithError, this]
    · have h1 := (freq_get_iff _ _).2 hx
      have h2 := (freq_has_iff _).2 ⟨_, hx⟩
      have h3 := freq_not_farad hx
      have hx0 := hx.pos
      have hD : v * x * (2 * π * hbar) ≠ 0 := by positivity
      have : ¬ eCharge ^ 2 / 2 / (v * x * (2 * π * hbar)) * err / 100 < 0 :=
        not_lt.2 (by positivity)
      simp [capSetValue, capUnitOk, capMean, h1, h2, h3, pyDiv, hv.ne', hx0.ne', hh.ne', setValueWithError, this]
  · rintro (⟨x, hx⟩ | ⟨x, hx⟩)
    · have h1 := (henry_get_iff _ _).2 hx
      have h2 := (henry_has_iff _).2 ⟨_, hx⟩
      have hx0 := hx.pos
      have : ¬ v * x * err / 100 < 0 := not_lt.2 (by positivity)
      simp [indSetValue, indUnitOk, indMean, h1, h2, setValueWithError, this]
    · have h1 := (freq_get_iff _ _).2 hx
      have h2 := (freq_has_iff _).2 ⟨_, hx⟩
      have h3 := freq_not_henry hx
      have hx0 := hx.pos
      have hD : v * x * (2 * π * hbar) ≠ 0 := by positivity
      have : ¬ (Phi0 / 2 / π) ^ 2 / (v * x * (2 * π * hbar)) * err / 100 < 0 :=
        not_lt.2 (by positivity)
      simp [indSetValue, indUnitOk, indMean, h1, h2, h3, pyDiv, hv.ne', hx0.ne', hh.ne', setValueWithError, this]
  · rintro ⟨x, hx⟩
    have h1 := (freq_get_iff _ _).2 hx
    have h2 := (freq_has_iff _).2 ⟨_, hx⟩
    have hx0 := hx.pos
    have : ¬ v * x * 2 * π * err / 100 < 0 := not_lt.2 (by positivity)
    simp [jjSetValue, jjUnitOk, h1, h2, setValueWithError, this]

/-- Python's `None` is let through by the unit check and then fails with `KeyError` *after* the
stored error has been overwritten: the non-destructiveness claim is about unit strings only. -/
theorem C08_none_unit_overwrites_error (z v err : ℝ) (el : Elem) :
    capSetValue z v none err el = (.error .keyError, { el with error := err }) ∧
    indSetValue z v none err el = (.error .keyError, { el with error := err }) ∧
    jjSetValue z v none err el = (.error .keyError, { el with error := err }) := by
  simp [capSetValue, capUnitOk, capMean, indSetValue, indUnitOk, indMean, jjSetValue, jjUnitOk]

/-- "ohm" is rejected by all three kinds; "fF" by inductors -/
example (z : ℝ) (el : Elem) :
    jjSetValue z 1 (some "fF") 0 el = (.error .valueError, el) ∧
    indGetValue "fF" el = .error .valueError := by
  have h1 : ¬ ∃ x, FreqUnit "fF" x := by
    rw [← freq_has_iff]; simp [freqList, Table.has_cons, Table.has_nil]
  have h2 : ¬ ∃ x, HenryUnit "fF" x := by
    rw [← henry_has_iff]; simp [henryList, Table.has_cons, Table.has_nil]
  exact ⟨((C08_units_rejected z 1 0 "fF" el).2.2 h1).1,
    ((C08_units_rejected z 1 0 "fF" el).2.1 (by tauto)).2⟩

/-! ## C09 fabrication error -/

/-- For every element kind: with error `err` percent the stored value is the nominal value (the
one stored with zero error) times `1 + err·z/100`, and the recorded error is `err`. -/
theorem C09_fabrication_error (z z' v err : ℝ) (u : String) (el : Elem)
    (setV : ℝ → ℝ → Option String → ℝ → Elem → Call Elem Unit)
    (hk : setV = capSetValue ∨ setV = indSetValue ∨ setV = jjSetValue)
    (nominal : Elem) (h0 : setV z' v (some u) 0 el = (.ok (), nominal))
    (hpos : 0 ≤ nominal.value * err) :
    setV z v (some u) err el = (.ok (), ⟨nominal.value * (1 + err * z / 100), err⟩) ∧
    nominal.error = 0 := by
  have key : ∀ m : ℝ, 0 ≤ m * err → ¬ m * err / 100 < 0 := fun m hm => not_lt.2 (by positivity)
  rcases hk with rfl | rfl | rfl
  · unfold capSetValue at h0 ⊢
    split at h0
    · simp at h0
    · rename_i hok
      cases hm : capMean v (some u) with
      | error e => simp [hm] at h0
      | ok m =>
        simp only [hm, setValueWithError, mul_zero, zero_div, lt_irrefl, if_false, zero_mul,
          add_zero, Prod.mk.injEq, true_and] at h0
        subst h0
        simp only [if_neg hok, setValueWithError, if_neg (key m hpos)]
        simp only [Prod.mk.injEq, true_and, and_true]
        congr 1; ring
  · unfold indSetValue at h0 ⊢
    split at h0
    · simp at h0
    · rename_i hok
      cases hm : indMean v (some u) with
      | error e => simp [hm] at h0
      | ok m =>
        simp only [hm, setValueWithError, mul_zero, zero_div, lt_irrefl, if_false, zero_mul,
          add_zero, Prod.mk.injEq, true_and] at h0
        subst h0
        simp only [if_neg hok, setValueWithError, if_neg (key m hpos)]
        simp only [Prod.mk.injEq, true_and, and_true]
        congr 1; ring
  · unfold jjSetValue at h0 ⊢
    split at h0
    · simp at h0
    · rename_i hok
      cases hm : freqList.get u with
      | error e => simp [hm] at h0
      | ok m =>
        simp only [hm, setValueWithError, mul_zero, zero_div, lt_irrefl, if_false, zero_mul,
          add_zero, Prod.mk.injEq, true_and] at h0
        subst h0
        simp only [if_neg hok, hm, setValueWithError, if_neg (key _ hpos)]
        simp only [Prod.mk.injEq, true_and, and_true]
        congr 1; ring

/-- With zero error the draw does not matter. -/
theorem C09_zero_error_deterministic (z z' v : ℝ) (u : Option String) (el : Elem) :
    capSetValue z v u 0 el = capSetValue z' v u 0 el ∧
    indSetValue z v u 0 el = indSetValue z' v u 0 el ∧
    jjSetValue z v u 0 el = jjSetValue z' v u 0 el := by
  refine ⟨?_, ?_, ?_⟩
  · simp [capSetValue, setValueWithError]
  · simp [indSetValue, setValueWithError]
  · simp [jjSetValue, setValueWithError]

/-- 5 % error on 10 GHz with a draw of 2 sigma -/
example : ∃ nominal, jjSetValue 0 10 (some "GHz") 0 ⟨1, 1⟩ = (.ok (), nominal) ∧
    jjSetValue 2 10 (some "GHz") 5 ⟨1, 1⟩ = (.ok (), ⟨nominal.value * (1 + 5 * 2 / 100), 5⟩) := by
  have h1 := (freq_get_iff _ _).2 FreqUnit.GHz
  have h2 := (freq_has_iff _).2 ⟨_, FreqUnit.GHz⟩
  have hn : jjSetValue 0 10 (some "GHz") 0 ⟨1, 1⟩ =
      (.ok (), ⟨10 * 1000000000 * 2 * π, 0⟩) := by
    simp [jjSetValue, jjUnitOk, h1, h2, setValueWithError]
  have hp := Real.pi_pos
  exact ⟨_, hn, (C09_fabrication_error 2 0 10 5 "GHz" ⟨1, 1⟩ jjSetValue (by simp) _ hn
    (by simp only; positivity)).1⟩

/-! ## C10 loops and charge islands -/

/-- The part of C10 that holds: setters are last-writer registers independent of earlier state,
deterministic reads return them, and for charge islands setters agree with the constructor. -/
theorem C10_loop_charge_setters_partial (v a v0 a0 z : ℝ) (l : LoopObj) (c : ChargeObj) :
    (l.setFlux v).getValue false z = 2 * π * v ∧
    (LoopObj.init v a).getValue false z = 2 * π * v ∧
    (LoopObj.init v0 a).setFlux v = LoopObj.init v a ∧
    (l.setFlux v).A = l.A ∧ (l.setFlux v).indices = l.indices ∧ (l.setFlux v).kMat = l.kMat ∧
    (c.setOffset v).getValue false z = v ∧ (c.setOffset v).A = c.A ∧
    (c.setNoise a).A = a ∧ (c.setNoise a).chValue = c.chValue ∧
    (ChargeObj.init v a0).setNoise a = ChargeObj.init v a ∧
    (ChargeObj.init v0 a).setOffset v = ChargeObj.init v a := by
  refine ⟨?_, ?_, ?_, rfl, rfl, rfl, rfl, rfl, rfl, rfl, rfl, rfl⟩
  · simp [LoopObj.setFlux, LoopObj.getValue]; ring
  · simp [LoopObj.init, LoopObj.setFlux, LoopObj.getValue]; ring
  · simp [LoopObj.init, LoopObj.setFlux]

/-- The part of C10 that fails: `Loop.set_noise(a)` never gives the same object as constructing
the loop with that amplitude, unless the amplitude is 0 (the factor 2π is missing). -/
theorem C10_loop_set_noise_disagrees (v a a0 : ℝ) (ha : a ≠ 0) :
    (LoopObj.init v a0).setNoise a ≠ LoopObj.init v a := by
  intro h
  have h1 := congrArg LoopObj.A h
  simp only [LoopObj.setNoise, LoopObj.init] at h1
  have : a * (2 * π - 1) = 0 := by linarith
  rcases mul_eq_zero.1 this with h0 | h0
  · exact ha h0
  · have := Real.two_le_pi; linarith

example : (LoopObj.init (1/2) 1).setNoise (1 / 1000000) ≠ LoopObj.init (1/2) (1 / 1000000) :=
  C10_loop_set_noise_disagrees _ _ _ (by norm_num)

end SQ
