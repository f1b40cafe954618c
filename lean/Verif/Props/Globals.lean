import Verif.Lemmas.Globals

/-!
# C01–C03: module-level state over arbitrary call histories
-/

namespace SQ
open SQ.Spec Real

/-- `LastWrite` determines the register when a call can write only one value, so the theorems
below pin the getters completely. -/
theorem Spec.LastWrite.unique {α β : Type*} {P : α → β → Prop} {d : β}
    (hP : ∀ c x y, P c x → P c y → x = y) {h : List α} {x y : β}
    (hx : LastWrite P d h x) (hy : LastWrite P d h y) : x = y := by
  generalize hh : h = h' at hy
  induction hx generalizing h' y with
  | none =>
    cases hy with
    | none => rfl
    | write _ => simp at hh
    | skip _ _ => simp at hh
  | write hc =>
    cases hy with
    | none => simp at hh
    | write hc' =>
      have := (List.append_inj' hh rfl).2
      simp only [List.cons.injEq, and_true] at this
      subst this
      exact hP _ _ _ hc hc'
    | skip _ hn =>
      have := (List.append_inj' hh rfl).2
      simp only [List.cons.injEq, and_true] at this
      subst this
      exact absurd hc (hn _)
  | skip _ hn ih =>
    cases hy with
    | none => simp at hh
    | write hc' =>
      have := (List.append_inj' hh rfl).2
      simp only [List.cons.injEq, and_true] at this
      subst this
      exact absurd hc' (hn _)
    | skip hy' _ => exact ih _ (List.append_inj' hh rfl).1 hy'

/-! ## C01 engine -/

theorem C01_engine_accept (s : String) (g : Globals) :
    ((setEngine s g).1 = .ok () ↔ (pyLower s = "numpy" ∨ pyLower s = "pytorch")) ∧
    (¬ (pyLower s = "numpy" ∨ pyLower s = "pytorch") → setEngine s g = (.error .valueError, g)) := by
  unfold setEngine
  rw [← engine_mem]
  by_cases h : pyLower s ∈ supportedEnginesLower <;> simp [h]

theorem C01_optim_never_fails (b : Bool) (g : Globals) : (setOptimMode b g).1 = .ok () := by
  unfold setOptimMode
  rw [(C01_engine_accept _ _).1]
  cases b
  · left; decide
  · right; decide

theorem C01_engine_history (h : List GCall) :
    LastWrite EngineWrite "numpy" h (getEngine (runCalls Globals.init h)) ∧
    (getOptimMode (runCalls Globals.init h) = true ↔
      getEngine (runCalls Globals.init h) = "pytorch") := by
  refine ⟨?_, by simp [getOptimMode]⟩
  have h0 : getEngine Globals.init = "numpy" := by decide
  rw [← h0]
  refine lastWrite_of_step getEngine EngineWrite ?_ ?_ _ h
  · rintro c g x hx
    cases hx with
    | engineNumpy hs => simp [GCall.exec, setEngine, hs, engine_mem, getEngine]; decide
    | enginePytorch hs => simp [GCall.exec, setEngine, hs, engine_mem, getEngine]; decide
    | optimOn =>
      have : pyLower "PyTorch" = "pytorch" := by decide
      simp [GCall.exec, setOptimMode, setEngine, this, engine_mem, getEngine]; decide
    | optimOff =>
      have : pyLower "NumPy" = "numpy" := by decide
      simp [GCall.exec, setOptimMode, setEngine, this, engine_mem, getEngine]; decide
  · intro c g hc
    cases c with
    | engine s =>
      have h1 : ¬ pyLower s = "numpy" := fun h => hc _ (.engineNumpy h)
      have h2 : ¬ pyLower s = "pytorch" := fun h => hc _ (.enginePytorch h)
      simp [GCall.exec, setEngine, engine_mem, h1, h2]
    | optim b => cases b; exact absurd .optimOff (hc _); exact absurd .optimOn (hc _)
    | unitFreq u =>
      simp only [GCall.exec, setUnitFreq]; split
      · split <;> rfl
      · rfl
    | unitCap u => simp only [GCall.exec, setUnitCap]; split <;> rfl
    | unitInd u => simp only [GCall.exec, setUnitInd]; split <;> rfl
    | unitJJ u => simp only [GCall.exec, setUnitJJ]; split <;> rfl
    | temp t => rfl
    | lowFreq v u => simp only [GCall.exec, setLowFreq]; split <;> rfl
    | highFreq v u => simp only [GCall.exec, setHighFreq]; split <;> rfl
    | texp v u => simp only [GCall.exec, setTExp]; split <;> rfl
    | reset => rfl

/-- after `set_engine('PyTorch'); set_engine('jax'); set_unit_freq('MHz')` the engine is
`pytorch`: the hypothesis-free theorem is met by a history with an accepted, a rejected and an
unrelated call. -/
example : getEngine (runCalls Globals.init [.engine "PyTorch", .engine "jax", .unitFreq "MHz"])
    = "pytorch" := by
  have h := (C01_engine_history [.engine "PyTorch", .engine "jax", .unitFreq "MHz"]).1
  refine Spec.LastWrite.unique ?_ h ?_
  · intro c x y hx hy
    cases hx <;> cases hy <;> simp_all
  · have h1 : LastWrite EngineWrite "numpy" ([] ++ [GCall.engine "PyTorch"]) "pytorch" :=
      .write (.enginePytorch (by decide))
    have h2 := LastWrite.skip (c := GCall.engine "jax") h1 (by
      intro y hy
      cases hy with
      | engineNumpy h => exact absurd h (by decide)
      | enginePytorch h => exact absurd h (by decide))
    exact LastWrite.skip (c := GCall.unitFreq "MHz") h2 (by intro y hy; cases hy)

/-! ## C02 unit registers -/

theorem C02_unit_freq_accept (u : String) (g : Globals) :
    ((setUnitFreq u g).1 = .ok () ↔ ∃ x, FreqUnit u x) ∧
    ((¬ ∃ x, FreqUnit u x) → setUnitFreq u g = (.error .valueError, g)) := by
  rw [← freq_has_iff]
  unfold setUnitFreq
  by_cases h : freqList.has u = true
  · obtain ⟨x, hx⟩ := (Table.has_iff _ _).1 h
    simp [h, hx]
  · simp [h]

theorem C02_unit_cap_accept (u : String) (g : Globals) :
    ((setUnitCap u g).1 = .ok () ↔ (∃ x, FreqUnit u x) ∨ ∃ x, FaradUnit u x) ∧
    (¬ ((∃ x, FreqUnit u x) ∨ ∃ x, FaradUnit u x) → setUnitCap u g = (.error .valueError, g)) := by
  rw [← freq_has_iff, ← farad_has_iff]
  unfold setUnitCap
  cases freqList.has u <;> cases faradList.has u <;> simp

theorem C02_unit_ind_accept (u : String) (g : Globals) :
    ((setUnitInd u g).1 = .ok () ↔ (∃ x, FreqUnit u x) ∨ ∃ x, HenryUnit u x) ∧
    (¬ ((∃ x, FreqUnit u x) ∨ ∃ x, HenryUnit u x) → setUnitInd u g = (.error .valueError, g)) := by
  rw [← freq_has_iff, ← henry_has_iff]
  unfold setUnitInd
  cases freqList.has u <;> cases henryList.has u <;> simp

theorem C02_unit_JJ_accept (u : String) (g : Globals) :
    ((setUnitJJ u g).1 = .ok () ↔ ∃ x, FreqUnit u x) ∧
    ((¬ ∃ x, FreqUnit u x) → setUnitJJ u g = (.error .valueError, g)) := by
  rw [← freq_has_iff]
  unfold setUnitJJ
  cases freqList.has u <;> simp

/-- Each unit getter returns what the last accepted call of its own kind wrote. -/
theorem C02_units_history (h : List GCall) :
    LastWrite FreqWrite 1000000000 h (getUnitFreq (runCalls Globals.init h)) ∧
    LastWrite CapWrite "GHz" h (getUnitCap (runCalls Globals.init h)) ∧
    LastWrite IndWrite "GHz" h (getUnitInd (runCalls Globals.init h)) ∧
    LastWrite JJWrite "GHz" h (getUnitJJ (runCalls Globals.init h)) := by
  refine ⟨?_, ?_, ?_, ?_⟩
  · have h0 : getUnitFreq Globals.init = 1000000000 := by
      simp [getUnitFreq, Globals.init]; norm_num
    rw [← h0]
    refine lastWrite_of_step getUnitFreq FreqWrite ?_ ?_ _ h
    · rintro c g x ⟨hx⟩
      have hg := (freq_get_iff _ _).2 hx
      have hh := (Table.has_iff _ _).2 ⟨_, hg⟩
      simp [GCall.exec, setUnitFreq, hg, hh, getUnitFreq]
    · intro c g hc
      cases c with
      | unitFreq u =>
        have : ¬ ∃ x, FreqUnit u x := fun ⟨x, hx⟩ => hc x ⟨hx⟩
        simp only [GCall.exec]
        rw [(C02_unit_freq_accept u g).2 this]
      | engine s => simp only [GCall.exec, setEngine]; split <;> rfl
      | optim b => simp only [GCall.exec, setOptimMode, setEngine]; split <;> rfl
      | unitCap u => simp only [GCall.exec, setUnitCap]; split <;> rfl
      | unitInd u => simp only [GCall.exec, setUnitInd]; split <;> rfl
      | unitJJ u => simp only [GCall.exec, setUnitJJ]; split <;> rfl
      | temp t => rfl
      | lowFreq v u => simp only [GCall.exec, setLowFreq]; split <;> rfl
      | highFreq v u => simp only [GCall.exec, setHighFreq]; split <;> rfl
      | texp v u => simp only [GCall.exec, setTExp]; split <;> rfl
      | reset => rfl
  · have h0 : getUnitCap Globals.init = "GHz" := rfl
    rw [← h0]
    refine lastWrite_of_step getUnitCap CapWrite ?_ ?_ _ h
    · rintro c g x hx
      cases hx with
      | freq hx =>
        have := (freq_has_iff _).2 ⟨_, hx⟩
        simp [GCall.exec, setUnitCap, this, getUnitCap]
      | farad hx =>
        have := (farad_has_iff _).2 ⟨_, hx⟩
        simp [GCall.exec, setUnitCap, this, getUnitCap]
    · intro c g hc
      cases c with
      | unitCap u =>
        have : ¬ ((∃ x, FreqUnit u x) ∨ ∃ x, FaradUnit u x) := by
          rintro (⟨x, hx⟩ | ⟨x, hx⟩)
          · exact hc _ (.freq hx)
          · exact hc _ (.farad hx)
        simp only [GCall.exec]
        rw [(C02_unit_cap_accept u g).2 this]
      | engine s => simp only [GCall.exec, setEngine]; split <;> rfl
      | optim b => simp only [GCall.exec, setOptimMode, setEngine]; split <;> rfl
      | unitFreq u =>
        simp only [GCall.exec, setUnitFreq]; split
        · split <;> rfl
        · rfl
      | unitInd u => simp only [GCall.exec, setUnitInd]; split <;> rfl
      | unitJJ u => simp only [GCall.exec, setUnitJJ]; split <;> rfl
      | temp t => rfl
      | lowFreq v u => simp only [GCall.exec, setLowFreq]; split <;> rfl
      | highFreq v u => simp only [GCall.exec, setHighFreq]; split <;> rfl
      | texp v u => simp only [GCall.exec, setTExp]; split <;> rfl
      | reset => rfl
  · have h0 : getUnitInd Globals.init = "GHz" := rfl
    rw [← h0]
    refine lastWrite_of_step getUnitInd IndWrite ?_ ?_ _ h
    · rintro c g x hx
      cases hx with
      | freq hx =>
        have := (freq_has_iff _).2 ⟨_, hx⟩
        simp [GCall.exec, setUnitInd, this, getUnitInd]
      | henry hx =>
        have := (henry_has_iff _).2 ⟨_, hx⟩
        simp [GCall.exec, setUnitInd, this, getUnitInd]
    · intro c g hc
      cases c with
      | unitInd u =>
        have : ¬ ((∃ x, FreqUnit u x) ∨ ∃ x, HenryUnit u x) := by
          rintro (⟨x, hx⟩ | ⟨x, hx⟩)
          · exact hc _ (.freq hx)
          · exact hc _ (.henry hx)
        simp only [GCall.exec]
        rw [(C02_unit_ind_accept u g).2 this]
      | engine s => simp only [GCall.exec, setEngine]; split <;> rfl
      | optim b => simp only [GCall.exec, setOptimMode, setEngine]; split <;> rfl
      | unitFreq u =>
        simp only [GCall.exec, setUnitFreq]; split
        · split <;> rfl
        · rfl
      | unitCap u => simp only [GCall.exec, setUnitCap]; split <;> rfl
      | unitJJ u => simp only [GCall.exec, setUnitJJ]; split <;> rfl
      | temp t => rfl
      | lowFreq v u => simp only [GCall.exec, setLowFreq]; split <;> rfl
      | highFreq v u => simp only [GCall.exec, setHighFreq]; split <;> rfl
      | texp v u => simp only [GCall.exec, setTExp]; split <;> rfl
      | reset => rfl
  · have h0 : getUnitJJ Globals.init = "GHz" := rfl
    rw [← h0]
    refine lastWrite_of_step getUnitJJ JJWrite ?_ ?_ _ h
    · rintro c g x ⟨hx⟩
      have := (freq_has_iff _).2 ⟨_, hx⟩
      simp [GCall.exec, setUnitJJ, this, getUnitJJ]
    · intro c g hc
      cases c with
      | unitJJ u =>
        have : ¬ ∃ x, FreqUnit u x := fun ⟨x, hx⟩ => hc _ (.freq hx)
        simp only [GCall.exec]
        rw [(C02_unit_JJ_accept u g).2 this]
      | engine s => simp only [GCall.exec, setEngine]; split <;> rfl
      | optim b => simp only [GCall.exec, setOptimMode, setEngine]; split <;> rfl
      | unitFreq u =>
        simp only [GCall.exec, setUnitFreq]; split
        · split <;> rfl
        · rfl
      | unitCap u => simp only [GCall.exec, setUnitCap]; split <;> rfl
      | unitInd u => simp only [GCall.exec, setUnitInd]; split <;> rfl
      | temp t => rfl
      | lowFreq v u => simp only [GCall.exec, setLowFreq]; split <;> rfl
      | highFreq v u => simp only [GCall.exec, setHighFreq]; split <;> rfl
      | texp v u => simp only [GCall.exec, setTExp]; split <;> rfl
      | reset => rfl

/-- a non-trivial history: `set_unit_cap('fF'); set_unit_freq('MHz'); set_unit_cap('ohm')` -/
example : getUnitCap (runCalls Globals.init [.unitCap "fF", .unitFreq "MHz", .unitCap "ohm"])
      = "fF" := by
  refine Spec.LastWrite.unique ?_ (C02_units_history _).2.1 ?_
  · intro c x y hx hy; cases hx <;> cases hy <;> rfl
  · have h1 : LastWrite CapWrite "GHz" ([] ++ [GCall.unitCap "fF"]) "fF" := .write (.farad .fF)
    have h2 := LastWrite.skip (c := GCall.unitFreq "MHz") h1 (by intro y hy; cases hy)
    exact LastWrite.skip (c := GCall.unitCap "ohm") h2 (by
      intro y hy
      cases hy with
      | freq h => simpa [freqList, Table.has_cons, Table.has_nil] using (freq_has_iff _).2 ⟨_, h⟩
      | farad h => simpa [faradList, Table.has_cons, Table.has_nil] using (farad_has_iff _).2 ⟨_, h⟩)

/-! ## C03 noise environment -/

/-- The four environment entries each return what the last accepted call (its own setter, or
`reset_to_default`) wrote; an unknown unit raises `KeyError` and changes nothing at all. -/
theorem C03_env_history (h : List GCall) :
    LastWrite TempWrite (15 / 1000) h (runCalls Globals.init h).envT ∧
    LastWrite LowWrite (2 * π) h (runCalls Globals.init h).omegaLow ∧
    LastWrite HighWrite (2 * π * 3000000000) h (runCalls Globals.init h).omegaHigh ∧
    LastWrite TExpWrite (1 / 100000) h (runCalls Globals.init h).tExp := by
  have hHz : freqList.get "Hz" = .ok 1 := (freq_get_iff _ _).2 .Hz
  have hGHz : freqList.get "GHz" = .ok 1000000000 := (freq_get_iff _ _).2 .GHz
  have hus : timeList.get "us" = .ok (1 / 1000000) := (time_get_iff _ _).2 .us
  refine ⟨?_, ?_, ?_, ?_⟩
  · have h0 : Globals.init.envT = 15 / 1000 := by simp [Globals.init]; norm_num
    rw [← h0]
    refine lastWrite_of_step Globals.envT TempWrite ?_ ?_ _ h
    · rintro c g x hx
      cases hx with
      | temp t => rfl
      | reset => simp [GCall.exec, resetToDefault, setTemp, setLowFreq, setHighFreq, setTExp, hHz, hGHz, hus]; norm_num
    · intro c g hc
      cases c with
      | engine s => simp only [GCall.exec, setEngine]; split <;> rfl
      | optim b => simp only [GCall.exec, setOptimMode, setEngine]; split <;> rfl
      | unitFreq u =>
        simp only [GCall.exec, setUnitFreq]; split
        · split <;> rfl
        · rfl
      | unitCap u => simp only [GCall.exec, setUnitCap]; split <;> rfl
      | unitInd u => simp only [GCall.exec, setUnitInd]; split <;> rfl
      | unitJJ u => simp only [GCall.exec, setUnitJJ]; split <;> rfl
      | temp t => exact absurd (.temp t) (hc t)
      | lowFreq v u => simp only [GCall.exec, setLowFreq]; split <;> rfl
      | highFreq v u => simp only [GCall.exec, setHighFreq]; split <;> rfl
      | texp v u => simp only [GCall.exec, setTExp]; split <;> rfl
      | reset => exact absurd .reset (hc _)
  · have h0 : Globals.init.omegaLow = 2 * π := by simp [Globals.init]
    rw [← h0]
    refine lastWrite_of_step Globals.omegaLow LowWrite ?_ ?_ _ h
    · rintro c g x hx
      cases hx with
      | low hu => simp [GCall.exec, setLowFreq, (freq_get_iff _ _).2 hu]
      | reset => simp [GCall.exec, resetToDefault, setTemp, setLowFreq, setHighFreq, setTExp, hHz, hGHz, hus]
    · intro c g hc
      cases c with
      | engine s => simp only [GCall.exec, setEngine]; split <;> rfl
      | optim b => simp only [GCall.exec, setOptimMode, setEngine]; split <;> rfl
      | unitFreq u =>
        simp only [GCall.exec, setUnitFreq]; split
        · split <;> rfl
        · rfl
      | unitCap u => simp only [GCall.exec, setUnitCap]; split <;> rfl
      | unitInd u => simp only [GCall.exec, setUnitInd]; split <;> rfl
      | unitJJ u => simp only [GCall.exec, setUnitJJ]; split <;> rfl
      | temp t => rfl
      | lowFreq v u =>
        simp only [GCall.exec, setLowFreq]
        split
        · rename_i f hf
          exact absurd (.low ((freq_get_iff _ _).1 hf)) (hc _)
        · rfl
      | highFreq v u => simp only [GCall.exec, setHighFreq]; split <;> rfl
      | texp v u => simp only [GCall.exec, setTExp]; split <;> rfl
      | reset => exact absurd .reset (hc _)
  · have h0 : Globals.init.omegaHigh = 2 * π * 3000000000 := by simp [Globals.init]; ring
    rw [← h0]
    refine lastWrite_of_step Globals.omegaHigh HighWrite ?_ ?_ _ h
    · rintro c g x hx
      cases hx with
      | high hu => simp [GCall.exec, setHighFreq, (freq_get_iff _ _).2 hu]
      | reset =>
        simp [GCall.exec, resetToDefault, setTemp, setLowFreq, setHighFreq, setTExp, hHz, hGHz, hus]
        ring
    · intro c g hc
      cases c with
      | engine s => simp only [GCall.exec, setEngine]; split <;> rfl
      | optim b => simp only [GCall.exec, setOptimMode, setEngine]; split <;> rfl
      | unitFreq u =>
        simp only [GCall.exec, setUnitFreq]; split
        · split <;> rfl
        · rfl
      | unitCap u => simp only [GCall.exec, setUnitCap]; split <;> rfl
      | unitInd u => simp only [GCall.exec, setUnitInd]; split <;> rfl
      | unitJJ u => simp only [GCall.exec, setUnitJJ]; split <;> rfl
      | temp t => rfl
      | highFreq v u =>
        simp only [GCall.exec, setHighFreq]
        split
        · rename_i f hf
          exact absurd (.high ((freq_get_iff _ _).1 hf)) (hc _)
        · rfl
      | lowFreq v u => simp only [GCall.exec, setLowFreq]; split <;> rfl
      | texp v u => simp only [GCall.exec, setTExp]; split <;> rfl
      | reset => exact absurd .reset (hc _)
  · have h0 : Globals.init.tExp = 1 / 100000 := by simp [Globals.init]; norm_num
    rw [← h0]
    refine lastWrite_of_step Globals.tExp TExpWrite ?_ ?_ _ h
    · rintro c g x hx
      cases hx with
      | texp hu => simp [GCall.exec, setTExp, (time_get_iff _ _).2 hu]
      | reset =>
        simp [GCall.exec, resetToDefault, setTemp, setLowFreq, setHighFreq, setTExp, hHz, hGHz, hus]
        norm_num
    · intro c g hc
      cases c with
      | engine s => simp only [GCall.exec, setEngine]; split <;> rfl
      | optim b => simp only [GCall.exec, setOptimMode, setEngine]; split <;> rfl
      | unitFreq u =>
        simp only [GCall.exec, setUnitFreq]; split
        · split <;> rfl
        · rfl
      | unitCap u => simp only [GCall.exec, setUnitCap]; split <;> rfl
      | unitInd u => simp only [GCall.exec, setUnitInd]; split <;> rfl
      | unitJJ u => simp only [GCall.exec, setUnitJJ]; split <;> rfl
      | temp t => rfl
      | texp v u =>
        simp only [GCall.exec, setTExp]
        split
        · rename_i f hf
          exact absurd (.texp ((time_get_iff _ _).1 hf)) (hc _)
        · rfl
      | lowFreq v u => simp only [GCall.exec, setLowFreq]; split <;> rfl
      | highFreq v u => simp only [GCall.exec, setHighFreq]; split <;> rfl
      | reset => exact absurd .reset (hc _)

/-- An unknown unit raises `KeyError` and leaves the whole module state unchanged. -/
theorem C03_env_reject (v : ℝ) (u : String) (g : Globals) :
    ((¬ ∃ x, FreqUnit u x) → setLowFreq v u g = (.error .keyError, g) ∧
      setHighFreq v u g = (.error .keyError, g)) ∧
    ((¬ ∃ x, TimeUnit u x) → setTExp v u g = (.error .keyError, g)) := by
  rw [← freq_has_iff, ← time_has_iff]
  refine ⟨fun h => ?_, fun h => ?_⟩
  · simp [setLowFreq, setHighFreq, Table.get_error _ _ (Bool.eq_false_iff.2 h)]
  · simp [setTExp, Table.get_error _ _ (Bool.eq_false_iff.2 h)]

/-- `reset_to_default()` succeeds in every reachable state and restores the import-time
environment, leaving engine and unit registers as they are. -/
theorem C03_reset (h : List GCall) :
    let g := runCalls Globals.init h
    resetToDefault g = (.ok (), { g with
      envT := Globals.init.envT, omegaLow := Globals.init.omegaLow,
      omegaHigh := Globals.init.omegaHigh, tExp := Globals.init.tExp }) := by
  intro g
  have hHz : freqList.get "Hz" = .ok 1 := (freq_get_iff _ _).2 .Hz
  have hGHz : freqList.get "GHz" = .ok 1000000000 := (freq_get_iff _ _).2 .GHz
  have hus : timeList.get "us" = .ok (1 / 1000000) := (time_get_iff _ _).2 .us
  simp [resetToDefault, setTemp, setLowFreq, setHighFreq, setTExp, hHz, hGHz, hus, Globals.init]
  constructor <;> norm_num

/-- history with a rejected and two accepted calls before the reset -/
example : (resetToDefault (runCalls Globals.init
    [.temp 1, .lowFreq 5 "MHz", .highFreq 1 "parsec", .unitJJ "MHz"])).2.omegaLow = 2 * π := by
  rw [C03_reset]; simp [Globals.init]

end SQ
