import Verif.Model.Py
import Mathlib.Analysis.SpecialFunctions.Trigonometric.Basic

/-!
# Module-level state: settings.py, units.py, noise.py

Simplification: all floats are exact reals.
-/

namespace SQ

open Real

/-- SQcircuit/units.py:4-5 `henry_list`. -/
def henryList : Table :=
  [("H", 1), ("mH", 1e-3), ("uH", 1e-6), ("nH", 1e-9), ("pH", 1e-12), ("fH", 1e-15)]

/-- SQcircuit/units.py:8-9 `farad_list`. -/
def faradList : Table :=
  [("F", 1), ("mF", 1e-3), ("uF", 1e-6), ("nF", 1e-9), ("pF", 1e-12), ("fF", 1e-15)]

/-- SQcircuit/units.py:12-13 `freq_list`. -/
def freqList : Table :=
  [("Hz", 1), ("kHz", 1e3), ("MHz", 1e6), ("GHz", 1e9), ("THz", 1e12)]

/-- SQcircuit/units.py:15-16 `time_list`. -/
def timeList : Table :=
  [("s", 1), ("ms", 1e-3), ("us", 1e-6), ("ns", 1e-9), ("ps", 1e-12), ("fs", 1e-15)]

/-- SQcircuit/units.py:19 `hbar`. -/
noncomputable def hbar : ℝ := 1.0545718e-34
/-- SQcircuit/units.py:22 `Phi0`. -/
noncomputable def Phi0 : ℝ := 2.067833e-15
/-- SQcircuit/units.py:25 `e`. -/
noncomputable def eCharge : ℝ := 1.6021766e-19
/-- SQcircuit/units.py:27 `k_B`. -/
noncomputable def kB : ℝ := 1.38e-23

/-- All module-level variables that the library mutates:
settings.py:11 `_ENG`; units.py:30-39 `_unit_freq`, `_unit_cap`, `_unit_ind`, `_unit_JJ`;
noise.py:10-15 `ENV`. -/
@[ext]
structure Globals where
  eng : String
  unitFreq : ℝ
  unitCap : String
  unitInd : String
  unitJJ : String
  envT : ℝ
  omegaLow : ℝ
  omegaHigh : ℝ
  tExp : ℝ

/-- State right after `import SQcircuit`: settings.py:11, units.py:30-39, noise.py:10-15. -/
noncomputable def Globals.init : Globals where
  eng := "numpy"
  unitFreq := 1e9
  unitCap := "GHz"
  unitInd := "GHz"
  unitJJ := "GHz"
  envT := 0.015
  omegaLow := 2 * π
  omegaHigh := 2 * π * 3 * 1e9
  tExp := 10e-6

/-- Python `str.lower`, used at settings.py:15,31,50.
Simplification: lower-cases ASCII letters only; Python is Unicode-aware, but no non-ASCII
character lower-cases to a letter of the two engine names, so the accepted strings are the
same. -/
def pyLower (s : String) : String := String.ofList (s.toList.map Char.toLower)

/-- settings.py:14-15: `SUPPORTED_ENGINES_LOWER = [e.lower() for e in SUPPORTED_ENGINES]`. -/
def supportedEnginesLower : List String := ["NumPy", "PyTorch"].map pyLower

/-- settings.py:17-41 `set_engine`. -/
def setEngine (s : String) (g : Globals) : Call Globals Unit :=
  let eng := pyLower s
  if eng ∈ supportedEnginesLower then (.ok (), { g with eng := eng })
  else (.error .valueError, g)

/-- settings.py:43-50 `get_engine`. -/
def getEngine (g : Globals) : String := pyLower g.eng

/-- settings.py:53-70 `set_optim_mode`. -/
def setOptimMode (b : Bool) (g : Globals) : Call Globals Unit :=
  let eng := if b then "PyTorch" else "NumPy"
  setEngine eng g

/-- settings.py:73-82 `get_optim_mode`. -/
def getOptimMode (g : Globals) : Bool := getEngine g == "pytorch"

/-- units.py:42-55 `set_unit_freq`. -/
def setUnitFreq (u : String) (g : Globals) : Call Globals Unit :=
  if freqList.has u then
    match freqList.get u with
    | .ok v => (.ok (), { g with unitFreq := v })
    | .error e => (.error e, g)
  else (.error .valueError, g)

/-- units.py:58-67 `get_unit_freq`. -/
def getUnitFreq (g : Globals) : ℝ := g.unitFreq

/-- units.py:70-84 `set_unit_cap`. -/
def setUnitCap (u : String) (g : Globals) : Call Globals Unit :=
  if !freqList.has u && !faradList.has u then (.error .valueError, g)
  else (.ok (), { g with unitCap := u })

/-- units.py:87-96 `get_unit_cap`. -/
def getUnitCap (g : Globals) : String := g.unitCap

/-- units.py:99-113 `set_unit_ind`. -/
def setUnitInd (u : String) (g : Globals) : Call Globals Unit :=
  if !freqList.has u && !henryList.has u then (.error .valueError, g)
  else (.ok (), { g with unitInd := u })

/-- units.py:116-125 `get_unit_ind`. -/
def getUnitInd (g : Globals) : String := g.unitInd

/-- units.py:128-142 `set_unit_JJ`. -/
def setUnitJJ (u : String) (g : Globals) : Call Globals Unit :=
  if !freqList.has u then (.error .valueError, g)
  else (.ok (), { g with unitJJ := u })

/-- units.py:145-154 `get_unit_JJ`. -/
def getUnitJJ (g : Globals) : String := g.unitJJ

/-- noise.py:18-30 `set_temp`. -/
def setTemp (t : ℝ) (g : Globals) : Call Globals Unit := (.ok (), { g with envT := t })

/-- noise.py:33-48 `set_low_freq`: the right-hand side is evaluated before the item
assignment, so a `KeyError` leaves `ENV` alone. -/
noncomputable def setLowFreq (v : ℝ) (u : String) (g : Globals) : Call Globals Unit :=
  match freqList.get u with
  | .ok f => (.ok (), { g with omegaLow := 2 * π * v * f })
  | .error e => (.error e, g)

/-- noise.py:51-66 `set_high_freq`. -/
noncomputable def setHighFreq (v : ℝ) (u : String) (g : Globals) : Call Globals Unit :=
  match freqList.get u with
  | .ok f => (.ok (), { g with omegaHigh := 2 * π * v * f })
  | .error e => (.error e, g)

/-- noise.py:69-84 `set_t_exp`. -/
def setTExp (v : ℝ) (u : String) (g : Globals) : Call Globals Unit :=
  match timeList.get u with
  | .ok f => (.ok (), { g with tExp := v * f })
  | .error e => (.error e, g)

/-- noise.py:87-96 `reset_to_default`: four calls in sequence (an exception in one would
abort the rest). -/
noncomputable def resetToDefault (g : Globals) : Call Globals Unit :=
  match setTemp 0.015 g with
  | (.error e, g) => (.error e, g)
  | (.ok _, g) =>
    match setLowFreq 1 "Hz" g with
    | (.error e, g) => (.error e, g)
    | (.ok _, g) =>
      match setHighFreq 3 "GHz" g with
      | (.error e, g) => (.error e, g)
      | (.ok _, g) => setTExp 10 "us" g

/-- The public calls that change module-level state. -/
inductive GCall
  | engine (s : String)
  | optim (b : Bool)
  | unitFreq (u : String)
  | unitCap (u : String)
  | unitInd (u : String)
  | unitJJ (u : String)
  | temp (t : ℝ)
  | lowFreq (v : ℝ) (u : String)
  | highFreq (v : ℝ) (u : String)
  | texp (v : ℝ) (u : String)
  | reset

/-- Dispatch of one public call (settings.py, units.py, noise.py). -/
noncomputable def GCall.exec : GCall → Globals → Call Globals Unit
  | .engine s => setEngine s
  | .optim b => setOptimMode b
  | .unitFreq u => setUnitFreq u
  | .unitCap u => setUnitCap u
  | .unitInd u => setUnitInd u
  | .unitJJ u => setUnitJJ u
  | .temp t => setTemp t
  | .lowFreq v u => setLowFreq v u
  | .highFreq v u => setHighFreq v u
  | .texp v u => setTExp v u
  | .reset => resetToDefault

/-- State after a history of calls, starting from `g`; exceptions are caught by the caller and
the session goes on. -/
noncomputable def runCalls (g : Globals) (h : List GCall) : Globals :=
  h.foldl (fun g c => (c.exec g).2) g

end SQ
