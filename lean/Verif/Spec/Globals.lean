import Verif.Model.Globals

/-!
# What the documentation promises about module-level state

Independent of the setters of the model: which strings are accepted and what the last accepted
call of a kind wrote.
-/

namespace SQ.Spec

open Real

/-- documented frequency units with their size in hertz -/
inductive FreqUnit : String → ℝ → Prop
  | Hz : FreqUnit "Hz" 1
  | kHz : FreqUnit "kHz" 1000
  | MHz : FreqUnit "MHz" 1000000
  | GHz : FreqUnit "GHz" 1000000000
  | THz : FreqUnit "THz" 1000000000000

/-- documented capacitance units with their size in farad -/
inductive FaradUnit : String → ℝ → Prop
  | F : FaradUnit "F" 1
  | mF : FaradUnit "mF" (1 / 1000)
  | uF : FaradUnit "uF" (1 / 1000000)
  | nF : FaradUnit "nF" (1 / 1000000000)
  | pF : FaradUnit "pF" (1 / 1000000000000)
  | fF : FaradUnit "fF" (1 / 1000000000000000)

/-- documented inductance units with their size in henry -/
inductive HenryUnit : String → ℝ → Prop
  | H : HenryUnit "H" 1
  | mH : HenryUnit "mH" (1 / 1000)
  | uH : HenryUnit "uH" (1 / 1000000)
  | nH : HenryUnit "nH" (1 / 1000000000)
  | pH : HenryUnit "pH" (1 / 1000000000000)
  | fH : HenryUnit "fH" (1 / 1000000000000000)

/-- documented time units with their size in seconds -/
inductive TimeUnit : String → ℝ → Prop
  | s : TimeUnit "s" 1
  | ms : TimeUnit "ms" (1 / 1000)
  | us : TimeUnit "us" (1 / 1000000)
  | ns : TimeUnit "ns" (1 / 1000000000)
  | ps : TimeUnit "ps" (1 / 1000000000000)
  | fs : TimeUnit "fs" (1 / 1000000000000000)

/-- `IsLast P h x`: `x` is what the last call of history `h` that writes (according to `P`)
wrote; `d` if none did.  `P c x` reads "call `c` is accepted by this register and writes `x`". -/
inductive LastWrite {α β : Type*} (P : α → β → Prop) (d : β) : List α → β → Prop
  | none : LastWrite P d [] d
  | write {h : List α} {c : α} {x : β} : P c x → LastWrite P d (h ++ [c]) x
  | skip {h : List α} {c : α} {x : β} : LastWrite P d h x → (∀ y, ¬ P c y) →
      LastWrite P d (h ++ [c]) x

/-- which calls write the engine register, and what -/
inductive EngineWrite : GCall → String → Prop
  | engineNumpy {s : String} : pyLower s = "numpy" → EngineWrite (.engine s) "numpy"
  | enginePytorch {s : String} : pyLower s = "pytorch" → EngineWrite (.engine s) "pytorch"
  | optimOn : EngineWrite (.optim true) "pytorch"
  | optimOff : EngineWrite (.optim false) "numpy"

/-- which calls write the frequency-unit register (value in hertz) -/
inductive FreqWrite : GCall → ℝ → Prop
  | mk {u : String} {x : ℝ} : FreqUnit u x → FreqWrite (.unitFreq u) x

inductive CapWrite : GCall → String → Prop
  | freq {u : String} {x : ℝ} : FreqUnit u x → CapWrite (.unitCap u) u
  | farad {u : String} {x : ℝ} : FaradUnit u x → CapWrite (.unitCap u) u

inductive IndWrite : GCall → String → Prop
  | freq {u : String} {x : ℝ} : FreqUnit u x → IndWrite (.unitInd u) u
  | henry {u : String} {x : ℝ} : HenryUnit u x → IndWrite (.unitInd u) u

inductive JJWrite : GCall → String → Prop
  | freq {u : String} {x : ℝ} : FreqUnit u x → JJWrite (.unitJJ u) u

inductive TempWrite : GCall → ℝ → Prop
  | temp (t : ℝ) : TempWrite (.temp t) t
  | reset : TempWrite .reset (15 / 1000)

inductive LowWrite : GCall → ℝ → Prop
  | low {v x : ℝ} {u : String} : FreqUnit u x → LowWrite (.lowFreq v u) (2 * π * v * x)
  | reset : LowWrite .reset (2 * π)

inductive HighWrite : GCall → ℝ → Prop
  | high {v x : ℝ} {u : String} : FreqUnit u x → HighWrite (.highFreq v u) (2 * π * v * x)
  | reset : HighWrite .reset (2 * π * 3000000000)

inductive TExpWrite : GCall → ℝ → Prop
  | texp {v x : ℝ} {u : String} : TimeUnit u x → TExpWrite (.texp v u) (v * x)
  | reset : TExpWrite .reset (1 / 100000)

end SQ.Spec
