import Verif.Model.Globals

/-!
# elements.py: values of capacitors, inductors, junctions, loops and charge islands

Simplifications: values are exact reals given as plain Python floats (division by zero raises
`ZeroDivisionError`; with torch tensors it would produce `inf`).  The draw of the normal
sampler is an explicit argument `z` (a standard normal sample).  `Q`, `Y` and `id_str` are not
part of the value state.
-/

namespace SQ
open Real

/-- Value state of an element: `_value` and `_error` (elements.py:29-35, 71-77). -/
@[ext]
structure Elem where
  value : ℝ
  error : ℝ

/-- Python division of floats. -/
noncomputable def pyDiv (a b : ℝ) : Except PyErr ℝ :=
  if b = 0 then .error .zeroDivision else .ok (a / b)

/-- elements.py:79-87 `Element._set_value_with_error`: `torch.normal(mean, mean*error/100)`,
which raises `RuntimeError` for a negative standard deviation. -/
noncomputable def setValueWithError (z mean err : ℝ) (el : Elem) : Call Elem Unit :=
  if mean * err / 100 < 0 then (.error .runtimeError, el)
  else (.ok (), { el with value := mean + mean * err / 100 * z })

/-- elements.py:169-176 `Capacitor._check_unit_format`; `none` is Python's `None`. -/
def capUnitOk : Option String → Bool
  | none => true
  | some u => freqList.has u || faradList.has u

/-- elements.py:193-197: the mean value computed by `Capacitor.set_value`. -/
noncomputable def capMean (v : ℝ) : Option String → Except PyErr ℝ
  | none => .error .keyError          -- `freq_list[None]`
  | some u =>
    if faradList.has u then
      match faradList.get u with
      | .ok f => .ok (v * f)
      | .error e => .error e
    else
      match freqList.get u with
      | .ok f => pyDiv (eCharge ^ 2 / 2) (v * f * (2 * π * hbar))
      | .error e => .error e

/-- elements.py:178-199 `Capacitor.set_value`. -/
noncomputable def capSetValue (z v : ℝ) (u : Option String) (err : ℝ) (el : Elem) :
    Call Elem Unit :=
  if !capUnitOk u then (.error .valueError, el)
  else
    let el := { el with error := err }
    match capMean v u with
    | .error e => (.error e, el)
    | .ok mean => setValueWithError z mean err el

/-- elements.py:201-221 `Capacitor.get_value`. -/
noncomputable def capGetValue (u : String) (el : Elem) : Except PyErr ℝ :=
  if faradList.has u then
    match faradList.get u with
    | .ok f => pyDiv el.value f
    | .error e => .error e
  else if freqList.has u then
    match freqList.get u with
    | .ok f =>
      match pyDiv (eCharge ^ 2 / 2) el.value with
      | .error e => .error e
      | .ok x => pyDiv (x / (2 * π * hbar)) f
    | .error e => .error e
  else .error .valueError

/-- elements.py:325-334 `Inductor._check_unit_format`. -/
def indUnitOk : Option String → Bool
  | none => true
  | some u => freqList.has u || henryList.has u

/-- elements.py:351-355: the mean value computed by `Inductor.set_value`. -/
noncomputable def indMean (v : ℝ) : Option String → Except PyErr ℝ
  | none => .error .keyError
  | some u =>
    if henryList.has u then
      match henryList.get u with
      | .ok f => .ok (v * f)
      | .error e => .error e
    else
      match freqList.get u with
      | .ok f => pyDiv ((Phi0 / 2 / π) ^ 2) (v * f * (2 * π * hbar))
      | .error e => .error e

/-- elements.py:336-357 `Inductor.set_value`. -/
noncomputable def indSetValue (z v : ℝ) (u : Option String) (err : ℝ) (el : Elem) :
    Call Elem Unit :=
  if !indUnitOk u then (.error .valueError, el)
  else
    let el := { el with error := err }
    match indMean v u with
    | .error e => (.error e, el)
    | .ok mean => setValueWithError z mean err el

/-- elements.py:359-377 `Inductor.get_value`. -/
noncomputable def indGetValue (u : String) (el : Elem) : Except PyErr ℝ :=
  if henryList.has u then
    match henryList.get u with
    | .ok f => pyDiv el.value f
    | .error e => .error e
  else if freqList.has u then
    match freqList.get u with
    | .ok f =>
      match pyDiv ((Phi0 / 2 / π) ^ 2) el.value with
      | .error e => .error e
      | .ok x => pyDiv (x / (2 * π * hbar)) f
    | .error e => .error e
  else .error .valueError

/-- elements.py:509-514 `Junction._check_unit_format`. -/
def jjUnitOk : Option String → Bool
  | none => true
  | some u => freqList.has u

/-- elements.py:516-533 `Junction.set_value`. -/
noncomputable def jjSetValue (z v : ℝ) (u : Option String) (err : ℝ) (el : Elem) :
    Call Elem Unit :=
  if !jjUnitOk u then (.error .valueError, el)
  else
    let el := { el with error := err }
    match u with
    | none => (.error .keyError, el)
    | some u =>
      match freqList.get u with
      | .ok f => setValueWithError z (v * f * 2 * π) err el
      | .error e => (.error e, el)

/-- elements.py:535-547 `Junction.get_value`. -/
noncomputable def jjGetValue (u : String) (el : Elem) : Except PyErr ℝ :=
  if freqList.has u then
    match freqList.get u with
    | .ok f => pyDiv el.value f
    | .error e => .error e
  else .error .valueError

/-- The part of a constructor that fixes the value (elements.py:146-151, 292-297, 477-482):
`unit=None` selects the default unit from units.py, otherwise the unit is checked, then
`set_value` runs on the fresh object.  Parameters: the unit check, the setter and the default
unit of the element class. -/
noncomputable def elemInit (unitOk : Option String → Bool)
    (setV : ℝ → ℝ → Option String → ℝ → Elem → Call Elem Unit) (dflt : String)
    (z v : ℝ) (unit : Option String) (err : ℝ) : Except PyErr Elem :=
  let fresh : Elem := ⟨0, 0⟩
  match unit with
  | none =>
    match setV z v (some dflt) err fresh with
    | (.ok _, el) => .ok el
    | (.error e, _) => .error e
  | some u =>
    if !unitOk (some u) then .error .valueError
    else
      match setV z v (some u) err fresh with
      | (.ok _, el) => .ok el
      | (.error e, _) => .error e

/-- elements.py:136-151 `Capacitor.__init__` (value part). -/
noncomputable def capInit (g : Globals) := elemInit capUnitOk capSetValue (getUnitCap g)
/-- elements.py:280-297 `Inductor.__init__` (value part). -/
noncomputable def indInit (g : Globals) := elemInit indUnitOk indSetValue (getUnitInd g)
/-- elements.py:462-482 `Junction.__init__` (value part). -/
noncomputable def jjInit (g : Globals) := elemInit jjUnitOk jjSetValue (getUnitJJ g)

/-- Loop object (elements.py:599-690): external flux, noise amplitude, indices and rows of its
k-matrix. -/
@[ext]
structure LoopObj where
  value : ℝ
  A : ℝ
  indices : List ℕ
  kMat : List (List ℤ)

/-- elements.py:661-672 `Loop.set_flux`. -/
noncomputable def LoopObj.setFlux (v : ℝ) (l : LoopObj) : LoopObj := { l with value := v * 2 * π }
/-- elements.py:674-675 `Loop.set_noise`. -/
def LoopObj.setNoise (a : ℝ) (l : LoopObj) : LoopObj := { l with A := a }
/-- elements.py:641-643 `Loop.reset`. -/
def LoopObj.reset (l : LoopObj) : LoopObj := { l with indices := [], kMat := [] }
/-- elements.py:677-678 `Loop.add_index`. -/
def LoopObj.addIndex (b : ℕ) (l : LoopObj) : LoopObj := { l with indices := l.indices ++ [b] }
/-- elements.py:680-681 `Loop.add_to_k_mat`. -/
def LoopObj.addToKMat (w : List ℤ) (l : LoopObj) : LoopObj := { l with kMat := l.kMat ++ [w] }
/-- elements.py:617-634 `Loop.__init__`. -/
noncomputable def LoopObj.init (v a : ℝ) : LoopObj :=
  { (⟨0, 0, [], []⟩ : LoopObj).setFlux v with A := a * 2 * π, indices := [], kMat := [] }
/-- elements.py:645-659 `Loop.value(random)`; `z` is the standard normal draw. -/
def LoopObj.getValue (random : Bool) (z : ℝ) (l : LoopObj) : ℝ :=
  if !random then l.value else l.value + l.A * z

/-- Charge island (elements.py:693-726). -/
@[ext]
structure ChargeObj where
  chValue : ℝ
  A : ℝ

/-- elements.py:703-705 `Charge.__init__`. -/
def ChargeObj.init (v a : ℝ) : ChargeObj := ⟨v, a⟩
/-- elements.py:722-723 `Charge.set_offset`. -/
def ChargeObj.setOffset (v : ℝ) (c : ChargeObj) : ChargeObj := { c with chValue := v }
/-- elements.py:725-726 `Charge.set_noise`. -/
def ChargeObj.setNoise (a : ℝ) (c : ChargeObj) : ChargeObj := { c with A := a }
/-- elements.py:707-720 `Charge.value(random)`. -/
def ChargeObj.getValue (random : Bool) (z : ℝ) (c : ChargeObj) : ℝ :=
  if !random then c.chValue else c.chValue + c.A * z

end SQ
