import Verif.Model.Params

/-!
# elements.py: setting a value under PyTorch
-/

namespace SQ

/-- elements.py:79-87 (reached from every `set_value`) and 661-672 `Loop.set_flux`, called with a Python
number under PyTorch: `internal_value` becomes a new tensor (`t`) holding the number `x` computed from the
argument; operations on tensors that need no gradient give such a tensor. -/
def PWorld.setNumber (k : Comp) (t : TId) (x : ℝ) (w : PWorld) : PWorld :=
  { w with
    tensors := Function.update w.tensors t ⟨x, false, true, none⟩
    value := Function.update w.value k t }

end SQ
