import Verif.Model.LinAlg

/-! # Specification for C109, C110: what stored values stand for -/

namespace SQ.Spec
open SQ Matrix

/-- `x` is a value with two axes that stands for the matrix `M` -/
inductive Stands : MVal → {r c : ℕ} → Matrix (Fin r) (Fin c) ℂ → Prop
  | qobj {r c : ℕ} (q : QData r c) : Stands (.qobj r c q) q.mat
  | tensor {r c : ℕ} (t : TData r c) : Stands (.tensor r c t) t.mat
  | nd {r c : ℕ} (M : Matrix (Fin r) (Fin c) ℂ) : Stands (.nd r c M) M

/-- values `mat_mul` is meant for: under PyTorch QuTiP objects in one of the three storage formats, tensors and arrays; under
NumPy two QuTiP objects or two arrays -/
def Supported (optim : Bool) : MVal → MVal → Prop
  | .qobj _ _ q, .qobj _ _ q' => optim = true → (∀ M, q ≠ .other M) ∧ ∀ M, q' ≠ .other M
  | .qobj _ _ q, .tensor _ _ _ => optim = true ∧ ∀ M, q ≠ .other M
  | .tensor _ _ _, .qobj _ _ q => optim = true ∧ ∀ M, q ≠ .other M
  | .qobj _ _ q, .nd _ _ _ => optim = true ∧ ∀ M, q ≠ .other M
  | .nd _ _ _, .qobj _ _ q => optim = true ∧ ∀ M, q ≠ .other M
  | .tensor _ _ _, .tensor _ _ _ => optim = true
  | .tensor _ _ _, .nd _ _ _ => optim = true
  | .nd _ _ _, .tensor _ _ _ => optim = true
  | .nd _ _ _, .nd _ _ _ => True
  | _, _ => False

/-- the one combination with the first argument a tensor and the second a QuTiP object -/
def TensorTimesQobj : MVal → MVal → Prop
  | .tensor _ _ _, .qobj _ _ _ => True
  | _, _ => False

end SQ.Spec
