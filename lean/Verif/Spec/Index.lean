import Mathlib.Data.Complex.Basic
import Mathlib.Algebra.BigOperators.Group.List.Basic

/-! # Row-major indices and Kronecker products, specified independently -/

namespace SQ.Spec

/-- index of the tuple `d` in an array of shape `m`, last index fastest -/
def rowMajor : List ℕ → List ℕ → ℕ
  | _ :: ms, d :: ds => d * ms.prod + rowMajor ms ds
  | _, _ => 0

/-- entry (r, c) of the Kronecker product of square matrices given by dimension and entries -/
def kron : List (ℕ × (ℕ → ℕ → ℂ)) → ℕ → ℕ → ℂ
  | [], _, _ => 1
  | f :: fs, r, c =>
    let q := (fs.map Prod.fst).prod
    f.2 (r / q) (c / q) * kron fs (r % q) (c % q)

end SQ.Spec
