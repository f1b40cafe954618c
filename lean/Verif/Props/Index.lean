import Verif.Model.Index
import Verif.Spec.Index
import Mathlib.Algebra.BigOperators.Fin

/-! # C44 tensor index decomposition -/

namespace SQ
open SQ.Spec

/-- recursive form of the decomposition -/
def digits : List ℕ → ℕ → List ℕ
  | [], _ => []
  | _ :: ms, x => x / ms.prod :: digits ms (x % ms.prod)

theorem buildMP_aux (m : List ℕ) (j : ℕ) (hj : j + 1 ≤ m.length) :
    ((List.range j).foldl (fun mP i =>
      if i = 0 then mP ++ [m.getD (m.length - 1) 0]
      else (mP.getD 0 0 * m.getD (m.length - 1 - i) 0) :: mP) []) =
    (List.range j).map (fun i => (m.drop (m.length - j + i)).prod) := by
  induction j with
  | zero => rfl
  | succ j ih =>
    rw [List.range_succ, List.foldl_append, ih (by omega)]
    simp only [List.foldl_cons, List.foldl_nil]
    have hlast : ∀ t, t < m.length → (m.drop t).prod = m.getD t 0 * (m.drop (t + 1)).prod := by
      intro t ht
      rw [List.drop_eq_getElem_cons ht, List.prod_cons, List.getD_eq_getElem?_getD,
        List.getElem?_eq_getElem ht]
      rfl
    by_cases h0 : j = 0
    · subst h0
      simp only [if_true, List.range_zero, List.map_nil, List.nil_append, List.map_cons]
      rw [show m.length - (0 + 1) + 0 = m.length - 1 by omega, hlast _ (by omega),
        show m.length - 1 + 1 = m.length by omega, List.drop_length]
      simp
    · rw [if_neg h0, ← List.range_succ, List.range_succ_eq_map, List.map_cons, List.map_map]
      congr 1
      · rw [show m.length - (j + 1) + 0 = m.length - 1 - j by omega, hlast _ (by omega),
          mul_comm]
        congr 1
        obtain ⟨j', rfl⟩ := Nat.exists_eq_succ_of_ne_zero h0
        rw [List.range_succ_eq_map]
        simp only [List.map_cons, List.getD_cons_zero]
        congr 2
        omega
      · apply List.map_congr_left
        intro i _
        simp only [Function.comp]
        congr 2
        omega

theorem buildMP_eq (m : List ℕ) (hm : 1 ≤ m.length) :
    buildMP m.length m = (List.range (m.length - 1)).map (fun i => (m.drop (i + 1)).prod) := by
  unfold buildMP
  rw [buildMP_aux m _ (by omega)]
  apply List.map_congr_left
  intro i _
  congr 2
  omega

theorem modes_fold (m : List ℕ) (j : ℕ) (hj : j ≤ m.length) (acc : List ℕ) (x : ℕ) :
    ((List.range' (m.length - j) j).foldl (modesStep m.length (buildMP m.length m)) (acc, x)).1 =
      acc ++ digits (m.drop (m.length - j)) x := by
  induction j generalizing acc x with
  | zero => simp [digits]
  | succ j ih =>
    have hlt : m.length - (j + 1) < m.length := by omega
    have hmp : ∀ i, i < m.length - 1 → (buildMP m.length m).getD i 0 = (m.drop (i + 1)).prod := by
      intro i hi
      rw [buildMP_eq m (by omega), List.getD_eq_getElem?_getD, List.getElem?_map,
        List.getElem?_range hi]
      rfl
    rw [List.range'_succ, List.foldl_cons, List.drop_eq_getElem_cons hlt,
      show m.length - (j + 1) + 1 = m.length - j by omega]
    rw [digits]
    unfold modesStep
    by_cases h : m.length - (j + 1) = m.length - 1
    · have hj0 : j = 0 := by omega
      subst hj0
      simp [digits]
    · rw [if_neg h]
      simp only
      rw [hmp _ (by omega), show m.length - (j + 1) + 1 = m.length - j by omega]
      change (List.foldl (modesStep m.length (buildMP m.length m)) _ _).1 = _
      rw [ih (by omega)]
      simp

theorem tensorToModes_eq (m : List ℕ) (x : ℕ) : tensorToModes m x = digits m x := by
  unfold tensorToModes
  have := modes_fold m m.length le_rfl [] x
  rw [Nat.sub_self] at this
  simpa [List.range_eq_range'] using this

theorem digits_lt (m : List ℕ) (x : ℕ) (hx : x < m.prod) :
    List.Forall₂ (· < ·) (digits m x) m ∧ rowMajor m (digits m x) = x := by
  induction m generalizing x with
  | nil =>
    simp [digits, rowMajor] at hx ⊢
    omega
  | cons d ms ih =>
    rw [List.prod_cons] at hx
    have hp : 0 < ms.prod := by
      rcases Nat.eq_zero_or_pos ms.prod with h | h
      · rw [h] at hx; omega
      · exact h
    obtain ⟨h1, h2⟩ := ih (x % ms.prod) (Nat.mod_lt _ hp)
    refine ⟨List.Forall₂.cons ?_ h1, ?_⟩
    · exact Nat.div_lt_of_lt_mul (by rwa [mul_comm])
    · simp only [digits, rowMajor]
      rw [h2, mul_comm]
      exact Nat.div_add_mod _ _

theorem rowMajor_lt (m ds : List ℕ) (h : List.Forall₂ (· < ·) ds m) :
    rowMajor m ds < m.prod ∧ digits m (rowMajor m ds) = ds := by
  induction h with
  | nil => simp [digits, rowMajor]
  | @cons d k ds ms hd _ ih =>
    obtain ⟨h1, h2⟩ := ih
    simp only [rowMajor, digits, List.prod_cons]
    constructor
    · calc d * ms.prod + rowMajor ms ds < d * ms.prod + ms.prod := by omega
        _ = (d + 1) * ms.prod := by ring
        _ ≤ k * ms.prod := Nat.mul_le_mul_right _ hd
    · rw [add_comm, Nat.add_mul_div_right _ _ (by omega), Nat.div_eq_of_lt h1, zero_add,
        Nat.add_mul_mod_self_right, Nat.mod_eq_of_lt h1, h2]

/-- The decomposition of an index below the total dimension has one index per mode within that mode's
dimension, recombines row-major to the index, every tuple of mode indices arises from exactly its
row-major index, and distinct indices have distinct decompositions. -/
theorem C44_bijection (m : List ℕ) :
    (∀ x < m.prod, List.Forall₂ (· < ·) (tensorToModes m x) m ∧
      rowMajor m (tensorToModes m x) = x) ∧
    (∀ ds, List.Forall₂ (· < ·) ds m →
      rowMajor m ds < m.prod ∧ tensorToModes m (rowMajor m ds) = ds) ∧
    (∀ x < m.prod, ∀ y < m.prod, tensorToModes m x = tensorToModes m y → x = y) := by
  simp only [tensorToModes_eq]
  refine ⟨digits_lt m, rowMajor_lt m, ?_⟩
  intro x hx y hy h
  rw [← (digits_lt m x hx).2, ← (digits_lt m y hy).2, h]

/-- The order agrees with Kronecker products: entry (r, c) of the product is the product of the
entries of the factors at the decompositions of r and c. -/
theorem C44_kronecker (fs : List (ℕ × (ℕ → ℕ → ℂ))) (r c : ℕ) :
    kron fs r c = (List.zipWith (fun f (p : ℕ × ℕ) => f.2 p.1 p.2) fs
      ((tensorToModes (fs.map Prod.fst) r).zip (tensorToModes (fs.map Prod.fst) c))).prod := by
  simp only [tensorToModes_eq]
  induction fs generalizing r c with
  | nil => simp [kron, digits]
  | cons f fs ih =>
    simp only [kron, List.map_cons, digits, List.zip_cons_cons, List.zipWith_cons_cons,
      List.prod_cons]
    rw [ih]

/-- entries of a matrix as a function of two numbers -/
def entries {N : ℕ} (A : Matrix (Fin N) (Fin N) ℂ) (a b : ℕ) : ℂ :=
  if h : a < N ∧ b < N then A ⟨a, h.1⟩ ⟨b, h.2⟩ else 0

/-- So the operators of the model, whose basis are tuples of mode indices, are the Kronecker products
of the code read through the row-major numbering. -/
theorem C44_tens {k : ℕ} (m : Fin k → ℕ) (ops : Factors m) (x y : Idx m) :
    tens ops x y = kron (List.ofFn (fun i => (m i, entries (ops i))))
      (rowMajor (List.ofFn m) (List.ofFn fun i => (x i : ℕ)))
      (rowMajor (List.ofFn m) (List.ofFn fun i => (y i : ℕ))) := by
  rw [C44_kronecker]
  have hm : (List.ofFn (fun i => (m i, entries (ops i)))).map Prod.fst = List.ofFn m := by
    rw [List.map_ofFn]; rfl
  have hf : ∀ z : Idx m, List.Forall₂ (· < ·) (List.ofFn fun i => (z i : ℕ)) (List.ofFn m) := by
    intro z
    rw [List.forall₂_iff_get]
    refine ⟨by simp, ?_⟩
    intro i h1 h2
    simp
  rw [hm, ((C44_bijection (List.ofFn m)).2.1 _ (hf x)).2, ((C44_bijection (List.ofFn m)).2.1 _ (hf y)).2]
  have : List.zipWith (fun (f : ℕ × (ℕ → ℕ → ℂ)) (p : ℕ × ℕ) => f.2 p.1 p.2)
      (List.ofFn (fun i => (m i, entries (ops i))))
      ((List.ofFn fun i => (x i : ℕ)).zip (List.ofFn fun i => (y i : ℕ))) =
      List.ofFn (fun i => ops i (x i) (y i)) := by
    apply List.ext_getElem
    · simp
    · intro i h1 h2
      simp [entries]
  rw [this, List.prod_ofFn]
  rfl

/-- index 5 for three modes with two states, the example in the docstring -/
example : tensorToModes [2, 2, 2] 5 = [1, 0, 1] := by decide

example : tensorToModes [3, 2, 4] 17 = [2, 0, 1] ∧ rowMajor [3, 2, 4] [2, 0, 1] = 17 := by decide

end SQ
