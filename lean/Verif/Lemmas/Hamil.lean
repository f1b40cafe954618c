import Verif.Lemmas.Ops
import Verif.Spec.Coupling

/-!
# Lemmas on the LC and inductive Hamiltonians
-/

namespace SQ
open Matrix Complex SQ.Spec

variable {nJ k : ℕ}

theorem foldl_add_sum {V α : Type*} [AddCommMonoid V] (l : List α) (t : α → V) (acc : V) :
    l.foldl (fun acc d => acc + t d) acc = acc + (l.map t).sum := by
  induction l generalizing acc with
  | nil => simp
  | cons x xs ih => simp [ih, add_assoc]

/-- the double loop over i and d = j - i sums over the pairs i ≤ j -/
theorem pair_loop {V : Type*} [AddCommMonoid V] (t : Fin k → ℕ → V) (g : Fin k → Fin k → V)
    (h : ∀ (i : Fin k) (d : ℕ) (hd : (i : ℕ) + d < k), t i d = g i ⟨i + d, hd⟩) (acc : V) :
    (List.finRange k).foldl (fun acc (i : Fin k) =>
      (List.range (k - (i : ℕ))).foldl (fun acc d => acc + t i d) acc) acc =
      acc + ∑ i, ∑ j, if i ≤ j then g i j else 0 := by
  have h1 : ∀ (i : Fin k), ((List.range (k - (i : ℕ))).map (t i)).sum =
      ∑ j, if i ≤ j then g i j else 0 := by
    intro i
    have e : ((List.range (k - (i : ℕ))).map (t i)).sum = ∑ d ∈ Finset.range (k - i), t i d := by
      rw [Finset.sum_range, ← List.sum_ofFn]
      congr 1
      apply List.ext_getElem
      · simp
      · intro p h1 h2; simp
    rw [e, ← Finset.sum_filter]
    refine Finset.sum_bij (fun d hd => (⟨i + d, by have := Finset.mem_range.1 hd; omega⟩ : Fin k))
      ?_ ?_ ?_ ?_
    · intro d hd
      rw [Finset.mem_filter]
      exact ⟨Finset.mem_univ _, Nat.le_add_right _ _⟩
    · intro a ha b hb hab
      have := congrArg Fin.val hab
      simp only at this
      omega
    · intro j hj
      have hle : (i : ℕ) ≤ j := (Finset.mem_filter.1 hj).2
      refine ⟨j - i, ?_, ?_⟩
      · have := j.isLt
        simp; omega
      · apply Fin.ext; simp; omega
    · intro d hd
      exact h i d _
  have h2 : ∀ (acc : V) (i : Fin k),
      (List.range (k - (i : ℕ))).foldl (fun acc d => acc + t i d) acc =
        acc + ∑ j, if i ≤ j then g i j else 0 := by
    intro acc i
    rw [foldl_add_sum, h1]
  simp only [h2]
  rw [foldl_add_sum, finRange_map_sum]

/-- a symmetric double sum in terms of the pairs i ≤ j -/
theorem symm_sum {V : Type*} [AddCommGroup V] [Module ℂ V] (G : Fin k → Fin k → V)
    (hG : ∀ i j, G i j = G j i) :
    ∑ i, ∑ j, (if i ≤ j then (if i = j then (1 / 2 : ℂ) • G i j else G i j) else 0) =
      (1 / 2 : ℂ) • ∑ i, ∑ j, G i j := by
  have h1 : ∀ i j : Fin k, G i j = (if i < j then G i j else 0) + (if j < i then G i j else 0) +
      (if i = j then G i j else 0) := by
    intro i j
    rcases lt_trichotomy i j with h | h | h
    · simp [h, h.ne, not_lt.2 h.le]
    · simp [h]
    · simp [h, h.ne', not_lt.2 h.le]
  have h2 : ∑ i, ∑ j, (if j < i then G i j else 0) = ∑ i, ∑ j, (if i < j then G i j else 0) := by
    rw [Finset.sum_comm]
    apply Finset.sum_congr rfl; intro i _
    apply Finset.sum_congr rfl; intro j _
    rw [hG]
  have h3 : ∑ i, ∑ j, G i j = (2 : ℂ) • (∑ i, ∑ j, (if i < j then G i j else 0)) +
      ∑ i, ∑ j, (if i = j then G i j else 0) := by
    calc ∑ i, ∑ j, G i j = ∑ i, ∑ j, ((if i < j then G i j else 0) + (if j < i then G i j else 0) +
          (if i = j then G i j else 0)) := by
          apply Finset.sum_congr rfl; intro i _
          apply Finset.sum_congr rfl; intro j _
          exact h1 i j
      _ = _ := by
        simp only [Finset.sum_add_distrib]
        rw [h2, two_smul]
  rw [h3, smul_add, smul_smul]
  norm_num
  rw [Finset.smul_sum, ← Finset.sum_add_distrib]
  apply Finset.sum_congr rfl; intro i _
  have : ∀ j : Fin k, (if i ≤ j then (if i = j then (1 / 2 : ℂ) • G i j else G i j) else 0) =
      (if i < j then G i j else 0) + (if i = j then (1 / 2 : ℂ) • G i j else 0) := by
    intro j
    rcases lt_trichotomy i j with h | h | h
    · simp [h, h.le, h.ne]
    · simp [h]
    · simp [not_le.2 h, not_lt.2 h.le, h.ne']
  simp only [one_div] at this ⊢
  simp only [this, Finset.sum_add_distrib, Finset.sum_ite_eq, Finset.mem_univ, if_true]

theorem QQ_getD (D : ModeData nJ k) (m : Fin k → ℕ) (ng : Fin k → ℝ) (i : Fin k) (d : ℕ)
    (h : (i : ℕ) + d < k) :
    ((buildMem D m ng).QQ i).getD d 0 =
      (buildMem D m ng).Q i * (buildMem D m ng).Q ⟨i + d, h⟩ := by
  rw [List.getD_eq_getElem?_getD, buildMem_QQ D m ng i d h]
  rfl

theorem Q_comm (D : ModeData nJ k) (m : Fin k → ℕ) (ng : Fin k → ℝ) (i j : Fin k) :
    (buildMem D m ng).Q i * (buildMem D m ng).Q j =
      (buildMem D m ng).Q j * (buildMem D m ng).Q i := by
  by_cases h : i = j
  · rw [h]
  · rw [buildMem_Q, buildMem_Q, single_comm h]

theorem Q_herm (D : ModeData nJ k) (m : Fin k → ℕ) (ng : Fin k → ℝ) (i : Fin k) :
    ((buildMem D m ng).Q i)ᴴ = (buildMem D m ng).Q i := by
  rw [buildMem_Q, single_conjTranspose, chargeOpIso_herm]

theorem phi_herm (D : ModeData nJ k) (m : Fin k → ℕ) (ng : Fin k → ℝ) (i : Fin k) :
    ((buildMem D m ng).phi i)ᴴ = (buildMem D m ng).phi i := by
  rw [buildMem_phi, single_conjTranspose, fluxOpIso_herm]

theorem N_herm (D : ModeData nJ k) (m : Fin k → ℕ) (ng : Fin k → ℝ) (i : Fin k) :
    ((buildMem D m ng).N i)ᴴ = (buildMem D m ng).N i := by
  rw [buildMem_N, single_conjTranspose, numOpIso_herm]

/-- the terms of the LC Hamiltonian over pairs i ≤ j -/
noncomputable def lcPair (D : ModeData nJ k) (m : Fin k → ℕ) (ng : Fin k → ℝ) (i j : Fin k) : Op m :=
  open Classical in
  if i = j then
    if D.omega i = 0 then ((D.cInv i i / 2 : ℝ) : ℂ) • ((buildMem D m ng).Q i * (buildMem D m ng).Q i)
    else ((D.omega i : ℝ) : ℂ) • (buildMem D m ng).N i
  else ((D.cInv i j : ℝ) : ℂ) • ((buildMem D m ng).Q i * (buildMem D m ng).Q j)

theorem lcHamil_pairs (D : ModeData nJ k) (m : Fin k → ℕ) (ng : Fin k → ℝ) :
    lcHamil D (buildMem D m ng) = ∑ i, ∑ j, if i ≤ j then lcPair D m ng i j else 0 := by
  classical
  unfold lcHamil
  have hterm : ∀ (i : Fin k) (acc : Op m) (d : ℕ), lcTerm D (buildMem D m ng) i acc d =
      acc + (if h : (i : ℕ) + d < k then lcPair D m ng i ⟨i + d, h⟩ else 0) := by
    intro i acc d
    unfold lcTerm
    by_cases h : (i : ℕ) + d < k
    · rw [dif_pos h, dif_pos h]
      by_cases hd : d = 0
      · subst hd
        have e : (⟨(i : ℕ) + 0, h⟩ : Fin k) = i := rfl
        rw [if_pos rfl, QQ_getD D m ng i 0 h, e]
        unfold lcPair quadCInv
        rw [if_pos rfl]
        simp only [of_apply, if_true]
        split <;> rfl
      · have hne : i ≠ ⟨i + d, h⟩ := by
          intro he
          have := congrArg Fin.val he
          simp only at this; omega
        rw [if_neg hd, QQ_getD D m ng i d h]
        unfold lcPair quadCInv
        simp only [of_apply, if_neg hne]
        split
        · rfl
        · rename_i h0
          have h0' : D.cInv i ⟨i + d, h⟩ = 0 := not_not.1 h0
          rw [h0']; simp
    · rw [dif_neg h, dif_neg h, add_zero]
  have hfun : ∀ i : Fin k, lcTerm D (buildMem D m ng) i = fun acc d =>
      acc + (if h : (i : ℕ) + d < k then lcPair D m ng i ⟨i + d, h⟩ else 0) := by
    intro i; funext acc d; exact hterm i acc d
  simp only [hfun]
  have := pair_loop (k := k) (V := Op m)
    (fun i d => if h : (i : ℕ) + d < k then lcPair D m ng i ⟨i + d, h⟩ else 0) (lcPair D m ng)
    (fun i d hd => dif_pos hd) 0
  rw [zero_add] at this
  convert this using 1

theorem quadraticQ_pairs (D : ModeData nJ k) (m : Fin k → ℕ) (ng : Fin k → ℝ)
    (A : Matrix (Fin k) (Fin k) ℝ) :
    quadraticQ (buildMem D m ng) A = ∑ i, ∑ j, if i ≤ j then
      (if i = j then (1 / 2 : ℂ) • (((A i j : ℝ) : ℂ) •
        ((buildMem D m ng).Q i * (buildMem D m ng).Q j))
       else ((A i j : ℝ) : ℂ) • ((buildMem D m ng).Q i * (buildMem D m ng).Q j)) else 0 := by
  classical
  unfold quadraticQ
  have hterm : ∀ (i : Fin k) (acc : Op m) (d : ℕ),
      (if h : (i : ℕ) + d < k then
        if d = 0 then acc + ((0.5 * A i ⟨i + d, h⟩ : ℝ) : ℂ) • ((buildMem D m ng).QQ i).getD d 0
        else acc + ((A i ⟨i + d, h⟩ : ℝ) : ℂ) • ((buildMem D m ng).QQ i).getD d 0
      else acc) = acc + (if h : (i : ℕ) + d < k then
        (if i = ⟨i + d, h⟩ then (1 / 2 : ℂ) • (((A i ⟨i + d, h⟩ : ℝ) : ℂ) •
          ((buildMem D m ng).Q i * (buildMem D m ng).Q ⟨i + d, h⟩))
         else ((A i ⟨i + d, h⟩ : ℝ) : ℂ) •
          ((buildMem D m ng).Q i * (buildMem D m ng).Q ⟨i + d, h⟩)) else 0) := by
    intro i acc d
    by_cases h : (i : ℕ) + d < k
    · rw [dif_pos h, dif_pos h, QQ_getD D m ng i d h]
      by_cases hd : d = 0
      · subst hd
        have e : (⟨(i : ℕ) + 0, h⟩ : Fin k) = i := rfl
        rw [e, if_pos rfl, if_pos rfl, smul_smul]
        congr 2
        push_cast; norm_num
      · have hne : i ≠ ⟨i + d, h⟩ := by
          intro he
          have := congrArg Fin.val he
          simp only at this; omega
        rw [if_neg hd, if_neg hne]
    · rw [dif_neg h, dif_neg h, add_zero]
  simp only [hterm]
  have := pair_loop (k := k) (V := Op m)
    (fun i d => if h : (i : ℕ) + d < k then
        (if i = ⟨i + d, h⟩ then (1 / 2 : ℂ) • (((A i ⟨i + d, h⟩ : ℝ) : ℂ) •
          ((buildMem D m ng).Q i * (buildMem D m ng).Q ⟨i + d, h⟩))
         else ((A i ⟨i + d, h⟩ : ℝ) : ℂ) •
          ((buildMem D m ng).Q i * (buildMem D m ng).Q ⟨i + d, h⟩)) else 0)
    (fun i j => if i = j then (1 / 2 : ℂ) • (((A i j : ℝ) : ℂ) •
        ((buildMem D m ng).Q i * (buildMem D m ng).Q j))
       else ((A i j : ℝ) : ℂ) • ((buildMem D m ng).Q i * (buildMem D m ng).Q j))
    (fun i d hd => dif_pos hd) 0
  rw [zero_add] at this
  convert this using 1

/-! ### inductive part -/

theorem indTerms_ok {n b : ℕ} (C : Matrix (Fin n) (Fin n) ℝ) (M : Modes nJ n)
    (hk : M.keep.length ≤ n) {m : Fin M.keep.length → ℕ} (mem : OpMem nJ m) (val : ElemId → ℝ)
    (phi : Fin b → ℝ) (inds : List (IndKey b)) (hv : ∀ key ∈ inds, ValidEdge n key.edge)
    (acc : Op m) :
    indTerms C M mem val phi inds acc = .ok (acc + (inds.map (fun key =>
      ((1 / val key.el * phi key.bId * (Phi0 / 2 / Real.pi) / √hbar : ℝ) : ℂ) •
        ∑ i : Fin M.keep.length,
          ((coupleAt "inductive" (fun r => M.S r ⟨i, lt_of_lt_of_le i.isLt hk⟩) key.edge : ℝ) : ℂ) •
            mem.phi i)).sum) := by
  induction inds generalizing acc with
  | nil => simp [indTerms]
  | cons key ks ih =>
    have hc := couplingOp_ok (Or.inr rfl) C M hk mem.Q mem.phi (hv key (by simp))
    have hcol : ∀ j, modeColumn "inductive" C M j = fun r => M.S r j := by
      intro j; funext r; simp [modeColumn]
    simp only [show ¬ ("inductive" = "capacitive") by decide, if_false, hcol] at hc
    simp only [indTerms, hc]
    rw [ih (fun key h => hv key (by simp [h]))]
    simp [add_assoc]

theorem junTerms_eq {b : ℕ} {m : Fin k → ℕ} (mem : OpMem nJ m) (val : ElemId → ℝ)
    (phi : Fin b → ℝ) (keys : List (JunKey b nJ)) (acc : Op m) :
    junTerms mem val phi keys acc =
      acc + (keys.map (fun key => (-(val key.el : ℂ)) • cosOp mem key.wId (phi key.bId))).sum := by
  unfold junTerms
  exact foldl_add_sum _ _ _

theorem cosOp_herm {m : Fin k → ℕ} (mem : OpMem nJ m) (w : Fin nJ) (phi : ℝ) :
    (cosOp mem w phi)ᴴ = cosOp mem w phi := by
  unfold cosOp
  rw [conjTranspose_smul, conjTranspose_add, conjTranspose_conjTranspose]
  simp only [RCLike.star_def, map_div₀, map_one, Complex.conj_ofNat]
  rw [add_comm]

theorem sinOp_herm {m : Fin k → ℕ} (mem : OpMem nJ m) (w : Fin nJ) (phi : ℝ) :
    (sinOp mem w phi)ᴴ = sinOp mem w phi := by
  unfold sinOp
  rw [conjTranspose_smul, conjTranspose_sub, conjTranspose_conjTranspose]
  simp only [RCLike.star_def, map_div₀, map_one, map_mul, Complex.conj_ofNat, Complex.conj_I]
  rw [← neg_sub, smul_neg, ← neg_smul]
  congr 1
  field_simp

theorem herm_list_sum {ι : Type*} {α : Type*} [Fintype α] (l : List ι) (f : ι → Matrix α α ℂ)
    (h : ∀ x ∈ l, (f x)ᴴ = f x) : ((l.map f).sum)ᴴ = (l.map f).sum := by
  induction l with
  | nil => simp
  | cons x xs ih =>
    simp only [List.map_cons, List.sum_cons, conjTranspose_add]
    rw [h x (by simp), ih (fun y hy => h y (by simp [hy]))]

theorem herm_real_smul {α : Type*} (c : ℝ) {A : Matrix α α ℂ} (h : Aᴴ = A) :
    ((c : ℂ) • A)ᴴ = (c : ℂ) • A := by
  rw [conjTranspose_smul, h]
  simp only [RCLike.star_def, Complex.conj_ofReal]

end SQ
