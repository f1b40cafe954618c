import Verif.Spec.Graph
import Mathlib.Algebra.BigOperators.Fin
import Mathlib.Data.Matrix.Mul
import Mathlib.Tactic.Ring
import Mathlib.Tactic.Linarith

namespace SQ
open SQ.Spec

theorem pyIdx_nat {n : ℕ} {i : ℤ} (k : ℕ) (hk : k < n) (hi : i = k) :
    pyIdx n i = .ok ⟨k, hk⟩ := by
  subst hi
  unfold pyIdx
  rw [dif_pos (by omega)]
  simp

theorem pyIdx_neg_one {n : ℕ} (hn : 0 < n) : pyIdx n (-1) = .ok ⟨n - 1, by omega⟩ := by
  unfold pyIdx
  rw [dif_neg (by omega), dif_pos (by omega)]
  congr 1
  ext
  simp
  omega

theorem pyIdx_error {n : ℕ} {i : ℤ} (h : (n : ℤ) ≤ i) : pyIdx n i = .error .indexError := by
  unfold pyIdx
  rw [dif_neg (by omega), dif_neg (by omega)]

theorem addAt_ok {w : List ℤ} {i : ℕ} {d : ℤ} (h : i < w.length) :
    addAt w i d = .ok (w.modify i (· + d)) := by simp [addAt, h]

theorem addAt_error {w : List ℤ} {i : ℕ} {d : ℤ} (h : w.length ≤ i) :
    addAt w i d = .error .indexError := by simp [addAt, not_lt.2 h]

theorem getD_modify (w : List ℤ) (i k : ℕ) (d : ℤ) (h : i < w.length) :
    (w.modify i (· + d)).getD k 0 = w.getD k 0 + (if k = i then d else 0) := by
  simp only [List.getD_eq_getElem?_getD, List.getElem?_modify]
  by_cases hk : i = k
  · subst hk
    simp [List.getElem?_eq_getElem h]
  · have : ¬ k = i := fun h => hk h.symm
    cases hq : w[k]? <;> simp [hk, this]

theorem getD_replicate (m k : ℕ) : (List.replicate m (0 : ℤ)).getD k 0 = 0 := by
  simp only [List.getD_eq_getElem?_getD, List.getElem?_replicate]
  split <;> rfl

theorem getD_drop_one (w : List ℤ) (k : ℕ) : (w.drop 1).getD k 0 = w.getD (k + 1) 0 := by
  simp only [List.getD_eq_getElem?_getD, List.getElem?_drop]
  rw [add_comm]

theorem wAtEdge_ok {n : ℕ} {e : Edge} (h : ValidEdge n e) :
    ∃ w, wAtEdge n e = .ok w ∧ w.length = n ∧ ∀ k, w.getD k 0 = incidence e (k + 1) := by
  obtain ⟨i, j⟩ := e
  obtain ⟨hne, hi, hj⟩ := h
  simp only at hne hi hj
  unfold wAtEdge
  by_cases h0 : i = 0 ∨ j = 0
  · have hlt : i + j < (List.replicate (n + 1) (0 : ℤ)).length := by
      simp; omega
    simp only [h0, if_true, addAt_ok hlt]
    refine ⟨_, rfl, by simp, fun k => ?_⟩
    rw [getD_drop_one, getD_modify _ _ _ _ hlt, getD_replicate]
    simp only [incidence]
    rcases h0 with h0 | h0
    · subst h0; simp
    · subst h0; have : i ≠ 0 := hne
      simp [this]
  · rw [not_or] at h0
    have hlt : i < (List.replicate (n + 1) (0 : ℤ)).length := by simp; omega
    have hlt2 : j < ((List.replicate (n + 1) (0 : ℤ)).modify i (· + 1)).length := by simp; omega
    simp only [h0.1, h0.2, or_self, if_false, addAt_ok hlt, addAt_ok hlt2]
    refine ⟨_, rfl, by simp, fun k => ?_⟩
    rw [getD_drop_one, getD_modify _ _ _ _ hlt2, getD_modify _ _ _ _ hlt, getD_replicate]
    simp only [incidence, h0.1, h0.2, if_false]
    by_cases h1 : k + 1 = i
    · have : ¬ k + 1 = j := by omega
      simp [h1, show ¬ i = j from hne]
    · by_cases h2 : k + 1 = j <;> simp [h1, h2]
      omega

theorem wAtEdge_nodes_le {n : ℕ} {e : Edge} {w : List ℤ} (h : wAtEdge n e = .ok w) :
    e.1 ≤ n ∧ e.2 ≤ n := by
  obtain ⟨i, j⟩ := e
  unfold wAtEdge at h
  simp only at h ⊢
  by_cases h0 : i = 0 ∨ j = 0
  · simp only [h0, if_true] at h
    by_cases hlt : i + j < n + 1
    · omega
    · rw [addAt_error (by simp; omega)] at h; simp at h
  · simp only [h0, if_false] at h
    by_cases hlt : i < n + 1
    · rw [addAt_ok (by simpa using hlt)] at h
      simp only at h
      by_cases hlt2 : j < n + 1
      · omega
      · rw [addAt_error (by simp; omega)] at h; simp at h
    · rw [addAt_error (by simp; omega)] at h; simp at h

theorem wAtEdge_error {n : ℕ} {e : Edge} {er : PyErr} (h : wAtEdge n e = .error er) :
    er = .indexError ∧ (n < e.1 ∨ n < e.2) := by
  obtain ⟨i, j⟩ := e
  unfold wAtEdge at h
  simp only at h ⊢
  by_cases h0 : i = 0 ∨ j = 0
  · simp only [h0, if_true] at h
    by_cases hlt : i + j < n + 1
    · rw [addAt_ok (by simpa using hlt)] at h; simp at h
    · rw [addAt_error (by simp; omega)] at h
      simp only [Except.error.injEq] at h
      exact ⟨h.symm, by omega⟩
  · simp only [h0, if_false] at h
    by_cases hlt : i < n + 1
    · rw [addAt_ok (by simpa using hlt)] at h
      simp only at h
      by_cases hlt2 : j < n + 1
      · rw [addAt_ok (by simpa using hlt2)] at h; simp at h
      · rw [addAt_error (by simp; omega)] at h
        simp only [Except.error.injEq] at h
        exact ⟨h.symm, by omega⟩
    · rw [addAt_error (by simp; omega)] at h
      simp only [Except.error.injEq] at h
      exact ⟨h.symm, by omega⟩

theorem matrixRep_ok {n : ℕ} {e : Edge} (h : ValidEdge n e) :
    ∃ m, matrixRep n e = .ok m ∧
      ∀ a b : Fin n, m a b = (incidence e (a + 1) : ℝ) * incidence e (b + 1) := by
  obtain ⟨i, j⟩ := e
  obtain ⟨hne, hi, hj⟩ := h
  simp only at hne hi hj
  unfold matrixRep
  by_cases h0 : i = 0 ∨ j = 0
  · simp only [h0, if_true]
    have hk : i + j - 1 < n := by omega
    have hidx : pyIdx n ((i : ℤ) + j - 1) = .ok ⟨i + j - 1, hk⟩ := pyIdx_nat _ hk (by omega)
    simp only [matSet, hidx]
    refine ⟨_, rfl, fun a b => ?_⟩
    rcases h0 with h0 | h0
    · subst h0
      simp only [incidence, if_true, Fin.ext_iff, Matrix.of_apply]
      have e1 : ((a : ℕ) = 0 + j - 1) ↔ (a : ℕ) + 1 = j := by omega
      have e2 : ((b : ℕ) = 0 + j - 1) ↔ (b : ℕ) + 1 = j := by omega
      simp only [e1, e2, Matrix.zero_apply]
      by_cases ha : (a : ℕ) + 1 = j <;> by_cases hb : (b : ℕ) + 1 = j <;> simp [ha, hb]
    · subst h0
      have hi0 : ¬ i = 0 := hne
      simp only [incidence, if_true, Fin.ext_iff, hi0, if_false, Matrix.of_apply]
      have e1 : ((a : ℕ) = i + 0 - 1) ↔ (a : ℕ) + 1 = i := by omega
      have e2 : ((b : ℕ) = i + 0 - 1) ↔ (b : ℕ) + 1 = i := by omega
      simp only [e1, e2, Matrix.zero_apply]
      by_cases ha : (a : ℕ) + 1 = i <;> by_cases hb : (b : ℕ) + 1 = i <;> simp [ha, hb]
  · rw [not_or] at h0
    have hi1 : i - 1 < n := by omega
    have hj1 : j - 1 < n := by omega
    have ei : pyIdx n ((i : ℤ) - 1) = .ok ⟨i - 1, hi1⟩ := pyIdx_nat _ hi1 (by omega)
    have ej : pyIdx n ((j : ℤ) - 1) = .ok ⟨j - 1, hj1⟩ := pyIdx_nat _ hj1 (by omega)
    simp only [h0.1, h0.2, or_self, if_false, matSet, ei, ej]
    refine ⟨_, rfl, fun a b => ?_⟩
    simp only [incidence, Fin.ext_iff, h0.1, h0.2, if_false, Matrix.of_apply]
    have e1 : ((a : ℕ) = i - 1) ↔ (a : ℕ) + 1 = i := by omega
    have e2 : ((b : ℕ) = i - 1) ↔ (b : ℕ) + 1 = i := by omega
    have e3 : ((a : ℕ) = j - 1) ↔ (a : ℕ) + 1 = j := by omega
    have e4 : ((b : ℕ) = j - 1) ↔ (b : ℕ) + 1 = j := by omega
    simp only [e1, e2, e3, e4, Matrix.zero_apply]
    have hne' : ¬ j = i := fun h => hne h.symm
    by_cases ha : (a : ℕ) + 1 = i <;> by_cases hb : (b : ℕ) + 1 = i <;>
      by_cases ha' : (a : ℕ) + 1 = j <;> by_cases hb' : (b : ℕ) + 1 = j <;>
      first | (exfalso; omega) | simp [*]

/-- the edge matrix in closed form -/
noncomputable def eMat (n : ℕ) (e : Edge) : Matrix (Fin n) (Fin n) ℝ :=
  Matrix.of fun a b => (incidence e (a + 1) : ℝ) * incidence e (b + 1)

theorem matrixRep_eq {n : ℕ} {e : Edge} (h : ValidEdge n e) : matrixRep n e = .ok (eMat n e) := by
  obtain ⟨m, hm, hm'⟩ := matrixRep_ok h
  rw [hm]; congr 1; ext a b; exact hm' a b

theorem eMat_symm (n : ℕ) (e : Edge) : (eMat n e).transpose = eMat n e := by
  ext a b; simp [eMat, mul_comm]

theorem sum_pot {n : ℕ} (x : Fin n → ℝ) (i : ℕ) (c : ℝ) (hi : 1 ≤ i) (hin : i ≤ n) :
    ∑ k : Fin n, (if (k : ℕ) + 1 = i then c else 0) * x k = c * pot x i := by
  obtain ⟨i, rfl⟩ : ∃ j, i = j + 1 := ⟨i - 1, by omega⟩
  have hi' : i < n := by omega
  simp only [pot, hi', dif_pos]
  rw [Finset.sum_eq_single (⟨i, hi'⟩ : Fin n)]
  · simp
  · intro b _ hb
    have : ¬ (b : ℕ) + 1 = i + 1 := by
      intro h; apply hb; ext; simpa using h
    rw [if_neg this, zero_mul]
  · simp

theorem sum_incidence {n : ℕ} {e : Edge} (h : ValidEdge n e) (x : Fin n → ℝ) :
    ∑ k : Fin n, (incidence e (k + 1) : ℝ) * x k
      = if e.1 = 0 then - branchDiff x e else branchDiff x e := by
  obtain ⟨i, j⟩ := e
  obtain ⟨hne, hi, hj⟩ := h
  simp only at hne hi hj ⊢
  by_cases h1 : i = 0
  · subst h1
    have hj0 : 1 ≤ j := Nat.one_le_iff_ne_zero.2 (fun h => hne h.symm)
    have := sum_pot x j 1 hj0 hj
    have hp0 : pot x 0 = 0 := rfl
    simp only [incidence, if_true, branchDiff, hp0]
    rw [one_mul] at this
    simp only [zero_sub, neg_neg]
    rw [← this]
    refine Finset.sum_congr rfl fun k _ => ?_
    split <;> simp
  · by_cases h2 : j = 0
    · subst h2
      have hi0 : 1 ≤ i := Nat.one_le_iff_ne_zero.2 h1
      have := sum_pot x i 1 hi0 hi
      have hp0 : pot x 0 = 0 := rfl
      simp only [incidence, h1, if_false, if_true, branchDiff, hp0, sub_zero]
      rw [one_mul] at this
      rw [← this]
      refine Finset.sum_congr rfl fun k _ => ?_
      split <;> simp
    · have t1 := sum_pot x i 1 (Nat.one_le_iff_ne_zero.2 h1) hi
      have t2 := sum_pot x j 1 (Nat.one_le_iff_ne_zero.2 h2) hj
      rw [one_mul] at t1 t2
      simp only [incidence, h1, h2, if_false, branchDiff]
      rw [← t1, ← t2, ← Finset.sum_sub_distrib]
      refine Finset.sum_congr rfl fun k _ => ?_
      by_cases ha : (k : ℕ) + 1 = i
      · have : ¬ (k : ℕ) + 1 = j := by omega
        simp [ha, show ¬ i = j from hne]
      · by_cases hb : (k : ℕ) + 1 = j
        · rw [if_neg ha, if_pos hb, if_neg ha, if_pos hb]; push_cast; ring
        · rw [if_neg ha, if_neg hb, if_neg ha, if_neg hb]; push_cast; ring

/-- quadratic form of a matrix -/
def qf {n : ℕ} (M : Matrix (Fin n) (Fin n) ℝ) (x : Fin n → ℝ) : ℝ := x ⬝ᵥ (M.mulVec x)

theorem qf_eMat {n : ℕ} {e : Edge} (h : ValidEdge n e) (x : Fin n → ℝ) :
    qf (eMat n e) x = branchDiff x e ^ 2 := by
  have : qf (eMat n e) x = (∑ k : Fin n, (incidence e (k + 1) : ℝ) * x k) ^ 2 := by
    simp only [qf, dotProduct, Matrix.mulVec, eMat, Matrix.of_apply]
    rw [pow_two, Finset.sum_mul_sum]
    refine Finset.sum_congr rfl fun a _ => ?_
    rw [Finset.mul_sum]
    refine Finset.sum_congr rfl fun b _ => ?_
    ring
  rw [this, sum_incidence h]
  split <;> ring

theorem qf_add {n : ℕ} (A B : Matrix (Fin n) (Fin n) ℝ) (x : Fin n → ℝ) :
    qf (A + B) x = qf A x + qf B x := by
  simp [qf, Matrix.add_mulVec, dotProduct_add]

theorem qf_smul {n : ℕ} (c : ℝ) (A : Matrix (Fin n) (Fin n) ℝ) (x : Fin n → ℝ) :
    qf (c • A) x = c * qf A x := by
  simp [qf, Matrix.smul_mulVec, dotProduct_smul]

theorem qf_zero {n : ℕ} (x : Fin n → ℝ) : qf (0 : Matrix (Fin n) (Fin n) ℝ) x = 0 := by
  simp [qf]

theorem qf_list_sum {n : ℕ} (l : List (Matrix (Fin n) (Fin n) ℝ)) (x : Fin n → ℝ) :
    qf l.sum x = (l.map (fun M => qf M x)).sum := by
  induction l with
  | nil => simp [qf_zero]
  | cons M l ih => simp [qf_add, ih]

/-! ### the traversal -/

/-- inverse-inductance sum of an edge (value of `effInd` when it succeeds) -/
noncomputable def effIndVal (O : Objs) (els : List ElemId) : ℝ :=
  ((edgeInds O els).map (fun i => 1 / (O.elem i).value)).sum

theorem effInd_ok_iff {O : Objs} {els : List ElemId} {x : ℝ} :
    effInd O els = .ok x ↔
      (∀ i ∈ els, (O.elem i).kind = .ind → (O.elem i).value ≠ 0) ∧ x = effIndVal O els := by
  unfold effInd
  by_cases h : (edgeInds O els).any (fun i => decide ((O.elem i).value = 0)) = true
  · simp only [h, if_true, reduceCtorEq, false_iff, not_and]
    intro h'
    simp only [List.any_eq_true, edgeInds, List.mem_filter, decide_eq_true_eq] at h
    obtain ⟨i, ⟨hi, hk⟩, h0⟩ := h
    exact absurd h0 (h' i hi (by simpa using hk))
  · simp only [h]
    have h' : ∀ i ∈ els, (O.elem i).kind = .ind → (O.elem i).value ≠ 0 := by
      intro i hi hk h0
      apply h
      simp only [List.any_eq_true, edgeInds, List.mem_filter, decide_eq_true_eq]
      exact ⟨i, ⟨hi, by simpa using hk⟩, h0⟩
    constructor
    · intro hx
      simp only [Bool.false_eq_true, if_false, Except.ok.injEq] at hx
      exact ⟨h', hx.symm⟩
    · rintro ⟨_, rfl⟩; rfl

theorem effInd_error {O : Objs} {els : List ElemId} {e : PyErr} (h : effInd O els = .error e) :
    e = .zeroDivision ∧ ∃ i ∈ els, (O.elem i).kind = .ind ∧ (O.elem i).value = 0 := by
  unfold effInd at h
  split at h
  · rename_i h1
    simp only [Except.error.injEq] at h
    simp only [List.any_eq_true, edgeInds, List.mem_filter, decide_eq_true_eq] at h1
    obtain ⟨i, ⟨hi, hk⟩, h0⟩ := h1
    exact ⟨h.symm, i, hi, by simpa using hk, h0⟩
  · simp at h

/-- the outcome of one edge, when it succeeds -/
theorem edgeStep_ok {n : ℕ} {torch fd} {O : Objs} {a a' : Acc n} {p : Edge × List ElemId}
    (h : edgeStep torch fd O a p = .ok a') :
    ∃ w m, wAtEdge n p.1 = .ok w ∧ matrixRep n p.1 = .ok m ∧
      (∀ i ∈ p.2, (O.elem i).kind = .ind → (O.elem i).value ≠ 0) ∧
      a'.st = procEdge torch fd O p.1 w m a.wId p.2 a.st ∧
      a'.cMat = a.cMat + effCap O p.2 • m ∧ a'.lMat = a.lMat + effIndVal O p.2 • m ∧
      a'.wMat = (if (edgeJuncs O p.2).length ≠ 0 then a.wMat ++ [w] else a.wMat) ∧
      a'.wId = (if (edgeJuncs O p.2).length ≠ 0 then a.wId + 1 else a.wId) := by
  unfold edgeStep at h
  cases hw : wAtEdge n p.1 with
  | error e => simp [hw] at h
  | ok w =>
    cases hm : matrixRep n p.1 with
    | error e => simp [hw, hm] at h
    | ok m =>
      cases hx : effInd O p.2 with
      | error e => simp [hw, hm, hx] at h
      | ok x =>
        obtain ⟨h0, rfl⟩ := effInd_ok_iff.1 hx
        refine ⟨w, m, rfl, rfl, h0, ?_⟩
        simp only [hw, hm, hx] at h
        split at h
        · rename_i hj
          simp only [Except.ok.injEq] at h
          subst h
          simp [hj]
        · rename_i hj
          simp only [Except.ok.injEq] at h
          subst h
          simp [hj]

theorem edgeStep_succeeds {n : ℕ} (torch fd) {O : Objs} (a : Acc n) {p : Edge × List ElemId}
    (hv : ValidEdge n p.1) (h0 : ∀ i ∈ p.2, (O.elem i).kind = .ind → (O.elem i).value ≠ 0) :
    ∃ a', edgeStep torch fd O a p = .ok a' := by
  obtain ⟨w, hw, -⟩ := wAtEdge_ok hv
  have hx := effInd_ok_iff.2 ⟨h0, rfl⟩
  unfold edgeStep
  simp only [hw, matrixRep_eq hv, hx]
  split <;> exact ⟨_, rfl⟩

theorem buildEdges_cons_ok {n : ℕ} {torch fd} {O : Objs} {a a' : Acc n} {p ps}
    (h : buildEdges torch fd O (p :: ps) a = .ok a') :
    ∃ b, edgeStep torch fd O a p = .ok b ∧ buildEdges torch fd O ps b = .ok a' := by
  unfold buildEdges at h
  cases hs : edgeStep torch fd O a p with
  | error e => simp [hs] at h
  | ok b => exact ⟨b, rfl, by simpa [hs] using h⟩

theorem buildEdges_succeeds {n : ℕ} (torch fd) {O : Objs} {els : Elements}
    (hv : ValidElements n els)
    (h0 : ∀ p ∈ els, ∀ i ∈ p.2, (O.elem i).kind = .ind → (O.elem i).value ≠ 0) :
    ∀ a : Acc n, ∃ a', buildEdges torch fd O els a = .ok a' := by
  induction els with
  | nil => exact fun a => ⟨a, rfl⟩
  | cons p ps ih =>
    intro a
    obtain ⟨b, hb⟩ := edgeStep_succeeds torch fd a (hv p (by simp)) (h0 p (by simp))
    obtain ⟨a', ha'⟩ := ih (fun q hq => hv q (by simp [hq])) (fun q hq => h0 q (by simp [hq])) b
    exact ⟨a', by simp [buildEdges, hb, ha']⟩

theorem buildEdges_mats {n : ℕ} {torch fd} {O : Objs} {els : Elements}
    (hv : ValidElements n els) {a a' : Acc n} (h : buildEdges torch fd O els a = .ok a') :
    a'.cMat = a.cMat + (els.map (fun p => effCap O p.2 • eMat n p.1)).sum ∧
    a'.lMat = a.lMat + (els.map (fun p => effIndVal O p.2 • eMat n p.1)).sum := by
  induction els generalizing a with
  | nil => simp [buildEdges] at h; subst h; simp
  | cons p ps ih =>
    obtain ⟨b, hb, hrest⟩ := buildEdges_cons_ok h
    obtain ⟨w, m, -, hm, -, -, hc, hl, -⟩ := edgeStep_ok hb
    rw [matrixRep_eq (hv p (by simp))] at hm
    simp only [Except.ok.injEq] at hm
    subst hm
    obtain ⟨h1, h2⟩ := ih (fun q hq => hv q (by simp [hq])) hrest
    constructor
    · rw [h1, hc]; simp [add_assoc]
    · rw [h2, hl]; simp [add_assoc]

theorem effCap_eq (O : Objs) (els : List ElemId) :
    effCap O els = (els.map (placedCap O)).sum := by
  unfold effCap edgeCaps
  rw [List.map_map]
  congr 1
  refine List.map_congr_left fun i _ => ?_
  simp only [Function.comp, ElemObj.inductive, placedCap]
  have h : (O.elem i).kind = .cap ∨ (O.elem i).kind = .ind ∨ (O.elem i).kind = .jj := by
    cases (O.elem i).kind <;> simp
  rcases h with h | h | h <;> simp [h]

theorem effIndVal_eq (O : Objs) (els : List ElemId) :
    effIndVal O els = (els.map (placedInvInd O)).sum := by
  unfold effIndVal edgeInds
  induction els with
  | nil => rfl
  | cons i els ih =>
    simp only [List.filter_cons, List.map_cons, List.sum_cons, ← ih, placedInvInd]
    cases h : (O.elem i).kind <;> simp

theorem sum_placements {M : Type*} [AddCommMonoid M] (els : Elements) (f : Edge → ElemId → M) :
    ((placements els).map (fun q => f q.1 q.2)).sum
      = (els.map (fun p => (p.2.map (f p.1)).sum)).sum := by
  induction els with
  | nil => rfl
  | cons p ps ih =>
    have : placements (p :: ps) = p.2.map (fun i => (p.1, i)) ++ placements ps := by
      simp [placements]
    rw [this, List.map_append, List.sum_append, ih]
    simp [List.map_map, Function.comp_def]

theorem list_sum_smul {M : Type*} [AddCommMonoid M] [Module ℝ M] (l : List ℝ) (m : M) :
    l.sum • m = (l.map (fun c => c • m)).sum := by
  induction l with
  | nil => simp
  | cons c l ih => simp [add_smul, ih]

theorem traverse_mats {n : ℕ} {torch fd} {O : Objs} {h els} (hv : ValidElements n els)
    {a : Acc n} (ha : traverse torch fd O n h els = .ok a) :
    a.cMat = ((placements els).map (fun q => placedCap O q.2 • eMat n q.1)).sum ∧
    a.lMat = ((placements els).map (fun q => placedInvInd O q.2 • eMat n q.1)).sum := by
  obtain ⟨h1, h2⟩ := buildEdges_mats hv ha
  rw [sum_placements els (fun e i => placedCap O i • eMat n e),
    sum_placements els (fun e i => placedInvInd O i • eMat n e)]
  constructor
  · rw [h1]
    simp only [initAcc, zero_add]
    congr 1
    refine List.map_congr_left fun p _ => ?_
    rw [effCap_eq, list_sum_smul, List.map_map]; rfl
  · rw [h2]
    simp only [initAcc, zero_add]
    congr 1
    refine List.map_congr_left fun p _ => ?_
    rw [effIndVal_eq, list_sum_smul, List.map_map]; rfl

theorem traverse_qf {n : ℕ} {torch fd} {O : Objs} {h els} (hv : ValidElements n els)
    {a : Acc n} (ha : traverse torch fd O n h els = .ok a) (x : Fin n → ℝ) :
    qf a.cMat x = ((placements els).map (fun q => placedCap O q.2 * branchDiff x q.1 ^ 2)).sum ∧
    qf a.lMat x
      = ((placements els).map (fun q => placedInvInd O q.2 * branchDiff x q.1 ^ 2)).sum := by
  have hvq : ∀ q ∈ placements els, ValidEdge n q.1 := by
    intro q hq
    simp only [placements, List.mem_flatMap, List.mem_map] at hq
    obtain ⟨p, hp, i, _, rfl⟩ := hq
    exact hv p hp
  obtain ⟨h1, h2⟩ := traverse_mats hv ha
  constructor
  · rw [h1, qf_list_sum, List.map_map]
    congr 1
    refine List.map_congr_left fun q hq => ?_
    simp only [Function.comp, qf_smul, qf_eMat (hvq q hq)]
  · rw [h2, qf_list_sum, List.map_map]
    congr 1
    refine List.map_congr_left fun q hq => ?_
    simp only [Function.comp, qf_smul, qf_eMat (hvq q hq)]

end SQ
