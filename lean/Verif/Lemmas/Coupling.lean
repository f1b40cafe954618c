import Verif.Spec.Coupling
import Verif.Lemmas.ConstructT2

/-!
# Lemmas on coupling operators
-/

namespace SQ
open SQ.Spec Matrix

variable {nJ n : ℕ}

theorem addTerms_ok {V : Type*} [AddCommGroup V] [Module ℂ V] {k : ℕ}
    {coef : Fin k → Except PyErr ℝ} {f : Fin k → ℝ} (h : ∀ i, coef i = .ok (f i))
    (ops : Fin k → V) (l : List (Fin k)) (acc : V) :
    addTerms coef ops l acc = .ok (acc + (l.map (fun i => (f i : ℂ) • ops i)).sum) := by
  induction l generalizing acc with
  | nil => simp [addTerms]
  | cons i is ih =>
    simp only [addTerms, h i]
    rw [ih]
    simp [add_assoc]

theorem pyIdx_ofNat {n i : ℕ} (h : i < n) : pyIdx n (i : ℤ) = .ok ⟨i, h⟩ := by
  unfold pyIdx
  rw [dif_pos ⟨by omega, by omega⟩]
  simp

theorem numAt_ok (K : Matrix (Fin n) (Fin n) ℝ) {a i : ℕ} (h1 : 1 ≤ a) (h2 : a ≤ n) (hi : i < n) :
    numAt K ((a : ℤ) - 1) i = .ok (pot (fun r => K r ⟨i, hi⟩) a) := by
  obtain ⟨b, rfl⟩ : ∃ b, a = b + 1 := ⟨a - 1, by omega⟩
  have hb : b < n := by omega
  have e : ((b + 1 : ℕ) : ℤ) - 1 = (b : ℤ) := by push_cast; ring
  unfold numAt
  rw [e, pyIdx_ofNat hb, pyIdx_ofNat hi]
  simp [pot, hb]

theorem couplingCoef_ok (ctype : String) (K : Matrix (Fin n) (Fin n) ℝ) {e : Edge}
    (hv : ValidEdge n e) {i : ℕ} (hi : i < n) :
    couplingCoef ctype K e i = .ok (coupleAt ctype (fun r => K r ⟨i, hi⟩) e) := by
  obtain ⟨a, b⟩ := e
  obtain ⟨hne, ha, hb⟩ := hv
  simp only at hne ha hb
  unfold couplingCoef coupleAt
  by_cases h0 : a = 0 ∨ b = 0
  · simp only [h0, if_true]
    have hm : a + b = max a b := by rcases h0 with h | h <;> simp [h]
    rw [hm]
    exact numAt_ok K (by omega) (by omega) hi
  · simp only [h0, if_false]
    have h1 := numAt_ok K (a := a) (by omega) ha hi
    have h2 := numAt_ok K (a := b) (by omega) hb hi
    by_cases hc : ctype = "capacitive"
    · simp only [hc, if_true, h1, h2]
    · simp only [hc, if_false, h1, h2]

theorem keep_len_le {keep : List (Fin n)} (h : keep.Pairwise (· < ·)) : keep.length ≤ n := by
  have hn : keep.Nodup := h.imp (fun h => ne_of_lt h)
  simpa using hn.length_le_card

theorem finRange_map_sum {V : Type*} [AddCommMonoid V] {k : ℕ} (f : Fin k → V) :
    ((List.finRange k).map f).sum = ∑ i, f i := by
  rw [← List.ofFn_eq_map, List.sum_ofFn]

/-- `coupling_op` spelled out for valid node pairs -/
theorem couplingOp_ok {V : Type*} [AddCommGroup V] [Module ℂ V] {ctype : String}
    (hc : ctype = "capacitive" ∨ ctype = "inductive") (C : Matrix (Fin n) (Fin n) ℝ)
    (M : Modes nJ n) (hk : M.keep.length ≤ n) (Qop phiOp : Fin M.keep.length → V) {e : Edge}
    (hv : ValidEdge n e) :
    couplingOp ctype C M Qop phiOp e = .ok (∑ i : Fin M.keep.length,
      ((coupleAt ctype (modeColumn ctype C M ⟨i, lt_of_lt_of_le i.isLt hk⟩) e : ℝ) : ℂ) •
        (if ctype = "capacitive" then Qop else phiOp) i) := by
  unfold couplingOp
  rw [if_neg (by rcases hc with h | h <;> simp [h])]
  have hf : ∀ i : Fin M.keep.length, couplingCoef ctype (couplingMat ctype C M) e i =
      .ok (coupleAt ctype (modeColumn ctype C M ⟨i, lt_of_lt_of_le i.isLt hk⟩) e) := by
    intro i
    rw [couplingCoef_ok ctype _ hv (lt_of_lt_of_le i.isLt hk)]
    congr 2
    funext r
    unfold couplingMat modeColumn
    split <;> rfl
  rw [addTerms_ok hf, finRange_map_sum, zero_add]

/-- in the final coordinates the susceptance of a charge mode vanishes -/
theorem final_l_charge {lib : NumLib n} {sv : SvdFn} {argsort : ArgsortFn}
    {argmax : ArgmaxFn nJ} {draws : Draws} {numJ : ℕ}
    {C L : Matrix (Fin n) (Fin n) ℝ} (hC : C.PosDef) (hL : L.IsHermitian)
    {W : Matrix (Fin nJ) (Fin n) ℝ} (hlib : LibSpec lib C L) {fuel : ℕ} {t : Trans nJ n}
    (h : transformHamil lib sv argsort argmax draws numJ C L W fuel (initTrans C L W) =
      some (.ok t)) (j : Fin n) (hj : t.omega j = 0) : ∀ i, t.l i j = 0 := by
  obtain ⟨tb, rfl, hcase⟩ := transformHamil_ok h
  have hj' : tb.omega j = 0 := hj
  have key : ∀ i, tb.l i j = 0 := by
    have hl0 := afterT1_l hC hL hlib W
    have ho0 := afterT1_omega_zero_iff hC hL hlib W
    rcases hcase with ⟨-, ht2⟩ | ⟨-, rfl⟩
    · obtain ⟨s, r, -, -, -, hs, rfl⟩ := t2_ok ht2
      have hoj : (afterT1 lib C L W).omega j = 0 := hj'
      intro i
      change (sᵀ * (afterT1 lib C L W).l * s) i j = 0
      rw [hl0, Matrix.mul_assoc, mul_apply]
      apply Finset.sum_eq_zero
      intro a _
      rw [diagonal_mul]
      by_cases ha : singStart lib C L ≤ (a : ℕ)
      · rw [if_pos ha]; ring
      · have hsj := (ho0 j).1 hoj
        have : s a j = 0 := by
          rcases hs with rfl | ⟨F, rfl⟩
          · rw [one_apply_ne]; intro he; subst he; exact ha hsj
          · have hm : ∀ j, (afterT1 lib C L W).omega j = 0 ↔ min (singStart lib C L) n ≤ (j : ℕ) := by
              intro j; rw [ho0 j]; have := j.isLt; omega
            have hlen := chargeCols_len (Nat.min_le_right _ _) hm
            have ha' : ¬ (n - (chargeCols (afterT1 lib C L W).omega).length ≤ (a : ℕ)) := by
              have := a.isLt
              omega
            change (if h : _ then _ else _) = (0 : ℝ)
            rw [dif_neg (fun hh => ha' hh.1), if_neg (by intro he; subst he; exact ha hsj)]
        rw [this]; ring
    · intro i
      rw [hl0, diagonal_apply]
      split
      · rename_i hij; subst hij; rw [if_pos ((ho0 i).1 hj')]
      · rfl
  intro i
  rw [t3_l, key i]; ring

end SQ
