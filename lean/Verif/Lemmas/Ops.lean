import Verif.Model.Ops
import Verif.Lemmas.Coupling
import Verif.Lemmas.Elements

/-!
# Lemmas on tensor products and stored operators
-/

namespace SQ
open Matrix Complex

variable {nJ k : ℕ}

theorem foldl_finRange {σ : Type*} (f : σ → Fin k → σ) (s0 : σ) (P : ℕ → σ → Prop) (h0 : P 0 s0)
    (hs : ∀ (j : Fin k) s, P j s → P (j + 1) (f s j)) : P k ((List.finRange k).foldl f s0) := by
  have gen : ∀ p, p ≤ k → P p (((List.finRange k).take p).foldl f s0) := by
    intro p
    induction p with
    | zero => intro _; simpa using h0
    | succ p ih =>
      intro hp
      have hlt : p < (List.finRange k).length := by simp; omega
      rw [List.take_succ_eq_append_getElem hlt, List.foldl_append]
      have hg : (List.finRange k)[p] = ⟨p, by omega⟩ := by simp
      rw [hg]
      exact hs ⟨p, by omega⟩ _ (ih (by omega))
  have := gen k le_rfl
  rwa [List.take_of_length_le (by simp)] at this

/-! ### tensor products -/

theorem tens_mul {m : Fin k → ℕ} (A B : Factors m) :
    tens A * tens B = tens (fun i => A i * B i) := by
  ext x y
  simp only [mul_apply, tens, of_apply]
  rw [Finset.prod_univ_sum, Fintype.piFinset_univ]
  apply Finset.sum_congr rfl
  intro z _
  rw [← Finset.prod_mul_distrib]

theorem tens_one {m : Fin k → ℕ} : tens (fun i => (1 : Matrix (Fin (m i)) (Fin (m i)) ℂ)) = 1 := by
  ext x y
  simp only [tens, of_apply, one_apply]
  by_cases h : x = y
  · subst h; simp
  · rw [if_neg h]
    obtain ⟨i, hi⟩ := Function.ne_iff.1 h
    exact Finset.prod_eq_zero (Finset.mem_univ i) (if_neg hi)

theorem tens_conjTranspose {m : Fin k → ℕ} (A : Factors m) :
    (tens A)ᴴ = tens (fun i => (A i)ᴴ) := by
  ext x y
  simp only [conjTranspose_apply, tens, of_apply]
  exact map_prod (starRingEnd ℂ) _ _

theorem tens_update {m : Fin k → ℕ} (A : Factors m) (i : Fin k)
    (B : Matrix (Fin (m i)) (Fin (m i)) ℂ) (x y : Idx m) :
    tens (Function.update A i B) x y =
      B (x i) (y i) * ∏ j ∈ Finset.univ.erase i, A j (x j) (y j) := by
  simp only [tens, of_apply]
  rw [← Finset.mul_prod_erase _ _ (Finset.mem_univ i), Function.update_self]
  congr 1
  apply Finset.prod_congr rfl
  intro j hj
  rw [Function.update_of_ne (Finset.ne_of_mem_erase hj)]

theorem tens_update_smul {m : Fin k → ℕ} (A : Factors m) (i : Fin k) (c : ℂ)
    (B : Matrix (Fin (m i)) (Fin (m i)) ℂ) :
    tens (Function.update A i (c • B)) = c • tens (Function.update A i B) := by
  ext x y
  rw [Matrix.smul_apply, tens_update, tens_update, Matrix.smul_apply, smul_eq_mul, smul_eq_mul, mul_assoc]

theorem tens_update_sub {m : Fin k → ℕ} (A : Factors m) (i : Fin k)
    (B B' : Matrix (Fin (m i)) (Fin (m i)) ℂ) :
    tens (Function.update A i (B - B')) =
      tens (Function.update A i B) - tens (Function.update A i B') := by
  ext x y
  rw [Matrix.sub_apply, tens_update, tens_update, tens_update, Matrix.sub_apply, sub_mul]

/-- operator acting on one mode only -/
def single (m : Fin k → ℕ) (i : Fin k) (B : Matrix (Fin (m i)) (Fin (m i)) ℂ) : Op m :=
  tens (Function.update (fun _ => 1) i B)

theorem single_mul_self {m : Fin k → ℕ} (i : Fin k) (A B : Matrix (Fin (m i)) (Fin (m i)) ℂ) :
    single m i A * single m i B = single m i (A * B) := by
  unfold single
  rw [tens_mul]
  congr 1
  funext j
  by_cases h : j = i
  · subst h; simp
  · simp [Function.update_of_ne h]

theorem single_mul {m : Fin k → ℕ} {i j : Fin k} (hij : i ≠ j)
    (A : Matrix (Fin (m i)) (Fin (m i)) ℂ) (B : Matrix (Fin (m j)) (Fin (m j)) ℂ) :
    single m i A * single m j B =
      tens (Function.update (Function.update (fun _ => 1) i A) j B) := by
  unfold single
  rw [tens_mul]
  congr 1
  funext l
  by_cases h : l = j
  · subst h; rw [Function.update_of_ne hij.symm]; simp
  · rw [Function.update_of_ne h, Function.update_of_ne h, mul_one]

theorem single_comm {m : Fin k → ℕ} {i j : Fin k} (hij : i ≠ j)
    (A : Matrix (Fin (m i)) (Fin (m i)) ℂ) (B : Matrix (Fin (m j)) (Fin (m j)) ℂ) :
    single m i A * single m j B = single m j B * single m i A := by
  rw [single_mul hij, single_mul hij.symm, Function.update_comm hij]

theorem single_conjTranspose {m : Fin k → ℕ} (i : Fin k) (A : Matrix (Fin (m i)) (Fin (m i)) ℂ) :
    (single m i A)ᴴ = single m i Aᴴ := by
  unfold single
  rw [tens_conjTranspose]
  congr 1
  funext j
  by_cases h : j = i
  · subst h; simp
  · simp [Function.update_of_ne h]

theorem single_one {m : Fin k → ℕ} (i : Fin k) : single m i 1 = 1 := by
  unfold single
  rw [Function.update_eq_self_iff.2 rfl, tens_one]

/-! ### one-mode operators -/

theorem qCharge_herm (N : ℕ) : (qCharge N)ᴴ = qCharge N := by
  unfold qCharge
  rw [diagonal_conjTranspose]
  congr 1
  funext i
  rw [Pi.star_apply]
  have : ((i : ℂ) - ((N : ℂ) - 1) / 2) = (((i : ℝ) - ((N : ℝ) - 1) / 2 : ℝ) : ℂ) := by
    push_cast; rfl
  rw [this]
  exact Complex.conj_ofReal _

theorem qNum_herm (N : ℕ) : (qNum N)ᴴ = qNum N := by
  unfold qNum
  rw [diagonal_conjTranspose]
  congr 1
  funext i
  rw [Pi.star_apply]
  exact Complex.conj_natCast _

theorem chargeOpIso_herm (D : ModeData nJ k) (m : Fin k → ℕ) (ng : Fin k → ℝ) (i : Fin k) :
    (chargeOpIso D m ng i)ᴴ = chargeOpIso D m ng i := by
  unfold chargeOpIso
  split
  · rw [conjTranspose_smul, conjTranspose_sub, conjTranspose_smul, qCharge_herm, conjTranspose_one]
    simp only [RCLike.star_def, Complex.conj_ofReal]
  · split
    · simp
    · rw [conjTranspose_smul, conjTranspose_sub]
      unfold qCreate
      rw [conjTranspose_conjTranspose]
      have : star (-I * ((√(0.5 / D.impedance i) : ℝ) : ℂ)) =
          -(-I * ((√(0.5 / D.impedance i) : ℝ) : ℂ)) := by
        simp only [RCLike.star_def, map_mul, map_neg, Complex.conj_I, Complex.conj_ofReal]
        ring
      rw [this, neg_smul, ← smul_neg, neg_sub]

theorem fluxOpIso_herm (D : ModeData nJ k) (m : Fin k → ℕ) (i : Fin k) :
    (fluxOpIso D m i)ᴴ = fluxOpIso D m i := by
  unfold fluxOpIso
  split
  · simp
  · split
    · simp
    · rw [conjTranspose_smul, conjTranspose_add]
      unfold qCreate
      rw [conjTranspose_conjTranspose]
      simp only [RCLike.star_def, Complex.conj_ofReal]
      rw [add_comm]

theorem numOpIso_herm (D : ModeData nJ k) (m : Fin k → ℕ) (i : Fin k) :
    (numOpIso D m i)ᴴ = numOpIso D m i := by
  unfold numOpIso
  split
  · exact qCharge_herm _
  · exact qNum_herm _

theorem dOp_conjTranspose (N : ℕ) (w : ℝ) : (dOp N w)ᴴ = dOp N (-w) := by
  unfold dOp
  by_cases h : w = 0
  · simp [h]
  · have h' : -w ≠ 0 := neg_ne_zero.2 h
    simp only [h, h', if_false]
    rcases lt_or_gt_of_ne h with hw | hw
    · rw [if_pos hw, if_neg (by linarith)]
    · rw [if_neg (by linarith), if_pos (by linarith), conjTranspose_conjTranspose]

theorem qDisplace_conjTranspose (N : ℕ) (a : ℂ) : (qDisplace N a)ᴴ = qDisplace N (-a) := by
  unfold qDisplace
  rw [← Matrix.exp_conjTranspose, conjTranspose_sub, conjTranspose_smul, conjTranspose_smul]
  unfold qCreate
  rw [conjTranspose_conjTranspose]
  congr 1
  simp only [RCLike.star_def, Complex.conj_conj, map_neg, neg_smul]
  abel

theorem qDisplace_zero (N : ℕ) : qDisplace N 0 = 1 := by
  unfold qDisplace
  simp

theorem qDisplace_mul_neg (N : ℕ) (a : ℂ) : qDisplace N a * qDisplace N (-a) = 1 := by
  unfold qDisplace
  rw [← Matrix.exp_add_of_commute]
  · simp
  · rw [map_neg, neg_smul, neg_smul, neg_sub_neg, ← neg_sub]
    exact (Commute.refl ((starRingEnd ℂ a) • qDestroy N - a • qCreate N)).neg_left

/-! ### the stored operators in closed form -/

/-- factors of the product of the charge operators of modes `i ≤ j` -/
noncomputable def pairOp (D : ModeData nJ k) (m : Fin k → ℕ) (ng : Fin k → ℝ) (i j : Fin k) : Op m :=
  single m i (chargeOpIso D m ng i) * single m j (chargeOpIso D m ng j)

theorem memRow_inv (D : ModeData nJ k) (m : Fin k → ℕ) (ng : Fin k → ℝ) (i : Fin k) :
    (memRow D m ng i).q = Function.update (fun _ => 1) i (chargeOpIso D m ng i) ∧
    (memRow D m ng i).num = Function.update (fun _ => 1) i (numOpIso D m i) ∧
    (memRow D m ng i).flux = Function.update (fun _ => 1) i (fluxOpIso D m i) ∧
    (memRow D m ng i).row.length = k - i ∧
    (∀ d, (h : (i : ℕ) + d < k) → (memRow D m ng i).row[d]? = some (pairOp D m ng i ⟨i + d, h⟩)) := by
  have key := foldl_finRange (rowStep D m ng i) ⟨fun _ => 1, fun _ => 1, fun _ => 1, []⟩
    (fun p st =>
      st.q = (if (i : ℕ) < p then Function.update (fun _ => 1) i (chargeOpIso D m ng i)
        else fun _ => 1) ∧
      st.num = (if (i : ℕ) < p then Function.update (fun _ => 1) i (numOpIso D m i)
        else fun _ => 1) ∧
      st.flux = (if (i : ℕ) < p then Function.update (fun _ => 1) i (fluxOpIso D m i)
        else fun _ => 1) ∧
      st.row.length = p - i ∧
      (∀ d, (h : (i : ℕ) + d < k) → (i : ℕ) + d < p →
        st.row[d]? = some (pairOp D m ng i ⟨i + d, h⟩)))
    (by simp) ?_
  · have hi := i.isLt
    simp only [hi, if_true] at key
    exact ⟨key.1, key.2.1, key.2.2.1, key.2.2.2.1, fun d h => key.2.2.2.2 d h h⟩
  · intro j st ⟨hq, hn, hf, hl, hr⟩
    have upd1 : ∀ {A : Factors m} (_ : A j = 1), Function.update A j 1 = A :=
      fun h => Function.update_eq_self_iff.2 h.symm
    unfold rowStep
    by_cases hij : i = j
    · subst hij
      simp only [if_true, lt_irrefl, if_false] at hq hn hf ⊢
      have hl0 : st.row = [] := by
        apply List.eq_nil_of_length_eq_zero; omega
      refine ⟨?_, ?_, ?_, ?_, ?_⟩
      · rw [if_pos (Nat.lt_succ_self _), hq]
      · rw [if_pos (Nat.lt_succ_self _), hn]
      · rw [if_pos (Nat.lt_succ_self _), hf]
      · rw [hl0]; simp
      · intro d h hd
        have : d = 0 := by omega
        subst this
        rw [hl0, hq]
        simp only [List.nil_append, List.getElem?_cons_zero, Option.some.injEq]
        unfold pairOp
        exact (single_mul_self i _ _).symm
    · simp only [hij, if_false]
      have hne : (i : ℕ) ≠ j := fun e => hij (Fin.ext e)
      have e1 : ((i : ℕ) < (j : ℕ) + 1) ↔ (i : ℕ) < j := by omega
      have hqj : st.q j = 1 := by
        rw [hq]; split
        · rw [Function.update_of_ne (Ne.symm hij)]
        · rfl
      have hnj : st.num j = 1 := by
        rw [hn]; split
        · rw [Function.update_of_ne (Ne.symm hij)]
        · rfl
      have hfj : st.flux j = 1 := by
        rw [hf]; split
        · rw [Function.update_of_ne (Ne.symm hij)]
        · rfl
      simp only [e1]
      refine ⟨by rw [upd1 hqj, hq], by rw [upd1 hnj, hn], by rw [upd1 hfj, hf], ?_, ?_⟩
      · by_cases hlt : i < j
        · rw [if_pos hlt]
          have : (i : ℕ) < j := hlt
          simp [hl]; omega
        · rw [if_neg hlt, hl]
          have : ¬ (i : ℕ) < j := hlt
          omega
      · intro d h hd
        by_cases hlt : i < j
        · have hlt' : (i : ℕ) < j := hlt
          rw [if_pos hlt]
          by_cases hdj : (i : ℕ) + d < j
          · rw [List.getElem?_append_left (by omega)]
            exact hr d h hdj
          · have hd2 : d = j - i := by omega
            subst hd2
            rw [List.getElem?_append_right (by omega), hl, Nat.sub_self]
            simp only [List.getElem?_cons_zero, Option.some.injEq]
            have hj : (⟨(i : ℕ) + (j - i), h⟩ : Fin k) = j := Fin.ext (by simp; omega)
            rw [hj, hq, if_pos hlt']
            unfold pairOp
            rw [single_mul hij]
        · have hlt' : ¬ (i : ℕ) < j := hlt
          omega

theorem buildMem_Q (D : ModeData nJ k) (m : Fin k → ℕ) (ng : Fin k → ℝ) (i : Fin k) :
    (buildMem D m ng).Q i = single m i (chargeOpIso D m ng i) := by
  change tens (memRow D m ng i).q = _
  rw [(memRow_inv D m ng i).1]; rfl

theorem buildMem_phi (D : ModeData nJ k) (m : Fin k → ℕ) (ng : Fin k → ℝ) (i : Fin k) :
    (buildMem D m ng).phi i = single m i (fluxOpIso D m i) := by
  change tens (memRow D m ng i).flux = _
  rw [(memRow_inv D m ng i).2.2.1]; rfl

theorem buildMem_N (D : ModeData nJ k) (m : Fin k → ℕ) (ng : Fin k → ℝ) (i : Fin k) :
    (buildMem D m ng).N i = single m i (numOpIso D m i) := by
  change tens (memRow D m ng i).num = _
  rw [(memRow_inv D m ng i).2.1]; rfl

theorem buildMem_QQ (D : ModeData nJ k) (m : Fin k → ℕ) (ng : Fin k → ℝ) (i : Fin k) (d : ℕ)
    (h : (i : ℕ) + d < k) :
    ((buildMem D m ng).QQ i)[d]? =
      some ((buildMem D m ng).Q i * (buildMem D m ng).Q ⟨i + d, h⟩) := by
  rw [buildMem_Q, buildMem_Q]
  exact (memRow_inv D m ng i).2.2.2.2 d h

end SQ
