import Verif.Props.Flux3
import Verif.Props.FluxPeriod
import Mathlib.LinearAlgebra.Matrix.Determinant.Basic
import Mathlib.LinearAlgebra.Matrix.ToLinearEquiv

/-!
# Determinants of incidence matrices
-/

namespace SQ
open SQ.Spec Matrix

/-- entries of an incidence matrix, rows labelled by `f`: ±1 where branch `j` starts and ∓1 where it ends -/
theorem net_det : ∀ (k : ℕ) (f : Fin k → ℕ), Function.Injective f → ∀ (t : Fin k → ℝ), (∀ j, t j = 1 ∨ t j = -1) →
    ∀ (p q : Fin k → ℕ) (M : Matrix (Fin k) (Fin k) ℝ),
    (∀ i j, M i j = t j * ((if f i = p j then 1 else 0) - if f i = q j then 1 else 0)) →
    M.det = 0 ∨ M.det = 1 ∨ M.det = -1
  | 0, _, _, _, _, _, _, M, _ => by right; left; exact det_isEmpty
  | k + 1, f, hf, t, ht, p, q, M, hM => by
    by_cases hall : ∀ j, (∃ i, f i = p j) ∧ ∃ i, f i = q j
    · left
      refine exists_vecMul_eq_zero_iff.1 ⟨fun _ => 1, fun h => one_ne_zero (congrFun h 0), ?_⟩
      funext j
      obtain ⟨⟨a, ha⟩, b, hb⟩ := hall j
      have e1 : ∀ (r : ℕ) (a : Fin (k + 1)), f a = r → ∑ i, (if f i = r then (1 : ℝ) else 0) = 1 := by
        intro r a ha
        rw [Finset.sum_eq_single a]
        · rw [if_pos ha]
        · intro i _ hi
          rw [if_neg fun h => hi (hf (h.trans ha.symm))]
        · simp
      simp only [vecMul, dotProduct, one_mul, hM, Pi.zero_apply]
      rw [← Finset.mul_sum, Finset.sum_sub_distrib, e1 _ a ha, e1 _ b hb, sub_self, mul_zero]
    · push Not at hall
      obtain ⟨j, hj⟩ := hall
      have hcol : ∃ (r : ℕ) (c : ℝ), (c = 1 ∨ c = -1) ∧ ∀ i, M i j = c * if f i = r then 1 else 0 := by
        by_cases h : ∃ i, f i = p j
        · refine ⟨p j, t j, ht j, fun i => ?_⟩
          rw [hM, if_neg (hj h i), sub_zero]
        · push Not at h
          refine ⟨q j, - t j, ?_, fun i => ?_⟩
          · rcases ht j with h | h <;> rw [h] <;> simp
          · rw [hM, if_neg (h i)]; ring
      obtain ⟨r, c, hc, hcol⟩ := hcol
      by_cases hr : ∃ i, f i = r
      · obtain ⟨i0, hi0⟩ := hr
        rw [det_succ_column M j, Finset.sum_eq_single i0]
        · have ih := net_det k (f ∘ i0.succAbove) (hf.comp Fin.succAbove_right_injective) (t ∘ j.succAbove)
            (fun x => ht _) (p ∘ j.succAbove) (q ∘ j.succAbove) (M.submatrix i0.succAbove j.succAbove)
            (fun a b => by rw [submatrix_apply, hM]; rfl)
          rw [hcol, if_pos hi0]
          rcases neg_one_pow_eq_or ℝ (i0 + j : ℕ) with h | h <;> rcases hc with hc | hc <;> rcases ih with ih | ih | ih <;>
            rw [h, hc, ih] <;> norm_num
        · intro i _ hi
          rw [hcol, if_neg fun h => hi (hf (h.trans hi0.symm))]; simp
        · simp
      · push Not at hr
        left
        refine det_eq_zero_of_column_eq_zero j fun i => ?_
        rw [hcol, if_neg (hr i), mul_zero]

/-- an incidence vector is, up to sign, the difference of two units -/
theorem inc_net (e : Edge) (he : e.1 ≠ e.2) : ∃ (t : ℝ) (p q : ℕ), (t = 1 ∨ t = -1) ∧
    ∀ k : ℕ, (incidence e (k + 1) : ℝ) = t * ((if k + 1 = p then 1 else 0) - if k + 1 = q then 1 else 0) := by
  refine ⟨if e.1 = 0 then -1 else 1, e.1, e.2, by split <;> simp, fun k => ?_⟩
  unfold incidence
  by_cases h1 : e.1 = 0
  · simp only [h1, if_true]
    by_cases h : k + 1 = e.2
    · have : ¬ e.2 = 0 := by omega
      simp [h, this]
    · simp [h]
  · by_cases h2 : e.2 = 0
    · simp only [h1, h2, if_true, if_false]
      by_cases h : k + 1 = e.1
      · simp [h, h1]
      · simp [h]
    · simp only [h1, h2, if_false]
      by_cases h : k + 1 = e.1
      · simp [h, he]
      · by_cases h' : k + 1 = e.2
        · simp [h', Ne.symm he]
        · simp [h, h']

/-- A unit row above an incidence matrix: the determinant is 0 or ±1. -/
theorem unit_net_det {k : ℕ} (A : Matrix (Fin (k + 1)) (Fin (k + 1)) ℝ) (b : Fin (k + 1)) (h0 : A 0 = Pi.single b 1)
    (f : Fin k → ℕ) (hf : Function.Injective f) (t : Fin (k + 1) → ℝ) (ht : ∀ j, t j = 1 ∨ t j = -1) (p q : Fin (k + 1) → ℕ)
    (hA : ∀ i j, A (Fin.succ i) j = t j * ((if f i = p j then 1 else 0) - if f i = q j then 1 else 0)) :
    A.det = 0 ∨ A.det = 1 ∨ A.det = -1 := by
  rw [det_succ_row_zero, Finset.sum_eq_single b]
  · have ih := net_det k f hf (t ∘ b.succAbove) (fun _ => ht _) (p ∘ b.succAbove) (q ∘ b.succAbove)
      (A.submatrix Fin.succ b.succAbove) (fun i j => by rw [submatrix_apply, hA]; rfl)
    rw [h0, Pi.single_eq_same]
    rcases neg_one_pow_eq_or ℝ (b : ℕ) with h | h <;> rcases ih with ih | ih | ih <;> rw [h, ih] <;> norm_num
  · intro j _ hj
    rw [h0, Pi.single_eq_of_ne hj]; simp
  · simp

/-- the solution of `A x = e_0` has entries 0 and ±1 -/
theorem unit_net_solution {k : ℕ} (A : Matrix (Fin (k + 1)) (Fin (k + 1)) ℝ) (h0 : A 0 = Pi.single 0 1)
    (f : Fin k → ℕ) (hf : Function.Injective f) (t : Fin (k + 1) → ℝ) (ht : ∀ j, t j = 1 ∨ t j = -1) (p q : Fin (k + 1) → ℕ)
    (hA : ∀ i j, A (Fin.succ i) j = t j * ((if f i = p j then 1 else 0) - if f i = q j then 1 else 0)) (hd : A.det ≠ 0)
    (b : Fin (k + 1)) : (A⁻¹ *ᵥ Pi.single 0 1) b = 0 ∨ (A⁻¹ *ᵥ Pi.single 0 1) b = 1 ∨ (A⁻¹ *ᵥ Pi.single 0 1) b = -1 := by
  have h1 := unit_net_det A 0 h0 f hf t ht p q hA
  have h2 := unit_net_det (A.updateRow 0 (Pi.single b 1)) b (by rw [updateRow_self]) f hf t ht p q
    (fun i j => by rw [updateRow_ne (Fin.succ_ne_zero i)]; exact hA i j)
  rw [mulVec_single_one, col_apply, inv_def, Matrix.smul_apply, adjugate_apply, smul_eq_mul, Ring.inverse_eq_inv']
  rcases h1 with h1 | h1 | h1
  · exact absurd h1 hd
  all_goals rcases h2 with h2 | h2 | h2 <;> rw [h1, h2] <;> norm_num

theorem unit_net_solution' {N : ℕ} (A : Matrix (Fin N) (Fin N) ℝ) (hN : 0 < N) (h0 : A ⟨0, hN⟩ = unitRow N)
    (f : ℕ → ℕ) (hf : ∀ i j, i + 1 < N → j + 1 < N → f i = f j → i = j) (t : Fin N → ℝ) (ht : ∀ j, t j = 1 ∨ t j = -1)
    (p q : Fin N → ℕ)
    (hA : ∀ i (hi : i + 1 < N) j, A ⟨i + 1, hi⟩ j = t j * ((if f i = p j then 1 else 0) - if f i = q j then 1 else 0))
    (hd : A.det ≠ 0) (b : Fin N) :
    (A⁻¹ *ᵥ unitRow N) b = 0 ∨ (A⁻¹ *ᵥ unitRow N) b = 1 ∨ (A⁻¹ *ᵥ unitRow N) b = -1 := by
  cases N with
  | zero => exact absurd hN (lt_irrefl _)
  | succ k =>
    have hu : unitRow (k + 1) = Pi.single 0 1 := by
      funext i
      unfold unitRow
      by_cases h : i = 0
      · subst h; simp
      · rw [Pi.single_eq_of_ne h, if_neg (show ¬ (i : ℕ) = 0 from fun h' => h (Fin.ext h'))]
    rw [hu] at h0 ⊢
    exact unit_net_solution A h0 (fun i => f i) (fun i j h => Fin.ext (hf i j (by omega) (by omega) h)) t ht p q
      (fun i j => hA i (by omega) j) hd b

/-- the loop vector of a loop counts every branch at most once -/
theorem getG_signs {sv : SvdFn} (hsv : SvdSpec sv) {n : ℕ} {kMat : List (List ℤ)} {g : Fin kMat.length → ℝ}
    (hg : getG sv n kMat = .ok g) (hk : ∀ w ∈ kMat, ∃ e : Edge, e.1 ≠ e.2 ∧ w = incVec n e) (b : Fin kMat.length) :
    g b = 0 ∨ g b = 1 ∨ g b = -1 := by
  obtain ⟨h0, A, hA, hd, rfl⟩ := getG_ok hg
  obtain ⟨hl, hrow⟩ := squareOf_ok hA
  have hk' : ∀ j : Fin kMat.length, ∃ e : Edge, e.1 ≠ e.2 ∧ kMat.get j = incVec n e := fun j => hk _ (List.get_mem _ _)
  choose e he1 he2 using hk'
  choose t p q ht hinc using fun j => inc_net (e j) (he1 j)
  have hnd : (keptCols sv (arrayOf n kMat)).Nodup :=
    (C24_partial sv hsv (arrayOf n kMat)).1.nodup (List.nodup_finRange n)
  have hlen : (keptCols sv (arrayOf n kMat)).length + 1 = kMat.length := by simpa using hl
  refine unit_net_solution' A (Nat.pos_of_ne_zero h0) ?_
    (fun i => if h : i < (keptCols sv (arrayOf n kMat)).length then ((keptCols sv (arrayOf n kMat))[i] : ℕ) + 1 else 0) ?_ t ht p q ?_ hd b
  · exact hrow ⟨0, by simp⟩
  · intro i j hi hj h
    have hi' : i < (keptCols sv (arrayOf n kMat)).length := by omega
    have hj' : j < (keptCols sv (arrayOf n kMat)).length := by omega
    simp only [dif_pos hi', dif_pos hj'] at h
    exact (List.Nodup.getElem_inj_iff hnd).1 (Fin.ext (by omega))
  · intro i hi j
    have hi' : i < (keptCols sv (arrayOf n kMat)).length := by omega
    have := congrFun (hrow ⟨i + 1, by simp; omega⟩) j
    simp only [dif_pos hi', ← hinc]
    refine this.trans ?_
    simp only [List.get_eq_getElem, List.getElem_cons_succ, List.getElem_map]
    have h1 := nodeEntry_inc (n := n) (e j) (keptCols sv (arrayOf n kMat))[i].2
    rw [← he2] at h1
    exact h1

/-- the sum over all branches of something supported on a loop is the sum over the loop -/
theorem sum_on {b : ℕ} {is : List ℕ} (hn : is.Nodup) (hb : ∀ i ∈ is, i < b) (g : Fin b → ℝ)
    (hg : ∀ i : Fin b, (i : ℕ) ∉ is → g i = 0) :
    ∑ i, g i = ∑ p : Fin is.length, g ⟨is.get p, hb _ (List.get_mem _ _)⟩ := by
  symm
  apply Fintype.sum_of_injective (fun p : Fin is.length => (⟨is.get p, hb _ (List.get_mem _ _)⟩ : Fin b))
  · intro p q hpq
    simp only [Fin.mk.injEq] at hpq
    exact (List.nodup_iff_injective_get.1 hn) hpq
  · intro i hi
    refine hg i fun hm => hi ?_
    obtain ⟨p, hp⟩ := List.get_of_mem hm
    exact ⟨p, Fin.ext hp⟩
  · intro p; rfl

/-- the flux distribution with loop vectors of entries 0 and ±1, which are the only loop vectors -/
theorem flux_distribution_signs (sv : SvdFn) (hsv : SvdSpec sv) (n : ℕ) (kMat : List (List ℤ))
    (cEdge : List ℝ) (loops : List LoopObj) (hcon : LoopsConsistent kMat loops) (B)
    (h : fluxMatrix sv n kMat cEdge loops = .ok (some B))
    (hk : ∀ w ∈ kMat, ∃ e : Edge, e.1 ≠ e.2 ∧ w = incVec n e) :
    ∃ (G : Fin loops.length → Fin kMat.length → ℝ)
      (B0 : Matrix (Fin kMat.length) (Fin loops.length) ℝ),
      (∀ l b, G l b = 0 ∨ G l b = 1 ∨ G l b = -1) ∧
      (∀ l g, IsLoopVector n kMat (loops.get l).indices g → g = G l) ∧
      (∀ l, IsLoopVector n kMat (loops.get l).indices (G l)) ∧
      (∀ l, ∃ b : Fin kMat.length, (loops.get l).indices.head? = some (b : ℕ)) ∧
      (∀ l l', ∑ b, G l b * B0 b l' = if l = l' then 1 else 0) ∧
      (∀ j, j < n → ∀ l', ∑ b, nodeEntry (kMat.get b) j * cEdge.getD b 0 * B0 b l' = 0) ∧
      (∀ B1 : Matrix (Fin kMat.length) (Fin loops.length) ℝ,
        (∀ l l', ∑ b, G l b * B1 b l' = if l = l' then 1 else 0) →
        (∀ j, j < n → ∀ l', ∑ b, nodeEntry (kMat.get b) j * cEdge.getD b 0 * B1 b l' = 0) →
        B1 = B0) ∧
      (∀ b l, B b l = round5 (B0 b l)) := by
  obtain ⟨G, B0, ⟨gRows, hr, hG⟩, -, h1, h2, h3, h4, h5, -⟩ := flux_distribution_rows sv hsv n kMat cEdge loops hcon B h
  obtain ⟨hgl, hrow⟩ := loopRows_ok hr
  have hmain : ∀ l : Fin loops.length, ∃ g, getG sv n (loops.get l).kMat = .ok g ∧
      scatter kMat.length (loops.get l).indices (List.ofFn g) = .ok (G l) := by
    intro l
    obtain ⟨g, hg1, hg2⟩ := hrow l l.2
    refine ⟨g, hg1, ?_⟩
    have := hG l
    rw [List.getElem?_eq_getElem (by omega)] at this
    rw [← Option.some.inj this]
    exact hg2
  have hkm : ∀ l : Fin loops.length, ∀ w ∈ (loops.get l).kMat, ∃ e : Edge, e.1 ≠ e.2 ∧ w = incVec n e := by
    intro l w hw
    obtain ⟨-, hil, hws⟩ := hcon _ (List.get_mem loops l)
    obtain ⟨p, hp, rfl⟩ := List.getElem_of_mem hw
    have := hws p (by omega)
    rw [List.getElem?_eq_getElem hp] at this
    exact hk _ (List.mem_of_getElem? this)
  refine ⟨G, B0, ?_, ?_, h1, ?_, h2, h3, h4, h5⟩
  · intro l b
    obtain ⟨g, hg1, hg2⟩ := hmain l
    obtain ⟨hnd, hil, -⟩ := hcon _ (List.get_mem loops l)
    obtain ⟨s1, s2, s3⟩ := scatter_ok hg2 hnd (by rw [List.length_ofFn, hil])
    by_cases hb : (b : ℕ) ∈ (loops.get l).indices
    · obtain ⟨p, hp, hpb⟩ := List.getElem_of_mem hb
      have := s2 p hp (by rw [hpb]; exact b.2)
      have e : (⟨(loops.get l).indices[p], by rw [hpb]; exact b.2⟩ : Fin kMat.length) = b := Fin.ext hpb
      rw [e, List.getElem_ofFn] at this
      rw [this]
      exact getG_signs hsv hg1 (hkm l) _
    · left; exact s3 b hb
  · intro l g2 hg
    obtain ⟨g, hg1, hg2⟩ := hmain l
    obtain ⟨hnd, hil, hws⟩ := hcon _ (List.get_mem loops l)
    obtain ⟨s1, s2, s3⟩ := scatter_ok hg2 hnd (by rw [List.length_ofFn, hil])
    obtain ⟨hp0, u1, u2, u3⟩ := C21_loop_vector sv hsv n _ g hg1
    have hres := u3 (fun p => g2 ⟨(loops.get l).indices[(p : ℕ)]'(by omega), s1 _ (List.getElem_mem _)⟩) ?_ ?_
    · funext b
      by_cases hb : (b : ℕ) ∈ (loops.get l).indices
      · obtain ⟨p, hp, hpb⟩ := List.getElem_of_mem hb
        have h' := s2 p hp (by rw [hpb]; exact b.2)
        have e : (⟨(loops.get l).indices[p], by rw [hpb]; exact b.2⟩ : Fin kMat.length) = b := Fin.ext hpb
        rw [e, List.getElem_ofFn] at h'
        rw [h', ← congrFun hres ⟨p, by omega⟩]
        exact congrArg g2 e.symm
      · rw [s3 b hb, hg.support b hb]
    · refine hg.first _ ?_
      have hi0 : 0 < (loops.get l).indices.length := by omega
      rw [List.head?_eq_getElem?, List.getElem?_eq_getElem hi0]
    · intro j hj
      rw [← hg.closes j hj, sum_on hnd s1 (fun b => g2 b * nodeEntry (kMat.get b) j)
        (fun i hi => by rw [hg.support i hi, zero_mul])]
      symm
      refine Fintype.sum_equiv (finCongr hil) _ _ fun p => ?_
      have hw := hws p p.2
      have hlt : (loops.get l).indices[(p : ℕ)] < kMat.length := s1 _ (List.getElem_mem _)
      rw [List.getElem?_eq_getElem hlt, List.getElem?_eq_getElem (by omega)] at hw
      have hw' := Option.some.inj hw
      simp only [List.get_eq_getElem] at hw'
      simp only [finCongr_apply, List.get_eq_getElem, Fin.val_cast]
      rw [hw']
  · intro l
    obtain ⟨g, hg1, hg2⟩ := hmain l
    obtain ⟨hnd, hil, hws⟩ := hcon _ (List.get_mem loops l)
    obtain ⟨s1, s2, s3⟩ := scatter_ok hg2 hnd (by rw [List.length_ofFn, hil])
    obtain ⟨hp0, -⟩ := C21_loop_vector sv hsv n _ g hg1
    have hi0 : 0 < (loops.get l).indices.length := by omega
    refine ⟨⟨(loops.get l).indices[0], s1 _ (List.getElem_mem _)⟩, ?_⟩
    rw [List.head?_eq_getElem?, List.getElem?_eq_getElem hi0]

end SQ
