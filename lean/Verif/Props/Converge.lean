import Verif.Model.Sweep
import Verif.Spec.Phase

/-! # Property C71: convergence test -/

namespace SQ
open Spec

theorem mem_gridIndices (ds : List ℕ) (l : List ℕ) : l ∈ gridIndices ds ↔ List.Forall₂ (· < ·) l ds := by
  induction ds generalizing l with
  | nil => cases l <;> simp [gridIndices]
  | cons d ds ih =>
    simp only [gridIndices, List.mem_flatMap, List.mem_range, List.mem_map]
    constructor
    · rintro ⟨i, hi, r, hr, rfl⟩
      exact .cons hi ((ih r).1 hr)
    · intro h
      cases h with
      | cons hi hr => exact ⟨_, hi, _, (ih _).2 hr, rfl⟩

theorem gridIndices_nodup (ds : List ℕ) : (gridIndices ds).Nodup := by
  induction ds with
  | nil => simp [gridIndices]
  | cons d ds ih =>
    rw [gridIndices, List.nodup_flatMap]
    refine ⟨fun i _ => ih.map (fun a b h => by simpa using h), ?_⟩
    refine List.nodup_range.imp ?_
    intro a b hab
    simp only [Function.onFun, List.disjoint_left, List.mem_map]
    rintro x ⟨r, -, rfl⟩ ⟨r', -, h⟩
    simp at h
    exact hab h.1.symm

theorem sum_grid {k : ℕ} (m l : Fin k → ℕ) (hl : ∀ i, l i ≤ m i) (F : List ℕ → ℝ) :
    ((gridIndices (List.ofFn l)).map F).sum
      = ∑ x : Idx m, if ∀ i, (x i : ℕ) < l i then F (List.ofFn fun i => (x i : ℕ)) else 0 := by
  classical
  rw [← List.sum_toFinset _ (gridIndices_nodup _), ← Finset.sum_filter]
  symm
  refine Finset.sum_bij (fun x _ => List.ofFn fun i => (x i : ℕ)) ?_ ?_ ?_ ?_
  · intro x hx
    rw [List.mem_toFinset, mem_gridIndices, List.forall₂_iff_get]
    refine ⟨by simp, fun i hi hi' => ?_⟩
    have := (Finset.mem_filter.1 hx).2
    simpa using this ⟨i, by simpa using hi⟩
  · intro x _ y _ h
    have := List.ofFn_injective h
    funext i
    exact Fin.ext (congrFun this i)
  · intro ds hds
    rw [List.mem_toFinset, mem_gridIndices, List.forall₂_iff_get] at hds
    obtain ⟨hlen, hlt⟩ := hds
    have hk : ds.length = k := by simpa using hlen
    have hlt' : ∀ i : Fin k, ds.get ⟨i, by rw [hk]; exact i.2⟩ < l i := by
      intro i
      have := hlt i (by rw [hk]; exact i.2) (by simp)
      simpa using this
    refine ⟨fun i => ⟨ds.get ⟨i, by rw [hk]; exact i.2⟩, lt_of_lt_of_le (hlt' i) (hl i)⟩, ?_, ?_⟩
    · exact Finset.mem_filter.2 ⟨Finset.mem_univ _, hlt'⟩
    · apply List.ext_get
      · simp [hk]
      · intro n h1 h2
        simp
  · intro x _; rfl

theorem sliceLen_pos (m : ℕ) {t : ℤ} (ht : 1 ≤ t) (x : ℕ) : x < sliceLen m t ↔ (x : ℤ) < m - t := by
  unfold sliceLen
  rw [if_pos (by omega)]
  omega

theorem sliceLen_le (m : ℕ) (t : ℤ) : sliceLen m t ≤ m := by
  unfold sliceLen
  split_ifs <;> omega

theorem convEpsilon_sum {k : ℕ} (m : Fin k → ℕ) (v : ℕ → ℂ) (t : ℤ) :
    convEpsilon (List.ofFn m) v t
      = 1 - ∑ x : Idx m, if ∀ i, (x i : ℕ) < sliceLen (m i) t then ‖entry v x‖ ^ 2 else 0 := by
  unfold convEpsilon
  rw [List.map_ofFn]
  have := sum_grid m (fun i => sliceLen (m i) t) (fun i => sliceLen_le _ _)
    (fun ds => ‖v (rowMajor (List.ofFn m) ds)‖ ^ 2)
  change 1 - ((gridIndices (List.ofFn fun i => sliceLen (m i) t)).map _).sum = _
  rw [this]
  rfl

/-- C71: for a normalised vector and t ≥ 1, ε is the weight of the basis states in which some mode is
among its last t levels. -/
theorem C71_weight {k : ℕ} (m : Fin k → ℕ) (v : ℕ → ℂ) (hv : ∑ x : Idx m, ‖entry v x‖ ^ 2 = 1) {t : ℤ} (ht : 1 ≤ t) :
    convEpsilon (List.ofFn m) v t
      = ∑ x : Idx m, if ∃ i, (m i : ℤ) - t ≤ (x i : ℕ) then ‖entry v x‖ ^ 2 else 0 := by
  rw [convEpsilon_sum, ← hv, ← Finset.sum_sub_distrib]
  refine Finset.sum_congr rfl fun x _ => ?_
  by_cases h : ∃ i, (m i : ℤ) - t ≤ (x i : ℕ)
  · rw [if_pos h, if_neg, sub_zero]
    intro h'
    obtain ⟨i, hi⟩ := h
    have := (sliceLen_pos (m i) ht (x i)).1 (h' i)
    omega
  · rw [if_neg h, if_pos, sub_self]
    intro i
    rw [sliceLen_pos _ ht]
    by_contra hc
    exact h ⟨i, by omega⟩

/-- C71: 0 ≤ ε ≤ 1, ε does not decrease with t, and the verdict is ε < threshold. Missing from the
property: t = 0, where the value should be 0 but is 1 (see `C71_refuted`). -/
theorem C71_partial {k : ℕ} (m : Fin k → ℕ) (v : ℕ → ℂ) (hv : ∑ x : Idx m, ‖entry v x‖ ^ 2 = 1) :
    (∀ t : ℤ, 1 ≤ t → 0 ≤ convEpsilon (List.ofFn m) v t ∧ convEpsilon (List.ofFn m) v t ≤ 1) ∧
    (∀ t t' : ℤ, 1 ≤ t → t ≤ t' → convEpsilon (List.ofFn m) v t ≤ convEpsilon (List.ofFn m) v t') ∧
    (∀ (efreqs : List ℝ) (evecs : List (ℕ → ℂ)) (idx : Fin evecs.length) (t : ℤ) (thr : ℝ), efreqs ≠ [] →
      evecs.get idx = v →
      ∃ b : Bool, checkConvergence efreqs evecs (List.ofFn m) idx t thr = .ok (b, convEpsilon (List.ofFn m) v t) ∧
        (b = true ↔ convEpsilon (List.ofFn m) v t < thr)) := by
  refine ⟨fun t ht => ?_, fun t t' ht htt => ?_, ?_⟩
  · constructor
    · rw [C71_weight m v hv ht]
      exact Finset.sum_nonneg fun x _ => by split_ifs <;> positivity
    · rw [convEpsilon_sum]
      have : 0 ≤ ∑ x : Idx m, if ∀ i, (x i : ℕ) < sliceLen (m i) t then ‖entry v x‖ ^ 2 else 0 :=
        Finset.sum_nonneg fun x _ => by split_ifs <;> positivity
      linarith
  · rw [C71_weight m v hv ht, C71_weight m v hv (le_trans ht htt)]
    refine Finset.sum_le_sum fun x _ => ?_
    by_cases h : ∃ i, (m i : ℤ) - t ≤ (x i : ℕ)
    · have h' : ∃ i, (m i : ℤ) - t' ≤ (x i : ℕ) := by
        obtain ⟨i, hi⟩ := h
        exact ⟨i, by omega⟩
      rw [if_pos h, if_pos h']
    · rw [if_neg h]
      split_ifs <;> positivity
  · intro efreqs evecs idx t thr he hve
    unfold checkConvergence
    have h1 : ¬(efreqs.length = 0 ∨ evecs.length = 0) := by
      rintro (h | h)
      · exact he (List.length_eq_zero_iff.1 h)
      · exact absurd idx.2 (by omega)
    rw [if_neg h1]
    have h2 : pyIdx evecs.length ((idx : ℕ) : ℤ) = .ok idx := by
      unfold pyIdx
      rw [dif_pos ⟨by omega, by have := idx.2; omega⟩]
      rfl
    rw [h2]
    simp only [hve]
    exact ⟨_, rfl, by simp⟩

/-- C71 for eigenvectors requested before diagonalisation. -/
theorem C71_guard (efreqs : List ℝ) (evecs : List (ℕ → ℂ)) (m : List ℕ) (idx t : ℤ) (thr : ℝ)
    (h : efreqs = [] ∨ evecs = []) : checkConvergence efreqs evecs m idx t thr = .error .circuitState := by
  unfold checkConvergence
  rw [if_pos]
  rcases h with h | h <;> simp [h]

/-- C71 fails at t = 0: with at least one mode, ε is 1 for every vector, although nothing is cut off. -/
theorem C71_refuted {k : ℕ} (m : Fin (k + 1) → ℕ) (v : ℕ → ℂ) : convEpsilon (List.ofFn m) v 0 = 1 := by
  rw [convEpsilon_sum, Finset.sum_eq_zero, sub_zero]
  intro x _
  rw [if_neg]
  intro h
  have := h 0
  simp [sliceLen] at this

/-- With t at least the dimension of some mode (for example one truncated to a single level) the test
value is 1 whatever the vector: such circuits are never reported converged (for thresholds up to 1). -/
theorem C71_small_mode {k : ℕ} (m : Fin k → ℕ) (v : ℕ → ℂ) {t : ℤ} (ht : 1 ≤ t) (h : ∃ i, (m i : ℤ) ≤ t) :
    convEpsilon (List.ofFn m) v t = 1 := by
  rw [convEpsilon_sum, Finset.sum_eq_zero, sub_zero]
  intro x _
  rw [if_neg]
  intro hx
  obtain ⟨i, hi⟩ := h
  have := (sliceLen_pos (m i) ht (x i)).1 (hx i)
  omega

/-- a normalised vector of two modes with 20 and 12 levels, all weight in the ground state -/
example : ∑ x : Idx ![20, 12], ‖entry (fun i => if i = 0 then 1 else 0) x‖ ^ 2 = 1 := by
  let z : Idx ![20, 12] := fun i => ⟨0, by fin_cases i <;> simp⟩
  have h : ∀ x : Idx ![20, 12], (entry (fun i => if i = 0 then (1 : ℂ) else 0) x) = if x = z then 1 else 0 := by
    intro x
    have e : rowMajor (List.ofFn ![20, 12]) (List.ofFn fun i => (x i : ℕ)) = (x 0 : ℕ) * 12 + (x 1 : ℕ) := by
      simp [rowMajor]
    unfold entry
    rw [e]
    by_cases hx : x = z
    · subst hx
      rfl
    · rw [if_neg hx]
      refine if_neg fun h => ?_
      apply hx
      funext i
      fin_cases i
      · exact Fin.ext (show (x 0 : ℕ) = 0 by omega)
      · exact Fin.ext (show (x 1 : ℕ) = 0 by omega)
  simp only [h]
  rw [Finset.sum_eq_single z]
  · simp
  · intro x _ hx; simp [hx]
  · intro hz; exact absurd (Finset.mem_univ _) hz

end SQ
