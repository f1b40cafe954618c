import Verif.Spec.PhaseGrid
import Verif.Props.Phase

/-!
# C99: layout of the array returned by `eig_phase_coord`
-/

namespace SQ
open SQ.Spec

theorem swapTwo_eq {α : Type*} (l : List α) : swapTwo l = exchanged l := by
  unfold swapTwo exchanged
  rfl

theorem exchanged_twice {α : Type*} (l : List α) : exchanged (exchanged l) = l := by
  match l with
  | [] => rfl
  | [_] => rfl
  | _ :: _ :: _ => rfl

theorem exchanged_length {α : Type*} (l : List α) : (exchanged l).length = l.length := by
  match l with
  | [] => rfl
  | [_] => rfl
  | _ :: _ :: _ => rfl

theorem exchanged_short {α : Type*} {l : List α} (h : ¬ l.length > 1) : exchanged l = l := by
  match l with
  | [] => rfl
  | [_] => rfl
  | _ :: _ :: _ => simp at h

theorem unsqueeze_longAxes : ∀ (grid : List (List ℝ)) (x : List ℕ), GridPoint grid x →
    unsqueeze (grid.map List.length) (longAxes grid x) = x
  | [], x, h => by
    cases h
    rfl
  | g :: gs, x, h => by
    cases h with
    | @cons i _ is _ h1 h2 =>
      have ih := unsqueeze_longAxes gs is h2
      rw [List.map_cons, unsqueeze.eq_def]
      simp only
      by_cases hg : g.length = 1
      · rw [if_pos hg]
        have : longAxes (g :: gs) (i :: is) = longAxes gs is := by
          unfold longAxes
          rw [List.zip_cons_cons, List.filter_cons_of_neg (by simp [hg])]
        rw [this, ih]
        congr 1
        omega
      · rw [if_neg hg]
        have : longAxes (g :: gs) (i :: is) = i :: longAxes gs is := by
          unfold longAxes
          rw [List.zip_cons_cons, List.filter_cons_of_pos (by simp [hg])]
          rfl
        rw [this]
        simp only
        rw [ih]

theorem longAxes_lengths : ∀ grid : List (List ℝ),
    (grid.map List.length).filter (fun s => decide (s ≠ 1)) = longAxes grid (grid.map List.length)
  | [] => rfl
  | g :: gs => by
    have ih := longAxes_lengths gs
    unfold longAxes at ih ⊢
    rw [List.map_cons, List.zip_cons_cons]
    by_cases hg : g.length = 1
    · rw [List.filter_cons_of_neg (by simp [hg]), List.filter_cons_of_neg (by simp [hg]), ih]
    · rw [List.filter_cons_of_pos (by simp [hg]), List.filter_cons_of_pos (by simp [hg]), List.map_cons, ih]

/-- multi-indices of the squeezed array and grid points correspond -/
theorem longAxes_bij : ∀ (grid : List (List ℝ)) (idx : List ℕ),
    ValidIndex (longAxes grid (grid.map List.length)) idx → ∃ x, GridPoint grid x ∧ longAxes grid x = idx
  | [], idx, h => by
    cases h
    exact ⟨[], List.Forall₂.nil, rfl⟩
  | g :: gs, idx, h => by
    by_cases hg : g.length = 1
    · have e : longAxes (g :: gs) ((g :: gs).map List.length) = longAxes gs (gs.map List.length) := by
        unfold longAxes
        rw [List.map_cons, List.zip_cons_cons, List.filter_cons_of_neg (by simp [hg])]
      rw [e] at h
      obtain ⟨x, hx, h2⟩ := longAxes_bij gs idx h
      refine ⟨0 :: x, List.Forall₂.cons (by omega) hx, ?_⟩
      rw [← h2]
      unfold longAxes
      rw [List.zip_cons_cons, List.filter_cons_of_neg (by simp [hg])]
    · have e : longAxes (g :: gs) ((g :: gs).map List.length) = g.length :: longAxes gs (gs.map List.length) := by
        unfold longAxes
        rw [List.map_cons, List.zip_cons_cons, List.filter_cons_of_pos (by simp [hg])]
        rfl
      rw [e] at h
      cases h with
      | cons h1 h2 =>
        obtain ⟨x, hx, h3⟩ := longAxes_bij gs _ h2
        refine ⟨_ :: x, List.Forall₂.cons h1 hx, ?_⟩
        rw [← h3]
        unfold longAxes
        rw [List.zip_cons_cons, List.filter_cons_of_pos (by simp [hg])]
        rfl

theorem longAxes_length {α β : Type*} : ∀ (grid : List (List ℝ)) (x : List α) (y : List β), x.length = grid.length →
    y.length = grid.length → (longAxes grid x).length = (longAxes grid y).length
  | [], x, y, hx, hy => by
    rw [List.length_nil, List.length_eq_zero_iff] at hx hy
    subst hx hy
    rfl
  | g :: gs, x, y, hx, hy => by
    match x, y with
    | a :: x, b :: y =>
      have ih := longAxes_length gs x y (by simpa using hx) (by simpa using hy)
      unfold longAxes at ih ⊢
      rw [List.zip_cons_cons, List.zip_cons_cons]
      by_cases hg : g.length = 1
      · rw [List.filter_cons_of_neg (by simp [hg]), List.filter_cons_of_neg (by simp [hg]), ih]
      · rw [List.filter_cons_of_pos (by simp [hg]), List.filter_cons_of_pos (by simp [hg]), List.map_cons, List.map_cons,
          List.length_cons, List.length_cons, ih]

theorem validIndex_exchanged {s i : List ℕ} (h : ValidIndex s i) : ValidIndex (exchanged s) (exchanged i) := by
  unfold ValidIndex at *
  cases h with
  | nil => exact .nil
  | cons h1 h2 =>
    cases h2 with
    | nil => exact .cons h1 .nil
    | cons h2 h3 => exact .cons h2 (.cons h1 h3)

theorem meshgrid_get (grid : List (List ℝ)) (idx : List ℕ) (d : ℕ) (hd : d < grid.length) :
    ((meshgrid grid).map fun a => a.get idx).getD d 0 = (grid.getD d []).getD (idx.getD d 0) 0 := by
  unfold meshgrid
  rw [List.map_map, List.getD_eq_getElem?_getD, List.getElem?_map, List.getElem?_range hd]
  rfl

variable {nJ n : ℕ}

theorem longAxes_valid : ∀ (grid : List (List ℝ)) (x : List ℕ), GridPoint grid x →
    ValidIndex (longAxes grid (grid.map List.length)) (longAxes grid x)
  | [], x, h => by
    cases h
    exact .nil
  | g :: gs, x, h => by
    cases h with
    | @cons i _ is _ h1 h2 =>
      have ih := longAxes_valid gs is h2
      unfold ValidIndex longAxes at ih ⊢
      rw [List.map_cons, List.zip_cons_cons, List.zip_cons_cons]
      by_cases hg : g.length = 1
      · rw [List.filter_cons_of_neg (by simp [hg]), List.filter_cons_of_neg (by simp [hg])]
        exact ih
      · rw [List.filter_cons_of_pos (by simp [hg]), List.filter_cons_of_pos (by simp [hg])]
        exact .cons h1 ih

theorem transposeTwo_shape {α : Type*} (a : NDArr α) : (transposeTwo a).shape = exchanged a.shape := by
  unfold transposeTwo
  split
  · exact swapTwo_eq _
  · rename_i h
    exact (exchanged_short h).symm

theorem transposeTwo_get {α : Type*} (a : NDArr α) (idx : List ℕ) (h : idx.length = a.shape.length) :
    (transposeTwo a).get (exchanged idx) = a.get idx := by
  unfold transposeTwo
  split
  · show a.get (swapTwo (exchanged idx)) = _
    rw [swapTwo_eq, exchanged_twice]
  · rename_i h1
    rw [exchanged_short (by omega)]

/-- C99: `eig_phase_coord(k, grid)` for a stored state `v` returns an array with one axis for each axis of the grid that
does not have exactly one point, the first two of them exchanged. The entry belonging to a grid point `x` is the wave
function at the phases of that point, and every entry belongs to a grid point. -/
theorem C99_layout (hyperu : ℝ → ℝ → ℝ → ℝ) (D : ModeData nJ n) (m : Fin n → ℕ) (evecs : List (ℕ → ℂ)) (k : ℕ)
    (v : ℕ → ℂ) (hv : evecs[k]? = some v) (grid : List (List ℝ)) (hg : n ≤ grid.length) :
    ∃ A, eigPhaseCoordGrid hyperu D m evecs (some k) grid = .ok A ∧
      A.shape = exchanged (longAxes grid (grid.map List.length)) ∧
      (∀ x, GridPoint grid x → ValidIndex A.shape (exchanged (longAxes grid x)) ∧
        A.get (exchanged (longAxes grid x)) =
          eigPhaseCoord hyperu D m v fun mode => (grid.getD mode []).getD (x.getD mode 0) 0) ∧
      ∀ idx, ValidIndex A.shape idx → ∃ x, GridPoint grid x ∧ idx = exchanged (longAxes grid x) := by
  have hk : k < evecs.length := by
    rcases lt_or_ge k evecs.length with h | h
    · exact h
    · rw [List.getElem?_eq_none h] at hv; cases hv
  have hmesh : (meshgrid grid).length = grid.length := by unfold meshgrid; simp
  have hidx : pyIndex evecs (k : ℤ) = .ok v := by
    unfold pyIndex
    rw [if_neg (by omega), Int.toNat_natCast, hv]
  refine ⟨_, by
    unfold eigPhaseCoordGrid
    rw [if_neg (by omega)]
    simp only [hidx]
    rw [if_neg (by omega)], ?_, ?_, ?_⟩
  · rw [transposeTwo_shape]
    exact congrArg exchanged (longAxes_lengths grid)
  · intro x hx
    rw [transposeTwo_shape]
    refine ⟨validIndex_exchanged ?_, ?_⟩
    · show ValidIndex ((grid.map List.length).filter (fun s => decide (s ≠ 1))) _
      rw [longAxes_lengths]
      exact longAxes_valid grid x hx
    · rw [transposeTwo_get]
      · show eigPhaseCoord hyperu D m v _ = _
        congr 1
        funext mode
        rw [meshgrid_get grid _ _ (by omega)]
        show (grid.getD mode []).getD ((unsqueeze (grid.map List.length) (longAxes grid x)).getD mode 0) 0 = _
        rw [unsqueeze_longAxes grid x hx]
      · show _ = ((grid.map List.length).filter (fun s => decide (s ≠ 1))).length
        rw [longAxes_lengths]
        exact longAxes_length grid _ _ hx.length_eq (by simp)
  · intro idx h
    rw [transposeTwo_shape] at h
    have h2 := validIndex_exchanged h
    rw [exchanged_twice] at h2
    have h3 : ValidIndex (longAxes grid (grid.map List.length)) (exchanged idx) := by
      rw [← longAxes_lengths]
      exact h2
    obtain ⟨x, hx, h4⟩ := longAxes_bij grid _ h3
    exact ⟨x, hx, by rw [h4, exchanged_twice]⟩

/-- C99: `k` counts from the end when negative, as Python indices do. -/
theorem C99_negative (hyperu : ℝ → ℝ → ℝ → ℝ) (D : ModeData nJ n) (m : Fin n → ℕ) (evecs : List (ℕ → ℂ)) (k : ℕ)
    (hk : k < evecs.length) (grid : List (List ℝ)) :
    eigPhaseCoordGrid hyperu D m evecs (some ((k : ℤ) - evecs.length)) grid =
      eigPhaseCoordGrid hyperu D m evecs (some k) grid := by
  have e : pyIndex evecs ((k : ℤ) - evecs.length) = pyIndex evecs (k : ℤ) := by
    unfold pyIndex
    rw [if_pos (by omega), if_neg (by omega), if_neg (by omega)]
    have : ((k : ℤ) - evecs.length + evecs.length) = k := by ring
    rw [this]
  unfold eigPhaseCoordGrid
  simp only [e]

/-- C99: the exceptions. The call fails exactly when no states are stored, `k` is not an integer, `k` is not the index
of a stored state, or the grid has fewer axes than there are modes. -/
theorem C99_errors (hyperu : ℝ → ℝ → ℝ → ℝ) (D : ModeData nJ n) (m : Fin n → ℕ) (evecs : List (ℕ → ℂ))
    (k : Option ℤ) (grid : List (List ℝ)) (e : PyErr) :
    eigPhaseCoordGrid hyperu D m evecs k grid = .error e ↔
      (evecs = [] ∧ e = .circuitState) ∨
      (evecs ≠ [] ∧ k = none ∧ e = .valueError) ∨
      (evecs ≠ [] ∧ (∃ i, k = some i ∧ (i < -(evecs.length : ℤ) ∨ (evecs.length : ℤ) ≤ i ∨ grid.length < n)) ∧
        e = .indexError) := by
  have hmesh : (meshgrid grid).length = grid.length := by unfold meshgrid; simp
  by_cases h0 : evecs = []
  · subst h0
    unfold eigPhaseCoordGrid
    simp [eq_comm]
  · have hl : evecs.length ≠ 0 := by simpa using h0
    match k with
    | none =>
      unfold eigPhaseCoordGrid
      rw [if_neg hl]
      simp [h0, eq_comm]
    | some i =>
      have key : (∃ v, pyIndex evecs i = .ok v ∧ -(evecs.length : ℤ) ≤ i ∧ i < evecs.length) ∨
          (pyIndex evecs i = .error .indexError ∧ (i < -(evecs.length : ℤ) ∨ (evecs.length : ℤ) ≤ i)) := by
        unfold pyIndex
        by_cases h1 : i < 0
        · rw [if_pos h1]
          by_cases h2 : i + evecs.length < 0
          · rw [if_pos h2]
            exact Or.inr ⟨rfl, Or.inl (by omega)⟩
          · rw [if_neg h2, List.getElem?_eq_getElem (by omega)]
            exact Or.inl ⟨_, rfl, by omega, by omega⟩
        · rw [if_neg h1]
          by_cases h2 : i < evecs.length
          · rw [List.getElem?_eq_getElem (by omega)]
            exact Or.inl ⟨_, rfl, by omega, by omega⟩
          · rw [List.getElem?_eq_none (by omega)]
            exact Or.inr ⟨rfl, Or.inr (by omega)⟩
      unfold eigPhaseCoordGrid
      rw [if_neg hl]
      rcases key with ⟨v, hv, h1, h2⟩ | ⟨hv, h1⟩
      · simp only [hv, hmesh]
        by_cases h3 : grid.length < n
        · rw [if_pos h3]
          constructor
          · intro h
            injection h with h
            exact Or.inr (Or.inr ⟨h0, ⟨i, rfl, Or.inr (Or.inr h3)⟩, h.symm⟩)
          · rintro (⟨h, _⟩ | ⟨_, h, _⟩ | ⟨_, _, rfl⟩)
            · exact absurd h h0
            · cases h
            · rfl
        · rw [if_neg h3]
          constructor
          · intro h; cases h
          · rintro (⟨h, _⟩ | ⟨_, h, _⟩ | ⟨_, ⟨j, hj, h⟩, _⟩)
            · exact absurd h h0
            · cases h
            · injection hj with hj
              subst hj
              omega
      · simp only [hv]
        constructor
        · intro h
          injection h with h
          exact Or.inr (Or.inr ⟨h0, ⟨i, rfl, by omega⟩, h.symm⟩)
        · rintro (⟨h, _⟩ | ⟨_, h, _⟩ | ⟨_, _, rfl⟩)
          · exact absurd h h0
          · cases h
          · rfl

/-- A case of C99: with one point on the first of three axes the result has the other two axes, exchanged. -/
theorem C99_example (D : ModeData 0 3) (v : ℕ → ℂ) :
    ∃ A, eigPhaseCoordGrid (fun _ _ _ => 0) D (fun _ => 2) [v] (some (0 : ℕ)) [[0.5], [0, 1], [0, 1, 2]] = .ok A ∧
      A.shape = [3, 2] ∧
      A.get [2, 1] = eigPhaseCoord (fun _ _ _ => 0) D (fun _ => 2) v ![0.5, 1, 2] := by
  obtain ⟨A, h1, h2, h3, _⟩ := C99_layout (fun _ _ _ => 0) D (fun _ => 2) [v] 0 v rfl
    [[0.5], [0, 1], [0, 1, 2]] (by simp)
  refine ⟨A, h1, by rw [h2]; simp [exchanged, longAxes], ?_⟩
  have := (h3 [0, 1, 2] (by unfold GridPoint; simp)).2
  have e : exchanged (longAxes ([[0.5], [0, 1], [0, 1, 2]] : List (List ℝ)) [0, 1, 2]) = [2, 1] := by
    simp [exchanged, longAxes]
  rw [e] at this
  rw [this]
  congr 1
  funext mode
  fin_cases mode <;> simp

end SQ
