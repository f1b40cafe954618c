import Verif.Props.Flux2

/-!
# C24, C25: column selection, and the external flux at an element
-/

namespace SQ
open SQ.Spec Matrix

/-! ## C24 -/

theorem filter_range_prefix (p : ℕ → Bool) (hp : ∀ s t, s ≤ t → p t = true → p s = true) (N : ℕ) :
    (List.range N).filter p = List.range ((List.range N).filter p).length := by
  induction N with
  | zero => simp
  | succ N ih =>
    rw [List.range_succ, List.filter_append]
    by_cases h : p N = true
    · have hall : (List.range N).filter p = List.range N :=
        List.filter_eq_self.2 (fun t ht => hp t N (by simp at ht; omega) h)
      simp [hall, h, List.range_succ]
    · simp only [Bool.not_eq_true] at h
      have : [N].filter p = [] := by simp [h]
      rw [this, List.append_nil]
      exact ih

theorem range_filterMap_getElem? {α : Type*} (l : List α) (r : ℕ) :
    (List.range r).filterMap (fun t => l[t]?) = l.take r := by
  induction r with
  | zero => simp
  | succ r ih =>
    rw [List.range_succ, List.filterMap_append, ih, List.take_add_one]
    cases h : l[r]? <;> simp [h]

theorem rank_nzMat {b n : ℕ} (k : Matrix (Fin b) (Fin n) ℝ) : (nzMat k).rank = k.rank := by
  rw [Matrix.rank_eq_finrank_span_cols, Matrix.rank_eq_finrank_span_cols]
  suffices Submodule.span ℝ (Set.range (nzMat k).col) = Submodule.span ℝ (Set.range k.col) by
    rw [this]
  apply le_antisymm
  · apply Submodule.span_mono
    rintro _ ⟨u, rfl⟩
    exact ⟨(nonzeroCols k).get u, by funext i; rfl⟩
  · rw [Submodule.span_le]
    rintro _ ⟨j, rfl⟩
    by_cases hj : ∃ i, k i j ≠ 0
    · obtain ⟨u, hu⟩ := List.get_of_mem (mem_nonzeroCols.2 hj)
      apply Submodule.subset_span
      refine ⟨u, ?_⟩
      funext i
      simp only [Matrix.col_apply, nzMat, Matrix.of_apply, hu]
    · push Not at hj
      have : k.col j = 0 := by funext i; exact hj i
      rw [this]; exact Submodule.zero_mem _

/-- What the selection actually does: it keeps the first `rank` non-zero columns. -/
theorem keptCols_eq_take {b n : ℕ} {sv : SvdFn} (hsv : SvdSpec sv) (k : Matrix (Fin b) (Fin n) ℝ) :
    keptCols sv k = (nonzeroCols k).take k.rank := by
  have hlen : (keptCols sv k).length = k.rank := by rw [keptCols_length hsv, rank_nzMat]
  unfold keptCols at hlen ⊢
  simp only at hlen ⊢
  set s := sv b (nonzeroCols k).length (Matrix.of fun i j => k i ((nonzeroCols k).get j)) with hs
  have hmono : ∀ u t, u ≤ t → decide (|s.getD t 0| > (1e-5 : ℝ)) = true →
      decide (|s.getD u 0| > (1e-5 : ℝ)) = true := by
    intro u t hut ht
    simp only [decide_eq_true_eq] at ht ⊢
    by_cases htl : t < s.length
    · have hul : u < s.length := by omega
      simp only [List.getD_eq_getElem?_getD, List.getElem?_eq_getElem htl,
        List.getElem?_eq_getElem hul, Option.getD_some] at ht ⊢
      have hge : s[u] ≥ s[t] := by
        rcases Nat.eq_or_lt_of_le hut with h | h
        · subst h; exact le_rfl
        · exact (List.pairwise_iff_getElem.1 (hsv.sorted b _ _)) u t hul htl h
      have h0 : 0 ≤ s[t] := hsv.nonneg b _ _ _ (List.getElem_mem htl)
      rw [abs_of_nonneg h0] at ht
      rw [abs_of_nonneg (le_trans h0 hge)]
      exact lt_of_lt_of_le ht hge
    · exfalso
      simp [List.getD_eq_getElem?_getD, List.getElem?_eq_none (not_lt.1 htl)] at ht
      norm_num at ht
  rw [filter_range_prefix _ hmono] at hlen ⊢
  rw [range_filterMap_getElem?] at hlen ⊢
  rw [List.length_take] at hlen
  rcases le_or_gt ((List.range s.length).filter
      (fun t => decide (|s.getD t 0| > (1e-5 : ℝ)))).length (nonzeroCols k).length with h | h
  · rw [min_eq_left h] at hlen
    rw [hlen]
  · rw [min_eq_right h.le] at hlen
    rw [List.take_of_length_le h.le, List.take_of_length_le hlen.le]

/-- The part of C24 that holds: the result consists of distinct non-zero columns of the input, in
order, as many as the rank; and if they happen to be independent they span all columns. Missing:
independence itself, which is false in general (`C24_dependent_columns_kept`). -/
theorem C24_partial (sv : SvdFn) (hsv : SvdSpec sv) {b n : ℕ} (k : Matrix (Fin b) (Fin n) ℝ) :
    (keptCols sv k).Sublist (List.finRange n) ∧
    (∀ j ∈ keptCols sv k, ∃ i, k i j ≠ 0) ∧
    (keptCols sv k).length = k.rank ∧
    (LinearIndependent ℝ (fun t : Fin (keptCols sv k).length => k.col ((keptCols sv k).get t)) →
      ∀ j, k.col j ∈ Submodule.span ℝ
        (Set.range (fun t : Fin (keptCols sv k).length => k.col ((keptCols sv k).get t)))) := by
  refine ⟨?_, ?_, by rw [keptCols_length hsv, rank_nzMat], ?_⟩
  · rw [keptCols_eq_take hsv]
    exact (List.take_sublist _ _).trans List.filter_sublist
  · intro j hj
    exact mem_nonzeroCols.1 (mem_keptCols hj)
  · intro hli j
    exact col_mem_span hsv k hli j

/-- incidence matrix of two parallel branches on (1,2) and one branch on (3,0) -/
def badK : Matrix (Fin 3) (Fin 3) ℝ := !![1, -1, 0; 1, -1, 0; 0, 0, 1]

theorem badK_rank : badK.rank = 2 := by
  apply le_antisymm
  · have : badK = (!![1, 0; 1, 0; 0, 1] : Matrix (Fin 3) (Fin 2) ℝ) *
        (!![1, -1, 0; 0, 0, 1] : Matrix (Fin 2) (Fin 3) ℝ) := by
      ext i j; fin_cases i <;> fin_cases j <;> simp [badK, Matrix.mul_apply]
    rw [this]
    refine (Matrix.rank_mul_le_left _ _).trans ?_
    simpa using Matrix.rank_le_width (!![1, 0; 1, 0; 0, 1] : Matrix (Fin 3) (Fin 2) ℝ)
  · have : (!![1, 0, 0; 0, 0, 1] : Matrix (Fin 2) (Fin 3) ℝ) *
        (badK * (!![1, 0; 0, 0; 0, 1] : Matrix (Fin 3) (Fin 2) ℝ)) = 1 := by
      ext i j; fin_cases i <;> fin_cases j <;> simp [badK, Matrix.mul_apply, Fin.sum_univ_three]
    have h1 := Matrix.rank_mul_le_right (!![1, 0, 0; 0, 0, 1] : Matrix (Fin 2) (Fin 3) ℝ)
      (badK * (!![1, 0; 0, 0; 0, 1] : Matrix (Fin 3) (Fin 2) ℝ))
    rw [this, Matrix.rank_one, Fintype.card_fin] at h1
    exact h1.trans (Matrix.rank_mul_le_left _ _)

theorem badK_kept {sv : SvdFn} (hsv : SvdSpec sv) : keptCols sv badK = [0, 1] := by
  rw [keptCols_eq_take hsv, badK_rank]
  have : nonzeroCols badK = [0, 1, 2] := by
    unfold nonzeroCols
    rw [List.filter_eq_self.2]
    · rfl
    · intro j _
      fin_cases j
      · simp only [decide_eq_true_eq]; exact ⟨0, by simp [badK]⟩
      · simp only [decide_eq_true_eq]; exact ⟨0, by simp [badK]⟩
      · simp only [decide_eq_true_eq]; exact ⟨2, by simp [badK]⟩
  rw [this]; rfl

/-- C24 is false for the code: whatever SVD is used, for this matrix the two kept columns are
proportional, and the third column is not in their span. -/
theorem C24_dependent_columns_kept (sv : SvdFn) (hsv : SvdSpec sv) :
    keptCols sv badK = [0, 1] ∧ badK.col 0 = - badK.col 1 ∧
    ¬ LinearIndependent ℝ ![badK.col 0, badK.col 1] ∧
    badK.col 2 ∉ Submodule.span ℝ {badK.col 0, badK.col 1} := by
  have hneg : badK.col 0 = - badK.col 1 := by
    funext i; fin_cases i <;> simp [badK, Matrix.col_apply]
  refine ⟨badK_kept hsv, hneg, ?_, ?_⟩
  · intro hli
    rw [LinearIndependent.pair_iff] at hli
    have := hli 1 1 (by rw [hneg]; simp)
    simp at this
  · intro hmem
    have key : ∀ v ∈ Submodule.span ℝ {badK.col 0, badK.col 1}, v 2 = 0 := by
      intro v hv
      induction hv using Submodule.span_induction with
      | mem v hv =>
        rcases hv with rfl | rfl <;> simp [badK, Matrix.col_apply]
      | zero => simp
      | add u v _ _ hu hv => simp [hu, hv]
      | smul a v _ hv => simp [hv]
    have := key _ hmem
    simp [badK, Matrix.col_apply] at this

theorem fluxMatrix_singular {sv : SvdFn} {n : ℕ} {kMat : List (List ℤ)} {cEdge : List ℝ}
    {loops : List LoopObj} {gRows} {X} (hr : loopRows sv n kMat.length loops = .ok gRows)
    (hle : loops.length ≤ kMat.length) (h0 : loops.length ≠ 0)
    (hX : squareOf ((keptCols sv (arrayOf n kMat)).map
        (fun j i => arrayOf n kMat i j * cEdge.getD i 0) ++ gRows) = .ok X) (hd : X.det = 0) :
    fluxMatrix sv n kMat cEdge loops = .error .valueError := by
  have hI : npInv X = .error .linAlg := by simp [npInv, hd]
  unfold fluxMatrix
  simp only [hr, h0, if_false, if_neg (not_lt.2 hle)]
  rw [hX]
  simp only [hI]

theorem squareOf_three (r0 r1 r2 : Fin 3 → ℝ) :
    squareOf [r0, r1, r2] = .ok (Matrix.of ![r0, r1, r2]) := by
  unfold squareOf
  rw [dif_pos (by rfl)]
  congr 1
  funext a
  match a with
  | ⟨0, _⟩ => rfl
  | ⟨1, _⟩ => rfl
  | ⟨2, _⟩ => rfl

/-- Row of the only loop, when its two branches are the first two of three. -/
theorem loopRows_of_three {sv : SvdFn} (hsv : SvdSpec sv) {n : ℕ} {w : List ℤ}
    (hw : ∃ j, j < n ∧ w.getD j 0 ≠ 0) (v A : ℝ) :
    loopRows sv n 3 [⟨v, A, [0, 1], [w, w]⟩] = .ok [![1, -1, 0]] := by
  have hsc : scatter 3 [0, 1] (List.ofFn (n := [w, w].length) ![1, -1]) = .ok ![1, -1, 0] := by
    have : List.ofFn (n := [w, w].length) ![(1 : ℝ), -1] = [1, -1] := by
      change List.ofFn (n := 2) ![(1 : ℝ), -1] = [1, -1]
      simp
    rw [this]
    unfold scatter
    rw [if_neg (by simp)]
    congr 1
    funext i
    fin_cases i <;> simp
  unfold loopRows
  rw [getG_two hsv hw]
  simp only [hsc, loopRows]

theorem bad_flux {sv : SvdFn} (hsv : SvdSpec sv) (c0 c1 c2 v A : ℝ)
    {kMat : List (List ℤ)} {cEdge : List ℝ} {loops : List LoopObj}
    (hk : kMat = [[1, -1, 0], [1, -1, 0], [0, 0, 1]]) (hce : cEdge = [c0, c1, c2])
    (hl : loops = [⟨v, A, [0, 1], [[1, -1, 0], [1, -1, 0]]⟩]) :
    fluxMatrix sv 3 kMat cEdge loops = .error .valueError := by
  subst hk; subst hce; subst hl
  have hK : arrayOf 3 [[1, -1, 0], [1, -1, 0], [0, 0, 1]] = badK := by
    funext i j
    match i with
    | ⟨0, _⟩ => fin_cases j <;> simp [arrayOf, rowVec, badK]
    | ⟨1, _⟩ => fin_cases j <;> simp [arrayOf, rowVec, badK]
    | ⟨2, _⟩ => fin_cases j <;> simp [arrayOf, rowVec, badK]
  have hkept : keptCols sv (arrayOf 3 [[1, -1, 0], [1, -1, 0], [0, 0, 1]]) = [0, 1] := by
    rw [hK]; exact badK_kept hsv
  have hr : ((keptCols sv (arrayOf 3 [[1, -1, 0], [1, -1, 0], [0, 0, 1]])).map
        (fun j i => arrayOf 3 [[1, -1, 0], [1, -1, 0], [0, 0, 1]] i j * [c0, c1, c2].getD i 0) ++
          [![1, -1, 0]] : List (Fin 3 → ℝ)) = [![c0, c1, 0], ![-c0, -c1, 0], ![1, -1, 0]] := by
    rw [hkept]
    have e1 : (fun i : Fin 3 => arrayOf 3 [[1, -1, 0], [1, -1, 0], [0, 0, 1]] i 0 *
        [c0, c1, c2].getD i 0) = ![c0, c1, 0] := by
      funext i; fin_cases i <;> simp [arrayOf, rowVec]
    have e2 : (fun i : Fin 3 => arrayOf 3 [[1, -1, 0], [1, -1, 0], [0, 0, 1]] i 1 *
        [c0, c1, c2].getD i 0) = ![-c0, -c1, 0] := by
      funext i; fin_cases i <;> simp [arrayOf, rowVec]
    rw [← e1, ← e2]; rfl
  have hX := squareOf_three ![c0, c1, 0] ![-c0, -c1, 0] ![1, -1, 0]
  rw [← hr] at hX
  refine fluxMatrix_singular (kMat := [[1, -1, 0], [1, -1, 0], [0, 0, 1]])
    (cEdge := [c0, c1, c2]) (loops := [⟨v, A, [0, 1], [[1, -1, 0], [1, -1, 0]]⟩])
    (loopRows_of_three hsv ⟨0, by norm_num, by simp⟩ v A) (by simp) (by simp) hX ?_
  change Matrix.det (Matrix.of ![![c0, c1, 0], ![-c0, -c1, 0], ![1, -1, 0]] :
    Matrix (Fin 3) (Fin 3) ℝ) = 0
  rw [Matrix.det_fin_three]
  simp

/-- the same incidence matrix after renumbering the nodes -/
def goodK : Matrix (Fin 3) (Fin 3) ℝ := !![0, 1, -1; 0, 1, -1; 1, 0, 0]

theorem goodK_rank : goodK.rank = 2 := by
  apply le_antisymm
  · have : goodK = (!![1, 0; 1, 0; 0, 1] : Matrix (Fin 3) (Fin 2) ℝ) *
        (!![0, 1, -1; 1, 0, 0] : Matrix (Fin 2) (Fin 3) ℝ) := by
      ext i j; fin_cases i <;> fin_cases j <;> simp [goodK, Matrix.mul_apply]
    rw [this]
    refine (Matrix.rank_mul_le_left _ _).trans ?_
    simpa using Matrix.rank_le_width (!![1, 0; 1, 0; 0, 1] : Matrix (Fin 3) (Fin 2) ℝ)
  · have : (!![1, 0, 0; 0, 0, 1] : Matrix (Fin 2) (Fin 3) ℝ) *
        (goodK * (!![0, 1; 1, 0; 0, 0] : Matrix (Fin 3) (Fin 2) ℝ)) = 1 := by
      ext i j; fin_cases i <;> fin_cases j <;> simp [goodK, Matrix.mul_apply, Fin.sum_univ_three]
    have h1 := Matrix.rank_mul_le_right (!![1, 0, 0; 0, 0, 1] : Matrix (Fin 2) (Fin 3) ℝ)
      (goodK * (!![0, 1; 1, 0; 0, 0] : Matrix (Fin 3) (Fin 2) ℝ))
    rw [this, Matrix.rank_one, Fintype.card_fin] at h1
    exact h1.trans (Matrix.rank_mul_le_left _ _)

theorem goodK_kept {sv : SvdFn} (hsv : SvdSpec sv) : keptCols sv goodK = [0, 1] := by
  rw [keptCols_eq_take hsv, goodK_rank]
  have : nonzeroCols goodK = [0, 1, 2] := by
    unfold nonzeroCols
    rw [List.filter_eq_self.2]
    · rfl
    · intro j _
      fin_cases j
      · simp only [decide_eq_true_eq]; exact ⟨2, by simp [goodK]⟩
      · simp only [decide_eq_true_eq]; exact ⟨0, by simp [goodK]⟩
      · simp only [decide_eq_true_eq]; exact ⟨0, by simp [goodK]⟩
  rw [this]; rfl

theorem good_flux {sv : SvdFn} (hsv : SvdSpec sv) (c0 c1 c2 v A : ℝ) (h2 : c2 ≠ 0)
    (h01 : c0 + c1 ≠ 0) {kMat : List (List ℤ)} {cEdge : List ℝ} {loops : List LoopObj}
    (hk : kMat = [[0, 1, -1], [0, 1, -1], [1, 0, 0]]) (hce : cEdge = [c0, c1, c2])
    (hl : loops = [⟨v, A, [0, 1], [[0, 1, -1], [0, 1, -1]]⟩]) :
    ∃ B, fluxMatrix sv 3 kMat cEdge loops = .ok (some B) := by
  subst hk; subst hce; subst hl
  have hK : arrayOf 3 [[0, 1, -1], [0, 1, -1], [1, 0, 0]] = goodK := by
    funext i j
    match i with
    | ⟨0, _⟩ => fin_cases j <;> simp [arrayOf, rowVec, goodK]
    | ⟨1, _⟩ => fin_cases j <;> simp [arrayOf, rowVec, goodK]
    | ⟨2, _⟩ => fin_cases j <;> simp [arrayOf, rowVec, goodK]
  have hkept : keptCols sv (arrayOf 3 [[0, 1, -1], [0, 1, -1], [1, 0, 0]]) = [0, 1] := by
    rw [hK]; exact goodK_kept hsv
  have hr : ((keptCols sv (arrayOf 3 [[0, 1, -1], [0, 1, -1], [1, 0, 0]])).map
        (fun j i => arrayOf 3 [[0, 1, -1], [0, 1, -1], [1, 0, 0]] i j * [c0, c1, c2].getD i 0) ++
          [![1, -1, 0]] : List (Fin 3 → ℝ)) = [![0, 0, c2], ![c0, c1, 0], ![1, -1, 0]] := by
    rw [hkept]
    have e1 : (fun i : Fin 3 => arrayOf 3 [[0, 1, -1], [0, 1, -1], [1, 0, 0]] i 0 *
        [c0, c1, c2].getD i 0) = ![0, 0, c2] := by
      funext i; fin_cases i <;> simp [arrayOf, rowVec]
    have e2 : (fun i : Fin 3 => arrayOf 3 [[0, 1, -1], [0, 1, -1], [1, 0, 0]] i 1 *
        [c0, c1, c2].getD i 0) = ![c0, c1, 0] := by
      funext i; fin_cases i <;> simp [arrayOf, rowVec]
    rw [← e1, ← e2]; rfl
  have hX := squareOf_three ![0, 0, c2] ![c0, c1, 0] ![1, -1, 0]
  rw [← hr] at hX
  refine fluxMatrix_some (kMat := [[0, 1, -1], [0, 1, -1], [1, 0, 0]])
    (cEdge := [c0, c1, c2]) (loops := [⟨v, A, [0, 1], [[0, 1, -1], [0, 1, -1]]⟩])
    (loopRows_of_three hsv ⟨1, by norm_num, by simp⟩ v A) (by simp) (by simp) hX ?_
  change Matrix.det (Matrix.of ![![0, 0, c2], ![c0, c1, 0], ![1, -1, 0]] :
    Matrix (Fin 3) (Fin 3) ℝ) ≠ 0
  rw [Matrix.det_fin_three]
  simp only [Matrix.of_apply, Matrix.cons_val_zero, Matrix.cons_val_one, Matrix.cons_val]
  intro h
  have : c2 * (c0 + c1) = 0 := by linarith
  rcases mul_eq_zero.1 this with h | h
  · exact h2 h
  · exact h01 h

/-- a floating loop (inductor 0 and junction 2 on (1,2)), a junction 4 on (3,0), and a capacitor
tying node 1 to ground -/
def floatEls : Elements := [((0, 1), [3]), ((1, 2), [0, 2]), ((3, 0), [4])]

/-- the same circuit with nodes 1,2,3 renamed 2,3,1 -/
def floatEls' : Elements := [((0, 2), [3]), ((2, 3), [0, 2]), ((1, 0), [4])]

/-- objects: as `exObjs`, with object 4 a junction outside any loop -/
def floatObjs : Objs :=
  { exObjs with elem := fun i => if i = 4 then ⟨.jj, 7, 1, [], false, true⟩ else exObjs.elem i }

/-- rename the nodes of a dictionary -/
def renameNodes (σ : ℕ → ℕ) (els : Elements) : Elements :=
  els.map (fun p => ((σ p.1.1, σ p.1.2), p.2))

theorem float_valid : ValidElements 3 floatEls := by
  intro p hp
  simp [floatEls] at hp
  rcases hp with rfl | rfl | rfl <;> simp [ValidEdge]

theorem float_valid' : ValidElements 3 floatEls' := by
  intro p hp
  simp [floatEls'] at hp
  rcases hp with rfl | rfl | rfl <;> simp [ValidEdge]

theorem float_ind : ∀ p ∈ floatEls, ∀ i ∈ p.2, (floatObjs.elem i).kind = .ind →
    (floatObjs.elem i).value ≠ 0 := by
  intro p hp i hi hk
  simp [floatEls] at hp
  rcases hp with rfl | rfl | rfl <;> simp at hi
  · subst hi; simp [floatObjs, exObjs] at hk
  · rcases hi with rfl | rfl <;> simp [floatObjs, exObjs] at hk ⊢
  · subst hi; simp [floatObjs] at hk

theorem float_ind' : ∀ p ∈ floatEls', ∀ i ∈ p.2, (floatObjs.elem i).kind = .ind →
    (floatObjs.elem i).value ≠ 0 := by
  intro p hp i hi hk
  simp [floatEls'] at hp
  rcases hp with rfl | rfl | rfl <;> simp at hi
  · subst hi; simp [floatObjs, exObjs] at hk
  · rcases hi with rfl | rfl <;> simp [floatObjs, exObjs] at hk ⊢
  · subst hi; simp [floatObjs] at hk

theorem loops_of_uses {torch fd} {O : Objs} {n : ℕ} {h els} (hv : ValidElements n els) {a : Acc n}
    (ha : traverse torch fd O n h els = .ok a) {l : LoopId} {e : Edge}
    (hu : loopUses O els = [(l, 0, e), (l, 1, e)]) :
    a.st.loops.map a.st.loopHeap
      = [⟨(h l).value, (h l).A, [0, 1], [incVec n e, incVec n e]⟩] := by
  obtain ⟨l1, -, l2, l3, -⟩ := C19_loop_membership torch fd O n h els hv a ha
  have huo : usesOf O els l = [(0, e), (1, e)] := by simp [usesOf, hu]
  have hloops : a.st.loops = [l] := by rw [l1, hu]; simp [firstUses]
  rw [hloops]
  obtain ⟨e1, e2⟩ := l2 l (by rw [hloops]; simp)
  obtain ⟨e3, e4⟩ := l3 l
  rw [huo] at e1 e2
  simp only [List.map_cons, List.map_nil] at e1 e2 ⊢
  rw [← e3, ← e4, ← e1, ← e2]

/-- Consequence at the API: whether a circuit can be built depends on how its nodes are numbered.
For a circuit with a floating loop construction fails with ValueError; after merely renaming the
nodes (a permutation fixing ground) it succeeds. Both have the same number of nodes. -/
theorem C24_renumbering_breaks_construction (sv : SvdFn) (hsv : SvdSpec sv) (torch : Bool)
    (fd : FluxDist) (h : LoopId → LoopObj) :
    ∃ σ : ℕ → ℕ, σ 0 = 0 ∧ Set.BijOn σ {1, 2, 3} {1, 2, 3} ∧
      floatEls' = renameNodes σ floatEls ∧
      numNodes floatEls = .ok 3 ∧ numNodes floatEls' = .ok 3 ∧
      getLCWB sv torch fd floatObjs 3 h floatEls = .error .valueError ∧
      ∃ a B, getLCWB sv torch fd floatObjs 3 h floatEls' = .ok ⟨a, some B⟩ := by
  refine ⟨fun k => if k = 1 then 2 else if k = 2 then 3 else if k = 3 then 1 else k, by simp, ?_,
    by simp [floatEls', floatEls, renameNodes], by decide, by decide, ?_, ?_⟩
  · refine ⟨?_, ?_, ?_⟩
    · intro k hk; simp at hk; rcases hk with rfl | rfl | rfl <;> simp
    · intro a ha b hb hab
      simp at ha hb
      rcases ha with rfl | rfl | rfl <;> rcases hb with rfl | rfl | rfl <;> simp at hab ⊢
    · intro k hk
      simp at hk
      rcases hk with rfl | rfl | rfl
      · exact ⟨3, by simp, by simp⟩
      · exact ⟨1, by simp, by simp⟩
      · exact ⟨2, by simp, by simp⟩
  · obtain ⟨a, ha⟩ := buildEdges_succeeds torch fd float_valid float_ind (initAcc 3 h)
    have ha : traverse torch fd floatObjs 3 h floatEls = .ok a := ha
    obtain ⟨-, -, -, -, -, hk⟩ := C18_branch_numbering _ _ _ _ _ _ float_valid a ha
    have hce := traverse_cEdge float_valid ha
    have hp : inductivePlacements floatObjs floatEls = [((1, 2), 0), ((1, 2), 2), ((3, 0), 4)] := by
      simp [inductivePlacements, placements, floatEls, floatObjs, exObjs]
    have hu : loopUses floatObjs floatEls = [(0, 0, (1, 2)), (0, 1, (1, 2))] := by
      rw [loopUses, numbered, hp]; simp [List.zipIdx, floatObjs, exObjs]
    have hl := loops_of_uses float_valid ha hu
    rw [hp] at hk hce
    have := bad_flux hsv _ _ _ _ _ hk hce hl
    unfold getLCWB
    rw [ha]
    simp only [this]
  · obtain ⟨a, ha⟩ := buildEdges_succeeds torch fd float_valid' float_ind' (initAcc 3 h)
    have ha : traverse torch fd floatObjs 3 h floatEls' = .ok a := ha
    obtain ⟨-, -, -, -, -, hk⟩ := C18_branch_numbering _ _ _ _ _ _ float_valid' a ha
    have hce := traverse_cEdge float_valid' ha
    have hp : inductivePlacements floatObjs floatEls'
        = [((2, 3), 0), ((2, 3), 2), ((1, 0), 4)] := by
      simp [inductivePlacements, placements, floatEls', floatObjs, exObjs]
    have hu : loopUses floatObjs floatEls' = [(0, 0, (2, 3)), (0, 1, (2, 3))] := by
      rw [loopUses, numbered, hp]; simp [List.zipIdx, floatObjs, exObjs]
    have hl := loops_of_uses float_valid' ha hu
    rw [hp] at hk hce
    have hc2 : fluxCap floatObjs fd 4 ≠ 0 := by
      cases fd <;> simp [fluxCap, floatObjs, exObjs] <;> norm_num
    have hc01 : fluxCap floatObjs fd 0 + fluxCap floatObjs fd 2 ≠ 0 := by
      cases fd <;> simp [fluxCap, floatObjs, exObjs] <;> norm_num
    obtain ⟨B, hB⟩ := good_flux hsv _ _ _ _ _ hc2 hc01 hk hce hl
    refine ⟨a, B, ?_⟩
    unfold getLCWB
    rw [ha]
    simp only [hB]

/-! ## C25 -/

theorem foldl_add_eq {α : Type*} (l : List α) (f : α → ℝ) (x : ℝ) :
    l.foldl (fun acc i => acc + f i) x = x + (l.map f).sum := by
  induction l generalizing x with
  | nil => simp
  | cons a l ih => simp [ih, add_assoc]

/-- The external phase at a branch is the sum over the loops of loop value times distribution
entry; it vanishes without loops and is additive and homogeneous in the loop fluxes. -/
theorem C25_external_flux_linear {b nl : ℕ} (B : Matrix (Fin b) (Fin nl) ℝ) (bId : Fin b) :
    (∀ v, extFlux B v bId = ∑ l, v l * B bId l) ∧
    (nl = 0 → ∀ v, extFlux B v bId = 0) ∧
    (∀ v v', extFlux B (v + v') bId = extFlux B v bId + extFlux B v' bId) ∧
    (∀ (r : ℝ) v, extFlux B (r • v) bId = r * extFlux B v bId) := by
  have h : ∀ v, extFlux B v bId = ∑ l, v l * B bId l := by
    intro v
    unfold extFlux
    rw [foldl_add_eq, zero_add, ← List.ofFn_eq_map, List.sum_ofFn]
  refine ⟨h, ?_, ?_, ?_⟩
  · rintro rfl v; rw [h]; simp
  · intro v v'; simp only [h, Pi.add_apply, add_mul, Finset.sum_add_distrib]
  · intro r v; simp only [h, Pi.smul_apply, smul_eq_mul, mul_assoc, Finset.mul_sum]

example : extFlux !![(1/2 : ℝ), 2; -1/2, 3] ![4, 5] 0 = 12 := by
  rw [(C25_external_flux_linear _ _).1]
  simp [Fin.sum_univ_two]; norm_num

end SQ
