import Verif.Lemmas.Flux
import Verif.Props.Traverse

/-!
# C21–C25: loop vectors, flux distribution, external flux
-/

namespace SQ
open SQ.Spec Matrix

/-! ## C21 -/

theorem getG_ok {sv : SvdFn} {n : ℕ} {kMat : List (List ℤ)} {g}
    (hg : getG sv n kMat = .ok g) :
    kMat.length ≠ 0 ∧ ∃ A, squareOf (unitRow kMat.length ::
      (keptCols sv (arrayOf n kMat)).map (fun j i => arrayOf n kMat i j)) = .ok A ∧
      A.det ≠ 0 ∧ g = A⁻¹ *ᵥ unitRow kMat.length := by
  unfold getG at hg
  simp only at hg
  split at hg
  · simp at hg
  · rename_i h0
    refine ⟨h0, ?_⟩
    split at hg
    · simp at hg
    · rename_i A hA
      split at hg
      · simp at hg
      · rename_i Ai hAi
        obtain ⟨hd, rfl⟩ := npInv_ok hAi
        simp only [Except.ok.injEq] at hg
        exact ⟨A, hA, hd, hg.symm⟩

theorem kept_indep_tail {sv : SvdFn} {b n : ℕ} {k : Matrix (Fin b) (Fin n) ℝ} {r : Fin b → ℝ} {A}
    (hA : squareOf (r :: (keptCols sv k).map (fun j i => k i j)) = .ok A) (hd : A.det ≠ 0) :
    LinearIndependent ℝ (keptFam sv k) := by
  have h1 := list_rows_indep hA hd
  have := h1.comp (fun t : Fin (keptCols sv k).length => ⟨t + 1, by simp⟩)
    (fun a b hab => by simpa [Fin.ext_iff] using hab)
  convert this using 1
  funext t i
  simp [keptFam]

/-- The loop vector has first entry 1 and closes at every node, and it is the only such vector. -/
theorem C21_loop_vector (sv : SvdFn) (hsv : SvdSpec sv) (n : ℕ) (kMat : List (List ℤ))
    (g : Fin kMat.length → ℝ) (hg : getG sv n kMat = .ok g) :
    ∃ h0 : 0 < kMat.length,
      g ⟨0, h0⟩ = 1 ∧ (∀ j, j < n → ∑ b, g b * nodeEntry (kMat.get b) j = 0) ∧
      ∀ g' : Fin kMat.length → ℝ, g' ⟨0, h0⟩ = 1 →
        (∀ j, j < n → ∑ b, g' b * nodeEntry (kMat.get b) j = 0) → g' = g := by
  obtain ⟨h0, A, hA, hd, rfl⟩ := getG_ok hg
  have hpos : 0 < kMat.length := Nat.pos_of_ne_zero h0
  have hli := kept_indep_tail hA hd
  have hu : (fun i : Fin kMat.length => (fun t : ℕ => if t = 0 then (1 : ℝ) else 0) i)
      = unitRow kMat.length := rfl
  have hdot : ∀ x : Fin kMat.length → ℝ, unitRow kMat.length ⬝ᵥ x = x ⟨0, hpos⟩ := by
    intro x
    rw [dotProduct, Finset.sum_eq_single ⟨0, hpos⟩]
    · simp [unitRow]
    · intro i _ hi
      have : ¬ (i : ℕ) = 0 := fun h => hi (Fin.ext h)
      simp [unitRow, this]
    · simp
  -- the rows as equations
  have hrows : ∀ x : Fin kMat.length → ℝ, A *ᵥ x = unitRow kMat.length ↔
      x ⟨0, hpos⟩ = 1 ∧ ∀ j ∈ keptCols sv (arrayOf n kMat), ∑ i, arrayOf n kMat i j * x i = 0 := by
    intro x
    rw [← hu]
    refine (mulVec_eq_iff hA x (fun t : ℕ => if t = 0 then (1 : ℝ) else 0)).trans ?_
    constructor
    · intro h
      refine ⟨?_, ?_⟩
      · have := h 0 (by simp)
        rw [← hdot x]; simpa using this
      · intro j hj
        obtain ⟨t, ht, rfl⟩ := List.getElem_of_mem hj
        have := h (t + 1) (by simpa using ht)
        simpa [dotProduct] using this
    · rintro ⟨h1, h2⟩ t ht
      cases t with
      | zero => simpa [hdot] using h1
      | succ t =>
        have ht' : t < (keptCols sv (arrayOf n kMat)).length := by simpa using ht
        have := h2 _ (List.getElem_mem ht')
        simpa [dotProduct] using this
  have hall := (hrows _).1 (solves hd (unitRow kMat.length))
  have hconv : ∀ (x : Fin kMat.length → ℝ) (j : Fin n),
      ∑ b, x b * nodeEntry (kMat.get b) j = ∑ i, arrayOf n kMat i j * x i := by
    intro x j
    refine Finset.sum_congr rfl fun i _ => ?_
    simp [arrayOf, rowVec, nodeEntry, mul_comm]
  refine ⟨hpos, hall.1, ?_, ?_⟩
  · intro j hj
    rw [hconv _ ⟨j, hj⟩]
    exact eq_on_all_cols hsv _ hli _ hall.2 ⟨j, hj⟩
  · intro g' h1 h2
    apply solution_unique hd
    rw [hrows]
    refine ⟨h1, fun j _ => ?_⟩
    rw [← hconv]
    exact h2 j j.2

/-! ## C22 -/

theorem rint_close (x : ℝ) : |(rint x : ℝ) - x| ≤ 1 / 2 := by
  unfold rint
  simp only
  have h1 := Int.floor_le x
  have h2 := Int.lt_floor_add_one x
  split
  · rw [abs_le]; constructor <;> linarith
  · rename_i ha
    push Not at ha
    split
    · rw [abs_le]; push_cast; constructor <;> linarith
    · rename_i hb
      push Not at hb
      split
      · rw [abs_le]; constructor <;> linarith
      · rw [abs_le]; push_cast; constructor <;> linarith

theorem round5_close (x : ℝ) : |round5 x - x| ≤ 5e-6 := by
  have h := rint_close (x * 1e5)
  have h5 : (0 : ℝ) < 1e5 := by norm_num
  have : round5 x - x = ((rint (x * 1e5) : ℝ) - x * 1e5) / 1e5 := by
    unfold round5; field_simp
  rw [this, abs_div, abs_of_pos h5, div_le_iff₀ h5]
  calc _ ≤ 1 / 2 := h
    _ = 5e-6 * 1e5 := by norm_num

theorem scatter_fold_other {b : ℕ} (l : List (ℕ × ℝ)) (f : Fin b → ℝ) (i : Fin b)
    (h : (i : ℕ) ∉ l.map Prod.fst) :
    l.foldl (fun f p => fun i : Fin b => if (i : ℕ) = p.1 then p.2 else f i) f i = f i := by
  induction l generalizing f with
  | nil => rfl
  | cons p l ih =>
    simp only [List.map_cons, List.mem_cons, not_or] at h
    rw [List.foldl_cons, ih _ h.2, if_neg h.1]

theorem scatter_fold_mem {b : ℕ} (l : List (ℕ × ℝ)) (f : Fin b → ℝ) (i : Fin b) (x : ℝ)
    (hn : (l.map Prod.fst).Nodup) (h : ((i : ℕ), x) ∈ l) :
    l.foldl (fun f p => fun i : Fin b => if (i : ℕ) = p.1 then p.2 else f i) f i = x := by
  induction l generalizing f with
  | nil => simp at h
  | cons p l ih =>
    simp only [List.map_cons, List.nodup_cons] at hn
    rw [List.foldl_cons]
    rcases List.mem_cons.1 h with rfl | h
    · rw [scatter_fold_other _ _ _ hn.1]; simp
    · exact ih _ hn.2 h

theorem scatter_ok {b : ℕ} {is : List ℕ} {vals : List ℝ} {row : Fin b → ℝ}
    (h : scatter b is vals = .ok row) (hn : is.Nodup) (hl : is.length = vals.length) :
    (∀ i ∈ is, i < b) ∧ (∀ p (hp : p < is.length) (hb : is[p] < b),
      row ⟨is[p], hb⟩ = vals[p]'(by omega)) ∧ ∀ i : Fin b, (i : ℕ) ∉ is → row i = 0 := by
  unfold scatter at h
  split at h
  · simp at h
  · rename_i hb
    simp only [Except.ok.injEq] at h
    simp only [List.any_eq_true, decide_eq_true_eq, not_exists, not_and, not_le] at hb
    have hfst : (is.zip vals).map Prod.fst = is := by
      rw [List.map_fst_zip]; omega
    refine ⟨hb, ?_, ?_⟩
    · intro p hp hb'
      rw [← h]
      apply scatter_fold_mem
      · rw [hfst]; exact hn
      · rw [List.mem_iff_getElem]
        exact ⟨p, by simp; omega, by simp⟩
    · intro i hi
      rw [← h]
      rw [scatter_fold_other _ _ _ (by rw [hfst]; exact hi)]

theorem scatter_sum {b : ℕ} {is : List ℕ} {vals : List ℝ} {row : Fin b → ℝ}
    (h : scatter b is vals = .ok row) (hn : is.Nodup) (hl : is.length = vals.length)
    (f : ℕ → ℝ) :
    ∑ i, row i * f i = ∑ p : Fin is.length, vals.get (p.cast hl) * f (is.get p) := by
  obtain ⟨hb, h1, h2⟩ := scatter_ok h hn hl
  symm
  apply Finset.sum_of_injOn (fun p : Fin is.length => (⟨is.get p, hb _ (List.get_mem _ _)⟩ : Fin b))
  · intro p _ q _ hpq
    simp only [Fin.mk.injEq] at hpq
    exact (List.nodup_iff_injective_get.1 hn) hpq
  · intro p _; simp
  · intro i _ hi
    have : (i : ℕ) ∉ is := by
      intro hm
      apply hi
      obtain ⟨p, hp⟩ := List.get_of_mem hm
      exact ⟨p, by simp, Fin.ext hp⟩
    rw [h2 i this, zero_mul]
  · intro p _
    have := h1 p p.2 (hb _ (List.getElem_mem _))
    simp only [List.get_eq_getElem] at this ⊢
    rw [this]
    rfl

/-- rows of the loops -/
theorem loopRows_ok {sv : SvdFn} {n b : ℕ} {loops : List LoopObj} {rows}
    (h : loopRows sv n b loops = .ok rows) :
    ∃ hl : rows.length = loops.length, ∀ t (ht : t < loops.length),
      ∃ g, getG sv n (loops[t]).kMat = .ok g ∧
        scatter b (loops[t]).indices (List.ofFn g) = .ok (rows[t]'(by omega)) := by
  induction loops generalizing rows with
  | nil => simp [loopRows] at h; subst h; simp
  | cons l ls ih =>
    unfold loopRows at h
    split at h
    · simp at h
    · rename_i g hg
      split at h
      · simp at h
      · rename_i row hr
        split at h
        · simp at h
        · rename_i rs hrs
          simp only [Except.ok.injEq] at h
          subst h
          obtain ⟨hl, hrest⟩ := ih hrs
          refine ⟨by simp [hl], ?_⟩
          intro t ht
          cases t with
          | zero => exact ⟨g, hg, hr⟩
          | succ t => exact hrest t (by simpa using ht)

theorem fluxMatrix_ok {sv : SvdFn} {n : ℕ} {kMat : List (List ℤ)} {cEdge : List ℝ}
    {loops : List LoopObj} {B} (h : fluxMatrix sv n kMat cEdge loops = .ok (some B)) :
    ∃ gRows X, loopRows sv n kMat.length loops = .ok gRows ∧ loops.length ≤ kMat.length ∧
      loops.length ≠ 0 ∧
      squareOf ((keptCols sv (arrayOf n kMat)).map
        (fun j i => arrayOf n kMat i j * cEdge.getD i 0) ++ gRows) = .ok X ∧ X.det ≠ 0 ∧
      B = Matrix.of fun i (l : Fin loops.length) => round5 (∑ t : Fin kMat.length, X⁻¹ i t *
        (if kMat.length - loops.length ≤ (t : ℕ) ∧
          (t : ℕ) - (kMat.length - loops.length) = (l : ℕ) then 1 else 0)) := by
  unfold fluxMatrix at h
  simp only at h
  cases hr : loopRows sv n kMat.length loops with
  | error e => rw [hr] at h; cases e <;> simp at h
  | ok gRows =>
    rw [hr] at h
    simp only at h
    by_cases h0 : loops.length = 0
    · simp [h0] at h
    · simp only [h0, if_false] at h
      by_cases hlt : kMat.length < loops.length
      · simp [hlt] at h
      · simp only [hlt, if_false] at h
        cases hX : squareOf ((keptCols sv (arrayOf n kMat)).map
            (fun j i => arrayOf n kMat i j * cEdge.getD i 0) ++ gRows) with
        | error e => rw [hX] at h; cases e <;> simp at h
        | ok X =>
          rw [hX] at h
          simp only at h
          cases hI : npInv X with
          | error e => rw [hI] at h; cases e <;> simp at h
          | ok Xi =>
            rw [hI] at h
            simp only [Except.ok.injEq, Option.some.injEq] at h
            obtain ⟨hd, rfl⟩ := npInv_ok hI
            exact ⟨gRows, X, rfl, by omega, h0, hX, hd, h.symm⟩

theorem fluxMatrix_some {sv : SvdFn} {n : ℕ} {kMat : List (List ℤ)} {cEdge : List ℝ}
    {loops : List LoopObj} {gRows} {X} (hr : loopRows sv n kMat.length loops = .ok gRows)
    (hle : loops.length ≤ kMat.length) (h0 : loops.length ≠ 0)
    (hX : squareOf ((keptCols sv (arrayOf n kMat)).map
        (fun j i => arrayOf n kMat i j * cEdge.getD i 0) ++ gRows) = .ok X) (hd : X.det ≠ 0) :
    ∃ B, fluxMatrix sv n kMat cEdge loops = .ok (some B) := by
  have hI : npInv X = .ok X⁻¹ := by simp [npInv, hd]
  unfold fluxMatrix
  simp only [hr, h0, if_false, if_neg (not_lt.2 hle)]
  rw [hX]
  simp only [hI]
  exact ⟨_, rfl⟩

theorem getG_some {sv : SvdFn} {n : ℕ} {kMat : List (List ℤ)} {A} (h0 : kMat.length ≠ 0)
    (hA : squareOf (unitRow kMat.length ::
      (keptCols sv (arrayOf n kMat)).map (fun j i => arrayOf n kMat i j)) = .ok A)
    (hd : A.det ≠ 0) : ∃ g, getG sv n kMat = .ok g := by
  have hI : npInv A = .ok A⁻¹ := by simp [npInv, hd]
  unfold getG
  simp only [h0, if_false]
  rw [hA]
  simp only [hI]
  exact ⟨_, rfl⟩

/-- Flux distribution at the level of branch data, with the rows of the loops: whenever it is computed there are loop vectors
`G` and an exact distribution `B0`, from which the returned `B` differs by at most 5e-6, such that
the fluxes around the loops are 1 on the diagonal and 0 off it, the induced charges cancel at
every node, and `B0` is the only matrix with these two properties. -/
theorem flux_distribution_rows (sv : SvdFn) (hsv : SvdSpec sv) (n : ℕ) (kMat : List (List ℤ))
    (cEdge : List ℝ) (loops : List LoopObj) (hcon : LoopsConsistent kMat loops) (B)
    (h : fluxMatrix sv n kMat cEdge loops = .ok (some B)) :
    ∃ (G : Fin loops.length → Fin kMat.length → ℝ)
      (B0 : Matrix (Fin kMat.length) (Fin loops.length) ℝ),
      (∃ gRows, loopRows sv n kMat.length loops = .ok gRows ∧ ∀ l : Fin loops.length, gRows[(l : ℕ)]? = some (G l)) ∧
      kMat.length ≤ (arrayOf n kMat).rank + loops.length ∧
      (∀ l, IsLoopVector n kMat (loops.get l).indices (G l)) ∧
      (∀ l l', ∑ b, G l b * B0 b l' = if l = l' then 1 else 0) ∧
      (∀ j, j < n → ∀ l', ∑ b, nodeEntry (kMat.get b) j * cEdge.getD b 0 * B0 b l' = 0) ∧
      (∀ B1 : Matrix (Fin kMat.length) (Fin loops.length) ℝ,
        (∀ l l', ∑ b, G l b * B1 b l' = if l = l' then 1 else 0) →
        (∀ j, j < n → ∀ l', ∑ b, nodeEntry (kMat.get b) j * cEdge.getD b 0 * B1 b l' = 0) →
        B1 = B0) ∧
      (∀ b l, B b l = round5 (B0 b l)) ∧ (∀ b l, |B b l - B0 b l| ≤ 5e-6) := by
  obtain ⟨gRows, X, hr, hle, h0, hX, hd, rfl⟩ := fluxMatrix_ok h
  obtain ⟨hgl, hg⟩ := loopRows_ok hr
  obtain ⟨hlen, -⟩ := squareOf_ok hX
  have hkl : (keptCols sv (arrayOf n kMat)).length + loops.length = kMat.length := by
    simpa [hgl] using hlen
  -- independence of the kept columns
  have hli : LinearIndependent ℝ (keptFam sv (arrayOf n kMat)) := by
    have h1 := list_rows_indep hX hd
    have h2 := h1.comp (fun t : Fin (keptCols sv (arrayOf n kMat)).length => ⟨t, by
      have := t.2; simp; omega⟩) (fun a b hab => by simpa [Fin.ext_iff] using hab)
    let f : (Fin kMat.length → ℝ) →ₗ[ℝ] (Fin kMat.length → ℝ) :=
      { toFun := fun v i => v i * cEdge.getD i 0
        map_add' := fun u v => by funext i; simp [add_mul]
        map_smul' := fun a v => by funext i; simp [mul_assoc] }
    refine LinearIndependent.of_comp f ?_
    convert h2 using 1
    funext t i
    simp [f, keptFam, List.getElem_append_left]
  let G : Fin loops.length → Fin kMat.length → ℝ := fun l => gRows[l.1]'(by omega)
  let B0 : Matrix (Fin kMat.length) (Fin loops.length) ℝ := Matrix.of fun i l =>
    ∑ t : Fin kMat.length, X⁻¹ i t * (if kMat.length - loops.length ≤ (t : ℕ) ∧
          (t : ℕ) - (kMat.length - loops.length) = (l : ℕ) then 1 else 0)
  have hkd : kMat.length - loops.length = (keptCols sv (arrayOf n kMat)).length := by omega
  let y : Fin loops.length → ℕ → ℝ := fun l t =>
    if kMat.length - loops.length ≤ t ∧ t - (kMat.length - loops.length) = (l : ℕ) then 1 else 0
  -- rows as equations
  have hrows : ∀ (x : Fin kMat.length → ℝ) (l' : Fin loops.length),
      X *ᵥ x = (fun i : Fin kMat.length => y l' i) ↔
      (∀ j ∈ keptCols sv (arrayOf n kMat),
        ∑ i, arrayOf n kMat i j * (cEdge.getD i 0 * x i) = 0) ∧
      (∀ l, ∑ b, G l b * x b = if l = l' then 1 else 0) := by
    intro x l'
    refine (mulVec_eq_iff hX x (y l')).trans ?_
    constructor
    · intro hh
      constructor
      · intro j hj
        obtain ⟨t, ht, rfl⟩ := List.getElem_of_mem hj
        have := hh t (by simp; omega)
        rw [List.getElem_append_left (by simpa using ht)] at this
        have hy : y l' t = 0 := by simp only [y]; rw [if_neg]; omega
        rw [hy] at this
        simpa [dotProduct, mul_assoc] using this
      · intro l
        have := hh ((keptCols sv (arrayOf n kMat)).length + l) (by simp [hgl])
        rw [List.getElem_append_right (by simp)] at this
        have hy : y l' ((keptCols sv (arrayOf n kMat)).length + l) = if l = l' then 1 else 0 := by
          simp only [y, hkd]
          by_cases he : l = l'
          · simp [he]
          · have : ¬ (l : ℕ) = l' := fun h => he (Fin.ext h)
            simp [he, this]
        rw [hy] at this
        rw [← this]
        change gRows[l.1] ⬝ᵥ x = _
        congr 1
        apply getElem_congr_idx
        simp
    · rintro ⟨h1, h2⟩ t ht
      by_cases hk : t < (keptCols sv (arrayOf n kMat)).length
      · rw [List.getElem_append_left (by simpa using hk)]
        have hy : y l' t = 0 := by simp only [y]; rw [if_neg]; omega
        rw [hy]
        have := h1 _ (List.getElem_mem hk)
        simpa [dotProduct, mul_assoc] using this
      · rw [List.getElem_append_right (by simpa using hk)]
        have ht' : t < kMat.length := by rw [← hlen]; exact ht
        have := h2 ⟨t - (keptCols sv (arrayOf n kMat)).length, by omega⟩
        have hy : y l' t = if (⟨t - (keptCols sv (arrayOf n kMat)).length, by omega⟩ :
            Fin loops.length) = l' then 1 else 0 := by
          simp only [y, hkd, Fin.ext_iff]
          congr 1
          simp only [eq_iff_iff, and_iff_right_iff_imp]
          omega
        rw [hy, ← this]
        change _ = gRows[t - (keptCols sv (arrayOf n kMat)).length] ⬝ᵥ x
        congr 1
        apply getElem_congr_idx
        simp
  have hcol : ∀ l', (fun b => B0 b l') = X⁻¹ *ᵥ (fun i : Fin kMat.length => y l' i) := by
    intro l'
    funext b
    simp only [B0, Matrix.of_apply, Matrix.mulVec, dotProduct, y]
  have hsol : ∀ l', X *ᵥ (fun b => B0 b l') = (fun i : Fin kMat.length => y l' i) := by
    intro l'; rw [hcol]; exact solves hd _
  have hconv : ∀ (x : Fin kMat.length → ℝ) (j : Fin n),
      ∑ b, nodeEntry (kMat.get b) j * cEdge.getD b 0 * x b
        = ∑ i, arrayOf n kMat i j * (cEdge.getD i 0 * x i) := by
    intro x j
    refine Finset.sum_congr rfl fun i _ => ?_
    simp [arrayOf, rowVec, nodeEntry, mul_assoc]
  have hrank : (keptCols sv (arrayOf n kMat)).length ≤ (arrayOf n kMat).rank := by
    rw [Matrix.rank, ← Fintype.card_fin (keptCols sv (arrayOf n kMat)).length, Matrix.range_mulVecLin]
    have h2 : LinearIndependent ℝ (fun t => (⟨keptFam sv (arrayOf n kMat) t, Submodule.subset_span ⟨_, rfl⟩⟩ :
        Submodule.span ℝ (Set.range (arrayOf n kMat).col))) :=
      LinearIndependent.of_comp (Submodule.span ℝ (Set.range (arrayOf n kMat).col)).subtype hli
    exact h2.fintype_card_le_finrank
  refine ⟨G, B0, ⟨gRows, hr, fun l => List.getElem?_eq_getElem _⟩, by omega, ?_, ?_, ?_, ?_, fun _ _ => rfl, ?_⟩
  · -- loop vectors
    intro l
    obtain ⟨g, hgg, hsc⟩ := hg l l.2
    obtain ⟨hnd, hil, hws⟩ := hcon _ (List.getElem_mem l.2)
    obtain ⟨hp0, hg1, hg2, -⟩ := C21_loop_vector sv hsv n _ g hgg
    have hil' : (loops[l.1]).indices.length = (List.ofFn g).length := by simp [hil]
    obtain ⟨s1, s2, s3⟩ := scatter_ok hsc hnd hil'
    constructor
    · intro b hb
      have hi0 : 0 < (loops[l.1]).indices.length := by omega
      rw [List.get_eq_getElem, List.head?_eq_getElem?, List.getElem?_eq_getElem hi0] at hb
      simp only [Option.some.injEq] at hb
      have := s2 0 hi0 (by rw [hb]; exact b.2)
      have hb' : (⟨(loops[l.1]).indices[0], by rw [hb]; exact b.2⟩ : Fin kMat.length) = b :=
        Fin.ext hb
      rw [hb'] at this
      simp only [G]
      rw [this, List.getElem_ofFn]
      exact hg1
    · intro b hb
      exact s3 b (by simpa using hb)
    · intro j hj
      have hs := scatter_sum hsc hnd hil' (fun b => nodeEntry (kMat.getD b []) j)
      have e1 : ∑ b, G l b * nodeEntry (kMat.get b) j
          = ∑ i, (gRows[l.1]'(by omega)) i * nodeEntry (kMat.getD i []) j := by
        refine Finset.sum_congr rfl fun i _ => ?_
        simp [G]
      rw [e1, hs]
      rw [← hg2 j hj]
      -- reindex
      refine Fintype.sum_equiv (finCongr hil) _ _ ?_
      intro p
      have hw := hws p p.2
      have hkm : kMat.getD ((loops[l.1]).indices.get p) [] = (loops[l.1]).kMat[(p : ℕ)]'(by
          have := p.2; omega) := by
        rw [List.getD_eq_getElem?_getD, List.get_eq_getElem, hw, List.getElem?_eq_getElem]
        rfl
      rw [hkm]
      simp
      left; rfl
  · intro l l'
    exact ((hrows _ l').1 (hsol l')).2 l
  · intro j hj l'
    rw [hconv _ ⟨j, hj⟩]
    exact eq_on_all_cols hsv _ hli _ ((hrows _ l').1 (hsol l')).1 ⟨j, hj⟩
  · intro B1 h1 h2
    ext b l'
    have : (fun b => B1 b l') = X⁻¹ *ᵥ (fun i : Fin kMat.length => y l' i) := by
      apply solution_unique hd
      rw [hrows]
      refine ⟨fun j _ => ?_, fun l => h1 l l'⟩
      rw [← hconv]
      exact h2 j j.2 l'
    rw [← hcol] at this
    exact congrFun this b
  · intro b l
    exact round5_close _

/-- Flux distribution at the level of branch data: whenever it is computed there are loop vectors
`G` and an exact distribution `B0`, from which the returned `B` differs by at most 5e-6, such that
the fluxes around the loops are 1 on the diagonal and 0 off it, the induced charges cancel at
every node, and `B0` is the only matrix with these two properties. -/
theorem flux_distribution_branches (sv : SvdFn) (hsv : SvdSpec sv) (n : ℕ) (kMat : List (List ℤ))
    (cEdge : List ℝ) (loops : List LoopObj) (hcon : LoopsConsistent kMat loops) (B)
    (h : fluxMatrix sv n kMat cEdge loops = .ok (some B)) :
    ∃ (G : Fin loops.length → Fin kMat.length → ℝ)
      (B0 : Matrix (Fin kMat.length) (Fin loops.length) ℝ),
      (∀ l, IsLoopVector n kMat (loops.get l).indices (G l)) ∧
      (∀ l l', ∑ b, G l b * B0 b l' = if l = l' then 1 else 0) ∧
      (∀ j, j < n → ∀ l', ∑ b, nodeEntry (kMat.get b) j * cEdge.getD b 0 * B0 b l' = 0) ∧
      (∀ B1 : Matrix (Fin kMat.length) (Fin loops.length) ℝ,
        (∀ l l', ∑ b, G l b * B1 b l' = if l = l' then 1 else 0) →
        (∀ j, j < n → ∀ l', ∑ b, nodeEntry (kMat.get b) j * cEdge.getD b 0 * B1 b l' = 0) →
        B1 = B0) ∧
      (∀ b l, B b l = round5 (B0 b l)) ∧ (∀ b l, |B b l - B0 b l| ≤ 5e-6) := by
  obtain ⟨G, B0, -, -, h1⟩ := flux_distribution_rows sv hsv n kMat cEdge loops hcon B h
  exact ⟨G, B0, h1⟩

/-! ### the bookkeeping of the traversal is consistent -/

theorem filter_flatMap_loops (ls : List LoopId) (hn : ls.Nodup) (l : LoopId) (b : ℕ) (e : Edge) :
    ((ls.map (fun l => (l, b, e))).filter (fun u => decide (u.1 = l))).map Prod.snd
      = if l ∈ ls then [(b, e)] else [] := by
  induction ls with
  | nil => simp
  | cons x xs ih =>
    simp only [List.nodup_cons] at hn
    by_cases hx : x = l
    · subst hx
      have := ih hn.2
      rw [if_neg hn.1] at this
      simp [this]
    · have hx' : ¬ l = x := fun h => hx h.symm
      have := ih hn.2
      simp only [List.map_cons, List.filter_cons, hx, decide_false, Bool.false_eq_true, if_false,
        this, List.mem_cons, hx', false_or]

theorem usesOf_eq {O : Objs} (ho : LoopsListedOnce O) (els : Elements) (l : LoopId) :
    usesOf O els l = ((numbered O els).filter (fun q => decide (l ∈ (O.elem q.1.2).loops))).map
      (fun q => (q.2, q.1.1)) := by
  unfold usesOf loopUses
  generalize numbered O els = xs
  induction xs with
  | nil => rfl
  | cons q qs ih =>
    rw [List.flatMap_cons, List.filter_append, List.map_append, ih, filter_flatMap_loops _ (ho _)]
    by_cases h : l ∈ (O.elem q.1.2).loops <;> simp [h]

theorem traverse_loopsConsistent {torch fd} {O : Objs} {n : ℕ} {h els} (hv : ValidElements n els)
    (ho : LoopsListedOnce O) {a : Acc n} (ha : traverse torch fd O n h els = .ok a) :
    LoopsConsistent a.st.kMat (a.st.loops.map a.st.loopHeap) := by
  obtain ⟨-, -, h3, -⟩ := C19_loop_membership torch fd O n h els hv a ha
  obtain ⟨-, -, -, -, -, hk⟩ := C18_branch_numbering torch fd O n h els hv a ha
  intro lo hlo
  obtain ⟨l, hl, rfl⟩ := List.mem_map.1 hlo
  obtain ⟨hi, hm⟩ := h3 l hl
  rw [hi, hm, usesOf_eq ho, hk]
  refine ⟨?_, by simp, ?_⟩
  · rw [List.map_map]
    have hsub : (((numbered O els).filter (fun q => decide (l ∈ (O.elem q.1.2).loops))).map
        (fun q => q.2)).Sublist ((numbered O els).map (fun q => q.2)) :=
      (List.filter_sublist).map _
    refine hsub.nodup ?_
    have : (numbered O els).map (fun q => q.2) = List.range (inductivePlacements O els).length := by
      unfold numbered
      have := List.zipIdx_map_snd 0 (inductivePlacements O els)
      rw [List.range_eq_range']
      exact this
    rw [this]
    exact List.nodup_range
  · intro p hp
    simp only [List.getElem_map, List.getElem?_map, List.length_map] at hp ⊢
    have hmem := List.mem_of_mem_filter (List.getElem_mem hp)
    rw [List.getElem?_eq_getElem hp]
    generalize ((numbered O els).filter
      (fun q => decide (l ∈ (O.elem q.1.2).loops)))[p] = q at hmem
    unfold numbered at hmem
    rw [List.mem_zipIdx_iff_getElem?] at hmem
    simp [hmem]

theorem traverse_cEdge {torch fd} {O : Objs} {n : ℕ} {h els} (hv : ValidElements n els)
    {a : Acc n} (ha : traverse torch fd O n h els = .ok a) :
    a.st.cEdge = (inductivePlacements O els).map (fun q => fluxCap O fd q.2) := by
  obtain ⟨hi, -⟩ := traverse_inv hv ha
  rw [hi.cEdge, ← indOf_annotate O els 0, List.map_map]
  apply List.map_congr_left
  intro q _
  simp only [Function.comp, capForFluxDist, fluxCap]
  rcases kind_cases (O.elem q.2.1) with hk | hk | hk <;> cases fd <;> simp [hk]

/-- Fluxoid quantisation for circuits. Branch `b` is the `b`-th inductive placement; `G l` is the
loop vector of the `l`-th loop of the circuit. -/
theorem C22_flux_distribution (sv : SvdFn) (hsv : SvdSpec sv) (torch : Bool) (fd : FluxDist)
    (O : Objs) (n : ℕ) (h : LoopId → LoopObj) (els : Elements) (hv : ValidElements n els)
    (ho : LoopsListedOnce O) (a : Acc n) (B)
    (hb : getLCWB sv torch fd O n h els = .ok ⟨a, some B⟩) :
    a.st.kMat = (inductivePlacements O els).map (fun q => incVec n q.1) ∧
    a.st.cEdge = (inductivePlacements O els).map (fun q => fluxCap O fd q.2) ∧
    a.st.loops = firstUses ((loopUses O els).map Prod.fst) ∧
    ∃ (G : Fin (a.st.loops.map a.st.loopHeap).length → Fin a.st.kMat.length → ℝ)
      (B0 : Matrix (Fin a.st.kMat.length) (Fin (a.st.loops.map a.st.loopHeap).length) ℝ),
      (∀ l, IsLoopVector n a.st.kMat
        ((usesOf O els (a.st.loops.get (l.cast (by simp)))).map Prod.fst) (G l)) ∧
      (∀ l l', ∑ b, G l b * B0 b l' = if l = l' then 1 else 0) ∧
      (∀ j, j < n → ∀ l',
        ∑ b, nodeEntry (a.st.kMat.get b) j * a.st.cEdge.getD b 0 * B0 b l' = 0) ∧
      (∀ B1 : Matrix (Fin a.st.kMat.length) (Fin (a.st.loops.map a.st.loopHeap).length) ℝ,
        (∀ l l', ∑ b, G l b * B1 b l' = if l = l' then 1 else 0) →
        (∀ j, j < n → ∀ l',
          ∑ b, nodeEntry (a.st.kMat.get b) j * a.st.cEdge.getD b 0 * B1 b l' = 0) → B1 = B0) ∧
      (∀ b l, B b l = round5 (B0 b l)) ∧ (∀ b l, |B b l - B0 b l| ≤ 5e-6) := by
  unfold getLCWB at hb
  cases ht : traverse torch fd O n h els with
  | error e => simp [ht] at hb
  | ok a' =>
    simp only [ht] at hb
    cases hf : fluxMatrix sv n a'.st.kMat a'.st.cEdge (a'.st.loops.map a'.st.loopHeap) with
    | error e => simp [hf] at hb
    | ok B' =>
      simp only [hf, Except.ok.injEq, Sigma.mk.injEq] at hb
      obtain ⟨rfl, hB⟩ := hb
      have hB := eq_of_heq hB
      subst hB
      obtain ⟨h1, -, h3, -⟩ := C19_loop_membership torch fd O n h els hv a' ht
      obtain ⟨-, -, -, -, -, hk⟩ := C18_branch_numbering torch fd O n h els hv a' ht
      obtain ⟨G, B0, g1, g2⟩ := flux_distribution_branches sv hsv n _ _ _
        (traverse_loopsConsistent hv ho ht) B hf
      refine ⟨hk, traverse_cEdge hv ht, h1, G, B0, ?_, g2⟩
      intro l
      have := g1 l
      have e : ((a'.st.loops.map a'.st.loopHeap).get l).indices
          = (usesOf O els (a'.st.loops.get (l.cast (by simp)))).map Prod.fst := by
        rw [← (h3 _ (List.get_mem _ _)).1]
        simp
      rw [← e]
      exact this

end SQ
