import Verif.Lemmas.ChargeSpace
import Verif.Props.GramSchmidt

/-!
# Success of the second transformation
-/

namespace SQ
open Matrix Spec

variable {nJ n : ℕ}

theorem chargeCols_pairwise (omega : Fin n → ℝ) : (chargeCols omega).Pairwise (· < ·) := by
  unfold chargeCols
  exact (List.pairwise_lt_finRange n).filter _

theorem mem_chargeCols (omega : Fin n → ℝ) (j : Fin n) : j ∈ chargeCols omega ↔ omega j = 0 := by
  unfold chargeCols; simp

theorem chargeCols_eq {omega : Fin n → ℝ} {m : ℕ} (hm : m ≤ n)
    (h : ∀ j, omega j = 0 ↔ m ≤ (j : ℕ)) :
    chargeCols omega = (List.finRange (n - m)).map (fun p => ⟨m + p, by omega⟩) := by
  apply List.Pairwise.eq_of_mem_iff (r := (· < ·)) (chargeCols_pairwise omega)
  · rw [List.pairwise_map]
    refine (List.pairwise_lt_finRange (n - m)).imp ?_
    intro a b hab
    rw [Fin.lt_def] at hab ⊢
    simpa using hab
  · intro j
    rw [mem_chargeCols, h, List.mem_map]
    constructor
    · intro hj
      exact ⟨⟨j - m, by omega⟩, by simp, by ext; simp; omega⟩
    · rintro ⟨p, -, rfl⟩
      simp

theorem chargeCols_len {omega : Fin n → ℝ} {m : ℕ} (hm : m ≤ n)
    (h : ∀ j, omega j = 0 ↔ m ≤ (j : ℕ)) : (chargeCols omega).length = n - m := by
  rw [chargeCols_eq hm h]; simp

theorem chargeCols_get {omega : Fin n → ℝ} {m : ℕ} (hm : m ≤ n)
    (h : ∀ j, omega j = 0 ↔ m ≤ (j : ℕ)) (p : Fin (chargeCols omega).length) :
    ((chargeCols omega).get p : ℕ) = m + p := by
  have h1 : (chargeCols omega)[(p : ℕ)]? =
      ((List.finRange (n - m)).map (fun p : Fin (n - m) => (⟨m + p, by omega⟩ : Fin n)))[(p : ℕ)]? :=
    congrArg (fun l : List (Fin n) => l[(p : ℕ)]?) (chargeCols_eq hm h)
  have hp := p.isLt
  have hl := chargeCols_len hm h
  rw [List.getElem?_eq_getElem hp, List.getElem?_eq_getElem (by simp; omega)] at h1
  have := Option.some.inj h1
  rw [List.get_eq_getElem, this]
  simp

theorem sum_charge {omega : Fin n → ℝ} (f : Fin n → ℝ) (h0 : ∀ j, omega j ≠ 0 → f j = 0) :
    ∑ j, f j = ∑ p : Fin (chargeCols omega).length, f ((chargeCols omega).get p) := by
  symm
  apply Fintype.sum_of_injective (chargeCols omega).get
  · have hn : (chargeCols omega).Nodup := (chargeCols_pairwise omega).imp (fun h => ne_of_lt h)
    exact List.nodup_iff_injective_get.1 hn
  · intro j hj
    apply h0
    intro hz
    apply hj
    obtain ⟨p, hp⟩ := List.get_of_mem ((mem_chargeCols omega j).2 hz)
    exact ⟨p, hp⟩
  · intro p; rfl

/-- entry of the junction matrix times the block transformation in a charge column -/
theorem mul_blockS2 {omega : Fin n → ℝ} {m : ℕ} (hm : m ≤ n) (h : ∀ j, omega j = 0 ↔ m ≤ (j : ℕ))
    (w : Matrix (Fin nJ) (Fin n) ℝ)
    (F : Matrix (Fin (chargeCols omega).length) (Fin (chargeCols omega).length) ℝ)
    (i : Fin nJ) (p : Fin (chargeCols omega).length) :
    (w * blockS2 (chargeCols_length_le omega) F) i ((chargeCols omega).get p) =
      ((fun q => w i ((chargeCols omega).get q)) ᵥ* F) p := by
  have hl := chargeCols_len hm h
  have hg := chargeCols_get hm h
  rw [mul_apply, sum_charge (omega := omega)]
  · unfold vecMul dotProduct
    refine Finset.sum_congr rfl fun q _ => ?_
    congr 1
    unfold blockS2
    rw [of_apply, dif_pos (by rw [hg, hg]; omega)]
    congr 1 <;> (ext; simp only [hg]; omega)
  · intro j hj
    have hj' : ¬ m ≤ (j : ℕ) := fun hh => hj ((h j).2 hh)
    unfold blockS2
    rw [of_apply, dif_neg (by omega), if_neg, mul_zero]
    intro he
    rw [he, hg] at hj'
    omega

/-- uniqueness of coordinates -/
theorem coords_unique {q : ℕ} {F : Matrix (Fin q) (Fin q) ℝ} (hF : IsUnit F.det) {c v : Fin q → ℝ}
    (h : c ᵥ* F = v) : v ᵥ* F⁻¹ = c := by
  rw [← h, vecMul_vecMul, mul_nonsing_inv _ hF, vecMul_one]

/-- coordinates in a completed basis of incidence rows -/
theorem coords_completed {q r : ℕ} (hr : r ≤ q) (F B : Matrix (Fin q) (Fin q) ℝ)
    (hF : IsUnit F.det) (hB : IsUnit B.det) (G : Fin r → Fin q → ℝ) (hG : ∀ p, IncRow (G p))
    (hrow : ∀ p : Fin r, F (Fin.castLE hr p) = G p ᵥ* B) (N : Fin q → ℝ) (hN : IncRow N)
    (hspan : N ᵥ* B ∈ Submodule.span ℝ (Set.range (fun p => G p ᵥ* B)))
    (hli : LinearIndependent ℝ (fun p => G p ᵥ* B)) (j : Fin q) :
    Tri (((N ᵥ* B) ᵥ* F⁻¹) j) := by
  obtain ⟨d, hd⟩ := (Submodule.mem_span_range_iff_exists_fun ℝ).1 hspan
  have hinjB : ∀ x y : Fin q → ℝ, x ᵥ* B = y ᵥ* B → x = y := by
    intro x y hxy
    have := congrArg (fun z => z ᵥ* B⁻¹) hxy
    simpa [vecMul_vecMul, mul_nonsing_inv _ hB] using this
  have hliG : LinearIndependent ℝ G := LinearIndependent.of_comp (vecMulLinear B) hli
  have hNG : ∑ p, d p • G p = N := by
    apply hinjB
    rw [← hd, ← vecMulLinear_apply, map_sum]
    simp
  have htri := fun p => coords_tri G hG hliG N hN d hNG p
  have hc : (fun p : Fin q => if h : (p : ℕ) < r then d ⟨p, h⟩ else 0) ᵥ* F = N ᵥ* B := by
    rw [← hd]
    funext c
    rw [Finset.sum_apply]
    unfold vecMul dotProduct
    symm
    apply Fintype.sum_of_injective (Fin.castLE hr) (Fin.castLE_injective hr)
    · intro p hp
      have : ¬ (p : ℕ) < r := by
        intro hlt
        exact hp ⟨⟨p, hlt⟩, rfl⟩
      simp [this]
    · intro p
      have : ((Fin.castLE hr p : Fin q) : ℕ) < r := p.isLt
      simp only [Pi.smul_apply, smul_eq_mul, dif_pos this]
      rw [show F (Fin.castLE hr p) c = (G p ᵥ* B) c by rw [hrow p]]
      rfl
  rw [coords_unique hF hc]
  change Tri (if h : (j : ℕ) < r then d ⟨j, h⟩ else 0)
  split
  · exact htri _
  · exact Or.inr (Or.inl rfl)

theorem round_tri {numJ : ℕ} (hn : numJ ≠ 0) {omega : Fin n → ℝ} {w : Matrix (Fin nJ) (Fin n) ℝ}
    {i : Fin nJ} {j : Fin n} (hj : omega j = 0) (h : Tri (w i j)) :
    roundZeroOne numJ omega w i j = w i j := by
  unfold roundZeroOne accGS
  simp only [of_apply, hj, if_true, hn, if_false]
  rcases h with h | h | h <;> rw [h] <;> norm_num

/-- the block transformation is invertible when its block is -/
theorem blockS2_det {omega : Fin n → ℝ} {m : ℕ} (hm : m ≤ n) (ho : ∀ j, omega j = 0 ↔ m ≤ (j : ℕ))
    (F : Matrix (Fin (chargeCols omega).length) (Fin (chargeCols omega).length) ℝ)
    (hdet : IsUnit F.det) :
    IsUnit (blockS2 (chargeCols_length_le omega) F⁻¹).det := by
  have hmul : blockS2 (chargeCols_length_le omega) F⁻¹ *
      blockS2 (chargeCols_length_le omega) F = 1 := by
    ext i j
    have hl' := chargeCols_len hm ho
    have hg := chargeCols_get hm ho
    by_cases hj : m ≤ (j : ℕ)
    · obtain ⟨p, rfl⟩ := List.get_of_mem ((mem_chargeCols omega j).2 ((ho j).2 hj))
      rw [mul_blockS2 hm ho]
      by_cases hi : m ≤ (i : ℕ)
      · obtain ⟨p', rfl⟩ := List.get_of_mem ((mem_chargeCols omega i).2 ((ho i).2 hi))
        have : (fun q => blockS2 (chargeCols_length_le omega) F⁻¹
            ((chargeCols omega).get p') ((chargeCols omega).get q)) = F⁻¹ p' := by
          funext q
          unfold blockS2
          rw [of_apply, dif_pos (by rw [hg, hg]; omega)]
          have e1 := hg p'
          have e2 := hg q
          have d : ∀ {a b a' b' : Fin (chargeCols omega).length}, a = a' → b = b' →
              F⁻¹ a b = F⁻¹ a' b' := by rintro _ _ _ _ rfl rfl; rfl
          exact d (Fin.ext (by change _ - _ = _; omega)) (Fin.ext (by change _ - _ = _; omega))
        rw [this]
        change (F⁻¹ * F) p' p = _
        rw [nonsing_inv_mul _ hdet, one_apply, one_apply]
        have hn : (chargeCols omega).Nodup :=
          (chargeCols_pairwise omega).imp (fun h => ne_of_lt h)
        by_cases hpp : p' = p
        · subst hpp; simp
        · rw [if_neg hpp, if_neg]
          intro he; exact hpp (List.nodup_iff_injective_get.1 hn he)
      · have : (fun q => blockS2 (chargeCols_length_le omega) F⁻¹ i
            ((chargeCols omega).get q)) = 0 := by
          funext q
          unfold blockS2
          rw [of_apply, dif_neg (by omega), if_neg]
          · rfl
          · intro he; rw [he, hg] at hi; omega
        rw [this, zero_vecMul, Pi.zero_apply, one_apply_ne]
        intro he; rw [he, hg] at hi; omega
    · rw [mul_apply, Finset.sum_eq_single j]
      · have : blockS2 (chargeCols_length_le omega) F j j = 1 := by
          unfold blockS2
          rw [of_apply, dif_neg (by omega), if_pos rfl]
        rw [this, mul_one]
        unfold blockS2
        rw [of_apply, dif_neg (by omega), one_apply]
      · intro l _ hlj
        have : blockS2 (chargeCols_length_le omega) F l j = 0 := by
          unfold blockS2
          rw [of_apply, dif_neg (by omega), if_neg hlj]
        rw [this, mul_zero]
      · simp
  exact isUnit_det_of_right_inverse hmul

/-- square matrix from a list of `q` rows -/
def rowsSquare {q : ℕ} (rows : List (Fin q → ℝ)) (hl : rows.length = q) :
    Matrix (Fin q) (Fin q) ℝ := Matrix.of fun i : Fin q => rows.get (i.cast hl.symm)

theorem rowsSquare_unit {q : ℕ} (rows : List (Fin q → ℝ)) (hl : rows.length = q)
    (htop : Submodule.span ℝ {v | v ∈ rows} = ⊤) : IsUnit (rowsSquare rows hl).det := by
  have hrange : Set.range (fun i : Fin q => rows.get (i.cast hl.symm)) = {v | v ∈ rows} := by
    ext v
    constructor
    · rintro ⟨i, rfl⟩; exact List.get_mem _ _
    · intro hv
      obtain ⟨p, rfl⟩ := List.get_of_mem hv
      exact ⟨p.cast hl, by simp⟩
  have hli3 : LinearIndependent ℝ (fun i : Fin q => rows.get (i.cast hl.symm)) := by
    rw [linearIndependent_iff_card_eq_finrank_span, Set.finrank, hrange, htop]
    simp
  exact (isUnit_iff_isUnit_det _).1 ((linearIndependent_rows_iff_isUnit
    (A := rowsSquare rows hl)).1 hli3)

/-- a Gram-Schmidt basis with as many members as columns spans everything -/
theorem gs_top {m q : ℕ} {A : Matrix (Fin m) (Fin q) ℝ}
    {st : List (Fin m) × List (Fin q → ℝ)} (h : GSInv A st) (hl : st.2.length = q) :
    Submodule.span ℝ (A '' {i | i ∈ st.1}) = ⊤ := by
  have hbig : Submodule.span ℝ (Set.range st.2.get) = ⊤ := by
    apply Submodule.eq_top_of_finrank_eq
    have h3 := linearIndependent_iff_card_eq_finrank_span.1 (orthonormal_li h.orth)
    rw [Set.finrank] at h3
    rw [← h3]; simp [hl]
  rw [eq_top_iff, ← hbig, Submodule.span_le]
  rintro e ⟨p, rfl⟩
  exact h.span _ (List.get_mem _ _)

/-- the `while` loop returns when the selected rows are a basis or are completed by the first
random vectors -/
theorem basisLoop_result (argsort : ArgsortFn) (draws : Draws) {m q : ℕ}
    (A : Matrix (Fin m) (Fin q) ℝ) (hq : q ≠ 0) (fuel : ℕ)
    (hc : (independentRows argsort A).2.length = q ∨
      ((independentRows argsort A).2.length ≠ 0 ∧
        (independentRows argsort (rowsMat ((independentRows argsort A).2 ++
          (List.range (q - (independentRows argsort A).2.length)).map
            (fun row => fun c : Fin q => frob A * draws 0 row c)))).2.length = q)) :
    ∃ (rnd : List (Fin q → ℝ)) (k : ℕ) (bs : List (Fin q → ℝ))
      (hl : ((independentRows argsort A).1.map (fun i => A i) ++ rnd).length = q),
      basisLoop argsort draws A (fuel + 2) ⟨[], [], [], 0⟩ =
        some ⟨(independentRows argsort A).1, rnd, bs, k⟩ ∧
      IsUnit (rowsSquare ((independentRows argsort A).1.map (fun i => A i) ++ rnd) hl).det := by
  generalize hr : independentRows argsort A = r at hc
  have hgs : GSInv A r := hr ▸ gsInv_rows argsort A
  have hlen : r.1.length = r.2.length := hgs.len
  have hstep1 : basisStep argsort draws A ⟨[], [], [], 0⟩ = ⟨r.1, [], r.2, 0⟩ := by
    unfold basisStep; simp [hr]
  have h0 : ¬ ([] : List (Fin q → ℝ)).length = q := by simpa using Ne.symm hq
  by_cases hc' : r.2.length = q
  · refine ⟨[], 0, r.2, by simp [hlen, hc'], ?_, ?_⟩
    · rw [show fuel + 2 = (fuel + 1) + 1 from rfl, basisLoop, if_neg h0, hstep1]
      rw [basisLoop, if_pos hc']
    · apply rowsSquare_unit
      rw [← gs_top hgs hc']
      congr 1
      ext v
      constructor
      · intro hv
        rcases List.mem_append.1 hv with hv | hv
        · obtain ⟨i, hi, rfl⟩ := List.mem_map.1 hv
          exact ⟨i, hi, rfl⟩
        · cases hv
      · rintro ⟨i, hi, rfl⟩
        exact List.mem_append_left _ (List.mem_map.2 ⟨i, hi, rfl⟩)
  · obtain ⟨hc0, hc2⟩ := hc.resolve_left hc'
    generalize hrnd : (List.range (q - r.2.length)).map
        (fun row => fun c : Fin q => frob A * draws 0 row c) = rnd at hc2
    generalize hr2 : independentRows argsort (rowsMat (r.2 ++ rnd)) = r2 at hc2
    have hle : r.2.length ≤ q := by
      have := (orthonormal_li hgs.orth).fintype_card_le_finrank
      simpa using this
    have hrl : rnd.length = q - r.2.length := by simp [← hrnd]
    have hl : (r.1.map (fun i => A i) ++ rnd).length = q := by simp [hlen, hrl]; omega
    have hgs2 : GSInv (rowsMat (r.2 ++ rnd)) r2 := hr2 ▸ gsInv_rows argsort _
    refine ⟨rnd, 1, r2.2, hl, ?_, ?_⟩
    · rw [show fuel + 2 = (fuel + 1) + 1 from rfl, basisLoop, if_neg h0, hstep1]
      rw [basisLoop, if_neg hc']
      have hstep2 : basisStep argsort draws A ⟨r.1, [], r.2, 0⟩ = ⟨r.1, rnd, r2.2, 1⟩ := by
        unfold basisStep
        rw [if_neg hc0]
        simp only [hrnd]
        subst hrnd
        rw [← hr2]
      rw [hstep2]
      cases fuel with
      | zero => rw [basisLoop, if_pos hc2]
      | succ f => rw [basisLoop, if_pos hc2]
    · apply rowsSquare_unit
      rw [eq_top_iff, ← gs_top hgs2 hc2, Submodule.span_le]
      rintro x ⟨i, -, rfl⟩
      have hi : rowsMat (r.2 ++ rnd) i ∈ r.2 ++ rnd := List.get_mem _ i
      generalize rowsMat (r.2 ++ rnd) i = v at hi
      rcases List.mem_append.1 hi with hv | hv
      · have h4 := hgs.span v hv
        refine Submodule.span_mono ?_ h4
        rintro x ⟨i, hi, rfl⟩
        exact List.mem_append_left _ (List.mem_map.2 ⟨i, hi, rfl⟩)
      · exact Submodule.subset_span (List.mem_append_right _ hv)

theorem t2_step_ok {sv : SvdFn} {argsort : ArgsortFn} {draws : Draws} {numJ : ℕ}
    {W : Matrix (Fin nJ) (Fin n) ℝ} {S1 : Matrix (Fin n) (Fin n) ℝ} {t : Trans nJ n}
    {fuel d k : ℕ} {s : Matrix (Fin n) (Fin n) ℝ}
    (h : t2Choose sv argsort draws numJ W S1 fuel d t = some (.ok (s, k))) (hs : IsUnit s.det)
    (hg : gsSuccessful numJ t s) :
    ∃ t', t2 sv argsort draws numJ W S1 (fuel + 1) d t = some (.ok t') := by
  classical
  have hni : npInv sᵀ = .ok (sᵀ)⁻¹ := by
    unfold npInv; rw [if_neg (by rw [det_transpose]; exact hs.ne_zero)]
  rw [t2, h]
  simp only
  rw [hni]
  simp only
  rw [if_pos hg]
  exact ⟨_, rfl⟩

/-- the abstract success theorem for one call of the second transformation -/
theorem t2_success {sv : SvdFn} {argsort : ArgsortFn} {draws : Draws} {numJ : ℕ} (hn : numJ ≠ 0)
    {W : Matrix (Fin nJ) (Fin n) ℝ} {S1 : Matrix (Fin n) (Fin n) ℝ} (t : Trans nJ n)
    (hw : t.w = W * S1) {m : ℕ} (hm : m ≤ n) (ho : ∀ j, t.omega j = 0 ↔ m ≤ (j : ℕ))
    (hq : (chargeCols t.omega).length ≠ 0)
    (B : Matrix (Fin (chargeCols t.omega).length) (Fin (chargeCols t.omega).length) ℝ)
    (hB : IsUnit B.det)
    (hN : ∀ i, ∃ N, IncRow N ∧ chargeRow W S1 (chargeCols t.omega) i = N ᵥ* B)
    (hsel : SelectionFaithful sv argsort draws W S1 t.omega) (fuel : ℕ) :
    ∃ t', t2 sv argsort draws numJ W S1 (fuel + 3) 0 t = some (.ok t') := by
  classical
  obtain ⟨rnd, k, bs, hl, hloop, hdet⟩ :=
    basisLoop_result argsort draws (wCharge sv W S1 t.omega) hq fuel hsel.completes
  have hsp := hsel.spans
  have hgs := gsInv_rows argsort (wCharge sv W S1 t.omega)
  generalize independentRows argsort (wCharge sv W S1 t.omega) = r at hl hloop hdet hsp hgs
  have hli := gsInv_li hgs
  choose N hNinc hNrow using hN
  have hArow : ∀ a, wCharge sv W S1 t.omega a = N ((keptCols sv Wᵀ).get a) ᵥ* B := by
    intro a; rw [← hNrow]; rfl
  have hspan' : ∀ i, N i ᵥ* B ∈ Submodule.span ℝ (Set.range
      (fun p : Fin r.1.length => N ((keptCols sv Wᵀ).get (r.1.get p)) ᵥ* B)) := by
    intro i
    have := hsp i
    rw [hNrow] at this
    refine Submodule.span_mono ?_ this
    rintro x ⟨a, ha, rfl⟩
    obtain ⟨p, rfl⟩ := List.get_of_mem ha
    exact ⟨p, (hArow _).symm⟩
  have hchoose : t2Choose sv argsort draws numJ W S1 (fuel + 2) 0 t =
      some (.ok (blockS2 (chargeCols_length_le t.omega) (rowsSquare _ hl)⁻¹, k)) := by
    unfold t2Choose
    simp only
    rw [if_pos ⟨hq, hn⟩, hloop]
    simp only
    have hsq : squareOf (r.1.map (fun i => wCharge sv W S1 t.omega i) ++ rnd) =
        .ok (rowsSquare _ hl) := by
      unfold squareOf; rw [dif_pos hl]; rfl
    rw [hsq]
    simp only
    have hni : npInv (rowsSquare _ hl) = .ok (rowsSquare _ hl)⁻¹ := by
      unfold npInv; rw [if_neg hdet.ne_zero]
    rw [hni]
  have htriAll : ∀ i p, Tri ((t.w * blockS2 (chargeCols_length_le t.omega) (rowsSquare _ hl)⁻¹) i
      ((chargeCols t.omega).get p)) := by
    intro i p
    rw [mul_blockS2 hm ho]
    have h1 : (fun q => t.w i ((chargeCols t.omega).get q)) = N i ᵥ* B := by
      rw [← hNrow, hw]; rfl
    rw [h1]
    have hrq : r.1.length ≤ (chargeCols t.omega).length := by
      simp at hl; omega
    refine coords_completed hrq (rowsSquare _ hl) B hdet hB
      (fun p => N ((keptCols sv Wᵀ).get (r.1.get p)))
      (fun p => hNinc _) ?_ (N i) (hNinc i) (hspan' i) ?_ p
    · intro p
      rw [← hArow]
      change (r.1.map (fun i => wCharge sv W S1 t.omega i) ++ rnd).get _ = _
      rw [List.get_eq_getElem, List.getElem_append_left (by simp)]
      simp
    · have := hli
      simp only [hArow] at this
      exact this
  have hsucc : gsSuccessful numJ t
      (blockS2 (chargeCols_length_le t.omega) (rowsSquare _ hl)⁻¹) := by
    intro j hj i
    obtain ⟨p, hp⟩ := List.get_of_mem ((mem_chargeCols t.omega j).2 hj)
    have := htriAll i p
    rw [hp] at this
    rw [round_tri hn hj this]
    rcases this with h | h | h <;> rw [h] <;> norm_num
  have hsdet := blockS2_det hm ho _ hdet
  exact t2_step_ok hchoose hsdet hsucc

end SQ
