import Verif.Props.Flux
import Mathlib.LinearAlgebra.Matrix.Determinant.Basic

/-!
# C23–C25: two-branch loops, dependent columns, external flux; examples for C21, C22
-/

namespace SQ
open SQ.Spec Matrix

theorem rank_pos_of_ne_zero {b m : ℕ} (M : Matrix (Fin b) (Fin m) ℝ) (h : M ≠ 0) : 1 ≤ M.rank := by
  rcases Nat.eq_zero_or_pos M.rank with h0 | h0
  · exfalso
    apply h
    rw [Matrix.rank, Submodule.finrank_eq_zero, LinearMap.range_eq_bot] at h0
    ext i j
    have := congrFun (congrArg (fun f => f (Pi.single j 1)) h0) i
    simpa using this
  · exact h0

theorem squareOf_two (r0 r1 : Fin 2 → ℝ) : squareOf [r0, r1] = .ok (Matrix.of ![r0, r1]) := by
  unfold squareOf
  rw [dif_pos (by rfl)]
  congr 1
  funext a
  match a with
  | ⟨0, _⟩ => rfl
  | ⟨1, _⟩ => rfl

theorem arrayOf_two (n : ℕ) (w : List ℤ) (i : Fin [w, w].length) (j : Fin n) :
    arrayOf n [w, w] i j = nodeEntry w j := by
  match i with
  | ⟨0, _⟩ => rfl
  | ⟨1, _⟩ => rfl

/-- two equal non-zero branches: exactly one column is kept, and it is not zero -/
theorem kept_two {sv : SvdFn} (hsv : SvdSpec sv) {n : ℕ} {w : List ℤ}
    (hw : ∃ j, j < n ∧ w.getD j 0 ≠ 0) :
    ∃ j : Fin n, keptCols sv (arrayOf n [w, w]) = [j] ∧ nodeEntry w j ≠ 0 := by
  have hlen : (keptCols sv (arrayOf n [w, w])).length = 1 := by
    rw [keptCols_length hsv]
    apply le_antisymm
    · have : nzMat (arrayOf n [w, w]) = Matrix.vecMulVec (fun _ => 1)
          (fun j => nodeEntry w ((nonzeroCols (arrayOf n [w, w])).get j)) := by
        ext i j
        rw [Matrix.vecMulVec_apply, one_mul]
        exact arrayOf_two n w i _
      rw [this]
      exact Matrix.rank_vecMulVec_le _ _
    · apply rank_pos_of_ne_zero
      intro h0
      obtain ⟨j, hj, hne⟩ := hw
      have hne' : nodeEntry w j ≠ 0 := by simpa [nodeEntry] using hne
      have hm : (⟨j, hj⟩ : Fin n) ∈ nonzeroCols (arrayOf n [w, w]) := by
        rw [mem_nonzeroCols]
        exact ⟨⟨0, by simp⟩, by rw [arrayOf_two]; exact hne'⟩
      obtain ⟨u, hu⟩ := List.get_of_mem hm
      have := congrFun (congrFun h0 ⟨0, by simp⟩) u
      simp only [nzMat, Matrix.of_apply, hu, Matrix.zero_apply] at this
      rw [arrayOf_two] at this
      exact hne' this
  obtain ⟨j, hj⟩ := List.length_eq_one_iff.1 hlen
  refine ⟨j, hj, ?_⟩
  have : j ∈ nonzeroCols (arrayOf n [w, w]) := mem_keptCols (sv := sv) (by rw [hj]; simp)
  rw [mem_nonzeroCols] at this
  obtain ⟨i, hi⟩ := this
  rwa [arrayOf_two] at hi

/-- the loop vector of two equal branches is (1, -1) -/
theorem getG_two {sv : SvdFn} (hsv : SvdSpec sv) {n : ℕ} {w : List ℤ}
    (hw : ∃ j, j < n ∧ w.getD j 0 ≠ 0) : getG sv n [w, w] = .ok ![1, -1] := by
  obtain ⟨j, hj, hne⟩ := kept_two hsv hw
  have hr : (unitRow 2 :: (keptCols sv (arrayOf n [w, w])).map
      (fun j i => arrayOf n [w, w] i j) : List (Fin 2 → ℝ))
      = [![1, 0], ![nodeEntry w j, nodeEntry w j]] := by
    rw [hj]
    have e1 : unitRow 2 = ![1, 0] := by
      funext i; match i with
      | ⟨0, _⟩ => rfl
      | ⟨1, _⟩ => rfl
    have e2 : (fun i : Fin 2 => arrayOf n [w, w] i j) = ![nodeEntry w j, nodeEntry w j] := by
      funext i; match i with
      | ⟨0, _⟩ => rfl
      | ⟨1, _⟩ => rfl
    rw [e1, ← e2]; rfl
  have hA := squareOf_two ![1, 0] ![nodeEntry w j, nodeEntry w j]
  rw [← hr] at hA
  have hdet : (Matrix.of ![![1, 0], ![nodeEntry w j, nodeEntry w j]] :
      Matrix (Fin 2) (Fin 2) ℝ).det ≠ 0 := by
    rw [Matrix.det_fin_two]; simpa using hne
  obtain ⟨g, hg⟩ := getG_some (kMat := [w, w]) (by simp) hA hdet
  obtain ⟨h0, -, -, hu⟩ := C21_loop_vector sv hsv n [w, w] g hg
  have := hu ![1, -1] rfl (by
    intro j _
    have : ∑ b : Fin 2, (![1, -1] : Fin 2 → ℝ) b * nodeEntry ([w, w].get b) j = 0 := by
      rw [Fin.sum_univ_two]; simp
    exact this)
  rw [hg, ← this]

theorem loopRows_two {sv : SvdFn} (hsv : SvdSpec sv) {n : ℕ} {w : List ℤ}
    (hw : ∃ j, j < n ∧ w.getD j 0 ≠ 0) (v A : ℝ) :
    loopRows sv n 2 [⟨v, A, [0, 1], [w, w]⟩] = .ok [![1, -1]] := by
  have hsc : scatter 2 [0, 1] (List.ofFn (n := [w, w].length) ![1, -1]) = .ok ![1, -1] := by
    have : List.ofFn (n := [w, w].length) ![(1 : ℝ), -1] = [1, -1] := by
      change List.ofFn (n := 2) ![(1 : ℝ), -1] = [1, -1]
      simp
    rw [this]
    unfold scatter
    rw [if_neg (by simp)]
    congr 1
    funext i
    fin_cases i <;> simp
  unfold loopRows
  rw [getG_two hsv hw]
  simp only [hsc, loopRows]

/-- Two branches on one edge, forming a loop: shares inversely proportional to the capacitances. -/
theorem fluxMatrix_two {sv : SvdFn} (hsv : SvdSpec sv) {n : ℕ} {w : List ℤ}
    (hw : ∃ j, j < n ∧ w.getD j 0 ≠ 0) (c0 c1 v A : ℝ) (hc : c0 + c1 ≠ 0) :
    fluxMatrix sv n [w, w] [c0, c1] [⟨v, A, [0, 1], [w, w]⟩] =
      .ok (some (Matrix.of fun (b : Fin 2) (_ : Fin 1) =>
        if b = 0 then round5 (c1 / (c0 + c1)) else round5 (- c0 / (c0 + c1)))) := by
  obtain ⟨j, hj, hne⟩ := kept_two hsv hw
  have hr : ((keptCols sv (arrayOf n [w, w])).map
        (fun j i => arrayOf n [w, w] i j * [c0, c1].getD i 0) ++ [![1, -1]] : List (Fin 2 → ℝ))
      = [![nodeEntry w j * c0, nodeEntry w j * c1], ![1, -1]] := by
    rw [hj]
    have e2 : (fun i : Fin 2 => arrayOf n [w, w] i j * [c0, c1].getD i 0)
        = ![nodeEntry w j * c0, nodeEntry w j * c1] := by
      funext i; match i with
      | ⟨0, _⟩ => rfl
      | ⟨1, _⟩ => rfl
    rw [← e2]; rfl
  have hX := squareOf_two ![nodeEntry w j * c0, nodeEntry w j * c1] ![1, -1]
  rw [← hr] at hX
  have hdet : (Matrix.of ![![nodeEntry w j * c0, nodeEntry w j * c1], ![1, -1]] :
      Matrix (Fin 2) (Fin 2) ℝ).det ≠ 0 := by
    rw [Matrix.det_fin_two]
    simp only [Matrix.of_apply, Matrix.cons_val_zero, Matrix.cons_val_one]
    intro h
    have : nodeEntry w j * (c0 + c1) = 0 := by linarith
    rcases mul_eq_zero.1 this with h | h
    · exact hne h
    · exact hc h
  obtain ⟨B, hB⟩ := fluxMatrix_some (kMat := [w, w]) (cEdge := [c0, c1])
    (loops := [⟨v, A, [0, 1], [w, w]⟩]) (loopRows_two hsv hw v A) (by simp) (by simp) hX hdet
  have hcon : LoopsConsistent [w, w] [⟨v, A, [0, 1], [w, w]⟩] := by
    intro l hl
    simp only [List.mem_singleton] at hl
    subst hl
    refine ⟨by simp, by simp, ?_⟩
    intro p hp
    simp only [List.length_cons, List.length_nil] at hp
    match p, hp with
    | 0, _ => rfl
    | 1, _ => rfl
  obtain ⟨G, B0, hG, -, -, hu, hround, -⟩ := flux_distribution_branches sv hsv n [w, w] [c0, c1]
    [⟨v, A, [0, 1], [w, w]⟩] hcon B hB
  have hG0 : G ⟨0, by simp⟩ ⟨0, by simp⟩ = 1 := (hG ⟨0, by simp⟩).first _ rfl
  have hG1 : G ⟨0, by simp⟩ ⟨1, by simp⟩ = -1 := by
    have hcl := (hG ⟨0, by simp⟩).closes j j.2
    have hcl' : ∑ b : Fin 2, G ⟨0, by simp⟩ b * nodeEntry ([w, w].get b) j = 0 := hcl
    rw [Fin.sum_univ_two] at hcl'
    have h3 : (G ⟨0, by simp⟩ ⟨0, by simp⟩ + G ⟨0, by simp⟩ ⟨1, by simp⟩) * nodeEntry w j = 0 := by
      rw [add_mul]; exact hcl'
    rw [hG0] at h3
    rcases mul_eq_zero.1 h3 with h | h
    · linarith
    · exact absurd h hne
  have hB0 := hu (Matrix.of fun (b : Fin 2) (_ : Fin 1) =>
        if b = 0 then c1 / (c0 + c1) else - c0 / (c0 + c1)) (by
      intro l l'
      have hl : l = ⟨0, by simp⟩ := Fin.ext (by have := l.2; simp at this; simp)
      have hl' : l' = ⟨0, by simp⟩ := Fin.ext (by have := l'.2; simp at this; simp)
      subst hl; subst hl'
      rw [if_pos rfl]
      have : ∑ b : Fin 2, G ⟨0, by simp⟩ b *
          (if b = 0 then c1 / (c0 + c1) else - c0 / (c0 + c1)) = 1 := by
        rw [Fin.sum_univ_two]
        have e0 : G ⟨0, by simp⟩ (0 : Fin 2) = 1 := hG0
        have e1 : G ⟨0, by simp⟩ (1 : Fin 2) = -1 := hG1
        rw [e0, e1]
        simp
        field_simp
        ring
      exact this) (by
      intro i hi l'
      have : ∑ b : Fin 2, nodeEntry ([w, w].get b) i * [c0, c1].getD b 0 *
          (if b = 0 then c1 / (c0 + c1) else - c0 / (c0 + c1)) = 0 := by
        rw [Fin.sum_univ_two]
        simp
        field_simp
        ring
      exact this)
  rw [hB]
  congr 2
  ext b l
  rw [hround, ← hB0]
  match b with
  | ⟨0, _⟩ => rfl
  | ⟨1, _⟩ => rfl

theorem rint_eq {x : ℝ} {z : ℤ} (h : |x - z| < 1 / 2) : rint x = z := by
  have h1 := rint_close x
  have h2 : |((rint x - z : ℤ) : ℝ)| < 1 := by
    push_cast
    have : (rint x : ℝ) - z = (rint x - x) + (x - z) := by ring
    rw [this]
    exact lt_of_le_of_lt (abs_add_le _ _) (by linarith)
  have h3 : |rint x - z| < 1 := by
    have : ((|rint x - z| : ℤ) : ℝ) < 1 := by rw [Int.cast_abs]; exact h2
    exact_mod_cast this
  have := Int.abs_lt_one_iff.1 h3
  omega

theorem round5_eq_int {x : ℝ} {z : ℤ} (h : |x - z| < 5e-6) : round5 x = z := by
  have : rint (x * 1e5) = z * 100000 := by
    apply rint_eq
    push_cast
    have : x * 1e5 - z * 100000 = (x - z) * 1e5 := by norm_num; ring
    rw [this, abs_mul, abs_of_pos (by norm_num : (0 : ℝ) < 1e5)]
    calc |x - z| * 1e5 < 5e-6 * 1e5 := by
            apply mul_lt_mul_of_pos_right h; norm_num
      _ = 1 / 2 := by norm_num
  unfold round5
  rw [this]
  push_cast
  norm_num

/-! ## C23 -/

theorem incVec_nonzero {n : ℕ} {e : Edge} (hv : ValidEdge n e) :
    ∃ j, j < n ∧ (incVec n e).getD j 0 ≠ 0 := by
  obtain ⟨h1, h2, h3⟩ := hv
  by_cases h : e.1 = 0
  · refine ⟨e.2 - 1, by omega, ?_⟩
    rw [incVec, List.getD_eq_getElem?_getD, List.getElem?_eq_getElem (by simp; omega)]
    simp only [Option.getD_some, List.getElem_map, List.getElem_range, incidence, if_pos h]
    rw [if_pos (by omega)]
    simp
  · refine ⟨e.1 - 1, by omega, ?_⟩
    rw [incVec, List.getD_eq_getElem?_getD, List.getElem?_eq_getElem (by simp; omega)]
    simp only [Option.getD_some, List.getElem_map, List.getElem_range, incidence, if_neg h]
    split
    · rw [if_pos (by omega)]; simp
    · rw [if_pos (by omega)]; simp

/-- rewriting form of `fluxMatrix_two` -/
theorem fluxMatrix_two' {sv : SvdFn} (hsv : SvdSpec sv) {n : ℕ} {w : List ℤ}
    (hw : ∃ j, j < n ∧ w.getD j 0 ≠ 0) (c0 c1 v A : ℝ) (hc : c0 + c1 ≠ 0)
    {kMat : List (List ℤ)} {cEdge : List ℝ} {loops : List LoopObj}
    (hk : kMat = [w, w]) (hce : cEdge = [c0, c1]) (hl : loops = [⟨v, A, [0, 1], [w, w]⟩]) :
    ∃ B, fluxMatrix sv n kMat cEdge loops = .ok (some B) ∧
      ∀ b l, B b l = if (b : ℕ) = 0 then round5 (c1 / (c0 + c1))
        else round5 (- c0 / (c0 + c1)) := by
  subst hk; subst hce; subst hl
  refine ⟨_, fluxMatrix_two hsv hw c0 c1 v A hc, ?_⟩
  intro b l
  match b with
  | ⟨0, _⟩ => rfl
  | ⟨1, _⟩ => rfl

/-- Two inductive elements in parallel on one edge, forming a loop. Whatever else (capacitors) the
circuit contains: construction succeeds and the flux shares are `c1/(c0+c1)` and `-c0/(c0+c1)`,
rounded to five decimals, where `c0`, `c1` are the capacitances attributed to the two elements. -/
theorem C23_two_branch_loop (sv : SvdFn) (hsv : SvdSpec sv) (torch : Bool) (fd : FluxDist)
    (O : Objs) (n : ℕ) (h : LoopId → LoopObj) (els : Elements) (hv : ValidElements n els)
    (h0 : ∀ p ∈ els, ∀ i ∈ p.2, (O.elem i).kind = .ind → (O.elem i).value ≠ 0)
    (e : Edge) (i j : ElemId) (l : LoopId)
    (hp : inductivePlacements O els = [(e, i), (e, j)])
    (hli : (O.elem i).loops = [l]) (hlj : (O.elem j).loops = [l])
    (hc : fluxCap O fd i + fluxCap O fd j ≠ 0) :
    ∃ a B, getLCWB sv torch fd O n h els = .ok ⟨a, some B⟩ ∧
      a.st.kMat.length = 2 ∧ a.st.loops = [l] ∧
      ∀ b l', B b l' =
        if (b : ℕ) = 0 then round5 (fluxCap O fd j / (fluxCap O fd i + fluxCap O fd j))
        else round5 (- fluxCap O fd i / (fluxCap O fd i + fluxCap O fd j)) := by
  obtain ⟨a, ha⟩ := buildEdges_succeeds torch fd hv h0 (initAcc n h)
  have ha : traverse torch fd O n h els = .ok a := ha
  obtain ⟨l1, -, l2, l3, -⟩ := C19_loop_membership torch fd O n h els hv a ha
  obtain ⟨-, -, -, -, -, hk⟩ := C18_branch_numbering torch fd O n h els hv a ha
  have hce := traverse_cEdge hv ha
  have hu : loopUses O els = [(l, 0, e), (l, 1, e)] := by
    simp [loopUses, numbered, hp, List.zipIdx, hli, hlj]
  have huo : usesOf O els l = [(0, e), (1, e)] := by simp [usesOf, hu]
  have hloops : a.st.loops = [l] := by rw [l1, hu]; simp [firstUses]
  rw [hp] at hk hce
  have hve : ValidEdge n e := by
    have : (e, i) ∈ inductivePlacements O els := by rw [hp]; simp
    have := List.mem_of_mem_filter this
    simp only [placements, List.mem_flatMap, List.mem_map, Prod.mk.injEq] at this
    obtain ⟨p, hpm, q, -, rfl, -⟩ := this
    exact hv p hpm
  have hobj : a.st.loops.map a.st.loopHeap
      = [⟨(h l).value, (h l).A, [0, 1], [incVec n e, incVec n e]⟩] := by
    rw [hloops]
    obtain ⟨e1, e2⟩ := l2 l (by rw [hloops]; simp)
    obtain ⟨e3, e4⟩ := l3 l
    rw [huo] at e1 e2
    simp only [List.map_cons, List.map_nil] at e1 e2 ⊢
    rw [← e3, ← e4, ← e1, ← e2]
  obtain ⟨B, hB, hB'⟩ := fluxMatrix_two' hsv (incVec_nonzero hve) _ _ _ _ hc hk hce hobj
  refine ⟨a, B, ?_, by rw [hk]; rfl, hloops, hB'⟩
  unfold getLCWB
  rw [ha]
  simp only [hB]

/-- One junction and one inductor in parallel: with 'junctions' the whole flux is on the junction,
with 'inductors' on the inductor. The sign is + for the element listed first. -/
theorem C23_whole_flux (sv : SvdFn) (hsv : SvdSpec sv) (torch : Bool) (fd : FluxDist)
    (O : Objs) (n : ℕ) (h : LoopId → LoopObj) (els : Elements) (hv : ValidElements n els)
    (h0 : ∀ p ∈ els, ∀ i ∈ p.2, (O.elem i).kind = .ind → (O.elem i).value ≠ 0)
    (e : Edge) (i j : ElemId) (l : LoopId)
    (hp : inductivePlacements O els = [(e, i), (e, j)])
    (hli : (O.elem i).loops = [l]) (hlj : (O.elem j).loops = [l])
    (hkinds : ((O.elem i).kind = .jj ∧ (O.elem j).kind = .ind) ∨
      ((O.elem i).kind = .ind ∧ (O.elem j).kind = .jj))
    (hfd : fd ≠ .all) :
    ∃ a B, getLCWB sv torch fd O n h els = .ok ⟨a, some B⟩ ∧
      a.st.kMat.length = 2 ∧ a.st.loops = [l] ∧
      ∀ b l', B b l' =
        if (b : ℕ) = 0 then
          (if (O.elem i).kind = (if fd = .junctions then .jj else .ind) then 1 else 0)
        else
          (if (O.elem j).kind = (if fd = .junctions then .jj else .ind) then -1 else 0) := by
  have r1 : round5 (1e20 / (1e-20 + 1e20)) = 1 := by
    have := round5_eq_int (x := 1e20 / (1e-20 + 1e20)) (z := 1) (by norm_num [abs_lt])
    simpa using this
  have r2 : round5 (-1e-20 / (1e-20 + 1e20)) = 0 := by
    have := round5_eq_int (x := -1e-20 / (1e-20 + 1e20)) (z := 0) (by norm_num [abs_lt])
    simpa using this
  have r3 : round5 (1e-20 / (1e20 + 1e-20)) = 0 := by
    have := round5_eq_int (x := 1e-20 / (1e20 + 1e-20)) (z := 0) (by norm_num [abs_lt])
    simpa using this
  have r4 : round5 (-1e20 / (1e20 + 1e-20)) = -1 := by
    have := round5_eq_int (x := -1e20 / (1e20 + 1e-20)) (z := -1) (by norm_num [abs_lt])
    simpa using this
  have hc : fluxCap O fd i + fluxCap O fd j ≠ 0 := by
    rcases hkinds with ⟨k1, k2⟩ | ⟨k1, k2⟩ <;> cases fd <;> simp [fluxCap, k1, k2] at hfd ⊢ <;>
      norm_num
  obtain ⟨a, B, hB, hk, hl, hval⟩ := C23_two_branch_loop sv hsv torch fd O n h els hv h0 e i j l hp
    hli hlj hc
  refine ⟨a, B, hB, hk, hl, ?_⟩
  intro b l'
  rw [hval]
  rcases hkinds with ⟨k1, k2⟩ | ⟨k1, k2⟩ <;> cases fd
  · exact absurd rfl hfd
  · simp only [fluxCap, k1, k2, r1, r2]; simp
  · simp only [fluxCap, k1, k2, r3, r4]; simp
  · exact absurd rfl hfd
  · simp only [fluxCap, k1, k2, r3, r4]; simp
  · simp only [fluxCap, k1, k2, r1, r2]; simp

/-- With 'all' the shares of the flux are inversely proportional to the attached capacitances
(up to the rounding to five decimals): `C_i·B_i + C_j·B_j = 0` and `B_i - B_j = 1`. -/
theorem C23_all_shares (sv : SvdFn) (hsv : SvdSpec sv) (torch : Bool)
    (O : Objs) (n : ℕ) (h : LoopId → LoopObj) (els : Elements) (hv : ValidElements n els)
    (h0 : ∀ p ∈ els, ∀ i ∈ p.2, (O.elem i).kind = .ind → (O.elem i).value ≠ 0)
    (e : Edge) (i j : ElemId) (l : LoopId)
    (hp : inductivePlacements O els = [(e, i), (e, j)])
    (hli : (O.elem i).loops = [l]) (hlj : (O.elem j).loops = [l])
    (hci : 0 < (O.elem (O.elem i).cap).value) (hcj : 0 < (O.elem (O.elem j).cap).value) :
    ∃ a B, getLCWB sv torch .all O n h els = .ok ⟨a, some B⟩ ∧
      ∃ Bi Bj : ℝ, (O.elem (O.elem i).cap).value * Bi + (O.elem (O.elem j).cap).value * Bj = 0 ∧
        Bi - Bj = 1 ∧
        ∀ b l', |B b l' - (if (b : ℕ) = 0 then Bi else Bj)| ≤ 5e-6 := by
  have hc : fluxCap O .all i + fluxCap O .all j ≠ 0 := by
    have : 0 < fluxCap O .all i + fluxCap O .all j := by
      simp only [fluxCap]; exact add_pos hci hcj
    exact this.ne'
  obtain ⟨a, B, hB, hk, hl, hval⟩ := C23_two_branch_loop sv hsv torch .all O n h els hv h0 e i j l
    hp hli hlj hc
  have hc' : (O.elem (O.elem i).cap).value + (O.elem (O.elem j).cap).value ≠ 0 := hc
  refine ⟨a, B, hB, (O.elem (O.elem j).cap).value /
      ((O.elem (O.elem i).cap).value + (O.elem (O.elem j).cap).value),
    - (O.elem (O.elem i).cap).value /
      ((O.elem (O.elem i).cap).value + (O.elem (O.elem j).cap).value), ?_, ?_, ?_⟩
  · field_simp; ring
  · field_simp; ring
  · intro b l'
    rw [hval]
    split
    · exact round5_close _
    · exact round5_close _

/-! ### The hypotheses are met -/

/-- a function meeting `SvdSpec` (so the theorems do not speak about nothing) -/
noncomputable def exSv : SvdFn := fun b m M =>
  List.replicate M.rank 1 ++ List.replicate (min b m - M.rank) 0

theorem exSv_spec : SvdSpec exSv where
  length := by
    intro b m M
    have h1 : M.rank ≤ b := by simpa using M.rank_le_height
    have h2 : M.rank ≤ m := by simpa using M.rank_le_width
    simp only [exSv, List.length_append, List.length_replicate]
    omega
  sorted := by
    intro b m M
    simp only [exSv, List.pairwise_append, List.pairwise_replicate]
    refine ⟨Or.inr le_rfl, Or.inr le_rfl, ?_⟩
    intro x hx y hy
    rw [List.eq_of_mem_replicate hx, List.eq_of_mem_replicate hy]
    norm_num
  nonneg := by
    intro b m M x hx
    simp only [exSv, List.mem_append] at hx
    rcases hx with hx | hx <;> rw [List.eq_of_mem_replicate hx]
    norm_num
  rank := by
    intro b m M
    simp only [exSv, List.filter_append, List.length_append]
    rw [List.filter_eq_self.2, List.filter_eq_nil_iff.2]
    · simp
    · intro x hx
      rw [List.eq_of_mem_replicate hx]; norm_num
    · intro x hx
      rw [List.eq_of_mem_replicate hx]; norm_num

/-- an rf-SQUID-like circuit on two nodes: inductor 0 and junction 2 in parallel on (1,2) sharing
loop 0, capacitor 3 from node 1 to ground -/
def sqEls : Elements := [((0, 1), [3]), ((1, 2), [0, 2])]

theorem sqEls_valid : ValidElements 2 sqEls := by
  intro p hp
  simp [sqEls] at hp
  rcases hp with rfl | rfl <;> simp [ValidEdge]

theorem sqEls_ind : ∀ p ∈ sqEls, ∀ i ∈ p.2, (exObjs.elem i).kind = .ind →
    (exObjs.elem i).value ≠ 0 := by
  intro p hp i hi hk
  simp [sqEls] at hp
  rcases hp with rfl | rfl
  · simp at hi; subst hi; simp [exObjs] at hk
  · simp at hi; rcases hi with rfl | rfl <;> simp [exObjs] at hk ⊢

theorem sqEls_pl : inductivePlacements exObjs sqEls = [((1, 2), 0), ((1, 2), 2)] := by
  simp [inductivePlacements, placements, sqEls, exObjs]

theorem exObjs_once : LoopsListedOnce exObjs := by
  intro i
  simp only [exObjs]
  split_ifs <;> simp

example (h : LoopId → LoopObj) :
    ∃ a B, getLCWB exSv true .junctions exObjs 2 h sqEls = .ok ⟨a, some B⟩ ∧
      a.st.kMat.length = 2 ∧ a.st.loops = [0] ∧
      ∀ b l', B b l' = if (b : ℕ) = 0 then 0 else -1 := by
  obtain ⟨a, B, h1, h2, h3, h4⟩ := C23_whole_flux exSv exSv_spec true .junctions exObjs 2 h sqEls
    sqEls_valid sqEls_ind (1, 2) 0 2 0 sqEls_pl (by simp [exObjs]) (by simp [exObjs])
    (by simp [exObjs]) (by simp)
  refine ⟨a, B, h1, h2, h3, ?_⟩
  intro b l'
  rw [h4]
  simp [exObjs]

example (h : LoopId → LoopObj) :
    ∃ a B, getLCWB exSv true .all exObjs 2 h sqEls = .ok ⟨a, some B⟩ := by
  obtain ⟨a, B, h1, -⟩ := C23_all_shares exSv exSv_spec true exObjs 2 h sqEls sqEls_valid sqEls_ind
    (1, 2) 0 2 0 sqEls_pl (by simp [exObjs]) (by simp [exObjs]) (by simp [exObjs])
    (by simp [exObjs])
  exact ⟨a, B, h1⟩

/-- C22's hypotheses are met by the same circuit -/
example (h : LoopId → LoopObj) : ∃ a B, getLCWB exSv true .all exObjs 2 h sqEls = .ok ⟨a, some B⟩ ∧
    a.st.cEdge = [3, 3] := by
  obtain ⟨a, B, h1, -⟩ := C23_all_shares exSv exSv_spec true exObjs 2 h sqEls sqEls_valid sqEls_ind
    (1, 2) 0 2 0 sqEls_pl (by simp [exObjs]) (by simp [exObjs]) (by simp [exObjs])
    (by simp [exObjs])
  refine ⟨a, B, h1, ?_⟩
  rw [(C22_flux_distribution exSv exSv_spec true .all exObjs 2 h sqEls sqEls_valid exObjs_once a B
    h1).2.1, sqEls_pl]
  simp [fluxCap, exObjs]

/-- C21's hypothesis is met: the loop vector of that circuit's loop is (1, -1). -/
example : getG exSv 2 [[1, -1], [1, -1]] = .ok ![1, -1] :=
  getG_two exSv_spec ⟨0, by norm_num, by simp⟩

end SQ
