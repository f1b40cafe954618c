import Verif.Props.Islands2

/-! # C93: two capacitively coupled transmons -/

namespace SQ
open Matrix Spec Real

/-- two islands with given routines -/
noncomputable def twoSpec (torch : Bool) (fd : FluxDist) (O : Objs) (ids1 ids2 idsc : List ElemId) (h : LoopId → LoopObj)
    (lib : ∀ n, NumLib n) (sv : SvdFn) (argsort : ArgsortFn) (argmax : ∀ k, ArgmaxFn k) (draws : Draws) :
    CircSpec where
  torch := torch
  fd := fd
  O := O
  els := twoEls ids1 ids2 idsc
  h := h
  lib := lib
  sv := sv
  argsort := argsort
  argmax := argmax
  draws := draws
  fuel := 3

/-- junctions on both islands, only capacitors between them, no flux loops -/
structure TwoIslands (O : Objs) (ids1 ids2 idsc : List ElemId) : Prop where
  first : OnlyJunctions O ids1
  second : OnlyJunctions O ids2
  coupling : ∀ i ∈ idsc, (O.elem i).kind = .cap
  noLoops : ∀ i, i ∈ ids1 ∨ i ∈ ids2 ∨ i ∈ idsc → (O.elem i).loops = []

/-- positive capacitances, the coupling not beyond 1 - 10⁻¹¹ of the largest possible one, and node capacitances
below 1e29 farad (the code compares with thresholds) -/
structure TwoValues (O : Objs) (ids1 ids2 idsc : List ElemId) (v : ElemId → ℝ) : Prop where
  pos : ∀ i, i ∈ ids1 ∨ i ∈ ids2 ∨ i ∈ idsc → 0 < placedCap (O.withVals v) i
  cond : (totalCap (O.withVals v) ids1 + totalCap (O.withVals v) idsc) *
      (totalCap (O.withVals v) ids2 + totalCap (O.withVals v) idsc) ≤
    1e11 * (totalCap (O.withVals v) ids1 * totalCap (O.withVals v) ids2 +
      totalCap (O.withVals v) idsc * (totalCap (O.withVals v) ids1 + totalCap (O.withVals v) ids2))
  bound1 : totalCap (O.withVals v) ids1 + totalCap (O.withVals v) idsc ≤ 1e29
  bound2 : totalCap (O.withVals v) ids2 + totalCap (O.withVals v) idsc ≤ 1e29

variable {O : Objs} {ids1 ids2 idsc : List ElemId}

theorem two_edges (hi : TwoIslands O ids1 ids2 idsc) : junctionEdges O (twoEls ids1 ids2 idsc) = [(0, 1), (0, 2)] := by
  have h1 : ids1.any (fun i => decide ((O.elem i).kind = .jj)) = true := by
    rw [List.any_eq_true]
    obtain ⟨i, hi, hk⟩ := hi.first.2
    exact ⟨i, hi, by simpa using hk⟩
  have h2 : ids2.any (fun i => decide ((O.elem i).kind = .jj)) = true := by
    rw [List.any_eq_true]
    obtain ⟨i, hi, hk⟩ := hi.second.2
    exact ⟨i, hi, by simpa using hk⟩
  have h3 : idsc.any (fun i => decide ((O.elem i).kind = .jj)) = false := by
    rw [List.any_eq_false]
    intro i hi'
    simp [hi.coupling i hi']
  unfold junctionEdges twoEls
  simp only [List.filter_cons, h1, h2, h3, List.filter_nil]
  rfl

theorem two_placements : placements (twoEls ids1 ids2 idsc) =
    ids1.map (fun i => ((0, 1), i)) ++ (ids2.map (fun i => ((0, 2), i)) ++ idsc.map (fun i => ((1, 2), i))) := by
  simp [placements, twoEls]

theorem two_caps (O : Objs) : capacitances O (twoEls ids1 ids2 idsc) 2 =
    !![totalCap O ids1 + totalCap O idsc, -totalCap O idsc; -totalCap O idsc, totalCap O ids2 + totalCap O idsc] := by
  have hs : ∀ (e : Edge) (l : List ElemId), (l.map (fun i => placedCap O i • edgeMat 2 e)).sum =
      totalCap O l • edgeMat 2 e := by
    intro e l
    unfold totalCap
    induction l with
    | nil => simp
    | cons x l ih => rw [List.map_cons, List.sum_cons, ih, List.map_cons, List.sum_cons, add_smul]
  unfold capacitances
  rw [two_placements]
  simp only [List.map_append, List.map_map, List.sum_append, Function.comp_def]
  rw [hs, hs, hs]
  ext i j
  fin_cases i <;> fin_cases j <;> simp [edgeMat, incidence]

/-- explicit inverse -/
theorem two_inv {C1 C2 Cc : ℝ} (h : C1 * C2 + Cc * (C1 + C2) ≠ 0) :
    (!![C1 + Cc, -Cc; -Cc, C2 + Cc] : Matrix (Fin 2) (Fin 2) ℝ)⁻¹ = twoInvCap C1 C2 Cc := by
  apply inv_eq_right_inv
  unfold twoInvCap
  rw [Matrix.mul_smul]
  ext i j
  fin_cases i <;> fin_cases j <;> simp [Matrix.mul_apply, Fin.sum_univ_two]
  · rw [inv_mul_eq_one₀ h]; ring
  · right; ring
  · right; ring
  · rw [inv_mul_eq_one₀ h]; ring

theorem twoInv_inv {C1 C2 Cc : ℝ} (h : C1 * C2 + Cc * (C1 + C2) ≠ 0) :
    (twoInvCap C1 C2 Cc)⁻¹ = !![C1 + Cc, -Cc; -Cc, C2 + Cc] := by
  rw [← two_inv h, nonsing_inv_nonsing_inv]
  rw [isUnit_iff_ne_zero, det_fin_two_of]
  intro h0
  apply h
  linarith

/-- junction by junction inverse capacitance of the dictionary -/
theorem two_invCap (hi : TwoIslands O ids1 ids2 idsc) (v : ElemId → ℝ) (hlen : (junctionEdges O (twoEls ids1 ids2 idsc)).length = 2)
    (h : totalCap (O.withVals v) ids1 * totalCap (O.withVals v) ids2 +
      totalCap (O.withVals v) idsc * (totalCap (O.withVals v) ids1 + totalCap (O.withVals v) ids2) ≠ 0) :
    junctionInvCap (O.withVals v) (twoEls ids1 ids2 idsc) 2 = (twoInvCap (totalCap (O.withVals v) ids1)
      (totalCap (O.withVals v) ids2) (totalCap (O.withVals v) idsc)).submatrix (Fin.cast hlen) (Fin.cast hlen) := by
  have hJ : junctionIncidence (O.withVals v) (twoEls ids1 ids2 idsc) 2 =
      (1 : Matrix (Fin 2) (Fin 2) ℝ).submatrix (Fin.cast hlen) id := by
    have key : ∀ (l : List Edge) (hl : l = [(0, 1), (0, 2)]) (h2 : l.length = 2),
        (Matrix.of fun (i : Fin l.length) (k : Fin 2) => ((incidence (l.get i) (k + 1) : ℤ) : ℝ)) =
        (1 : Matrix (Fin 2) (Fin 2) ℝ).submatrix (Fin.cast h2) id := by
      rintro _ rfl h2
      ext i j
      fin_cases i <;> fin_cases j <;> simp [incidence]
    exact key _ (two_edges hi) hlen
  unfold junctionInvCap
  rw [hJ, two_caps, two_inv h]
  have key : ∀ {q : ℕ} (hq : q = 2) (G : Matrix (Fin 2) (Fin 2) ℝ), (1 : Matrix (Fin 2) (Fin 2) ℝ).submatrix (Fin.cast hq) id *
      G * ((1 : Matrix (Fin 2) (Fin 2) ℝ).submatrix (Fin.cast hq) id)ᵀ = G.submatrix (Fin.cast hq) (Fin.cast hq) := by
    rintro _ rfl G
    change (1 : Matrix (Fin 2) (Fin 2) ℝ) * G * (1 : Matrix (Fin 2) (Fin 2) ℝ)ᵀ = G
    simp
  exact key hlen _

theorem two_total_pos {l : List ElemId} (hj : OnlyJunctions O l) (v : ElemId → ℝ)
    (hv : ∀ i ∈ l, 0 < placedCap (O.withVals v) i) : 0 < totalCap (O.withVals v) l := by
  unfold totalCap
  apply List.sum_pos
  · intro x hx
    obtain ⟨i, hi, rfl⟩ := List.mem_map.1 hx
    exact hv i hi
  · obtain ⟨i, hi, -⟩ := hj.2
    intro h
    rw [List.map_eq_nil_iff] at h
    rw [h] at hi
    simp at hi

variable {torch : Bool} {fd : FluxDist} {h : LoopId → LoopObj} {lib : ∀ n, NumLib n} {sv : SvdFn}
  {argsort : ArgsortFn} {argmax : ∀ k, ArgmaxFn k} {draws : Draws}

theorem two_island (hi : TwoIslands O ids1 ids2 idsc) :
    IslandCircuit (twoSpec torch fd O ids1 ids2 idsc h lib sv argsort argmax draws) 2 where
  nodes := rfl
  valid := by
    intro p hp
    simp [twoSpec, twoEls] at hp
    rcases hp with rfl | rfl | rfl <;> simp [ValidEdge]
  ground := by
    intro k hk
    obtain ⟨i1, hi1, -⟩ := hi.first.2
    obtain ⟨i2, hi2, -⟩ := hi.second.2
    have j1 : Joined (twoEls ids1 ids2 idsc) 1 0 := ⟨((0,1),ids1), by simp [twoEls], by
      simp [List.ne_nil_of_mem hi1], by simp⟩
    have j2 : Joined (twoEls ids1 ids2 idsc) 2 0 := ⟨((0,2),ids2), by simp [twoEls], by
      simp [List.ne_nil_of_mem hi2], by simp⟩
    interval_cases k
    · exact .refl
    · exact .single j1
    · exact .single j2
  noInd := by
    intro q hq
    change q ∈ placements (twoEls ids1 ids2 idsc) at hq
    rw [two_placements] at hq
    simp only [List.mem_append, List.mem_map] at hq
    rcases hq with ⟨i, hi', rfl⟩ | ⟨i, hi', rfl⟩ | ⟨i, hi', rfl⟩
    · exact hi.first.1 i hi'
    · exact hi.second.1 i hi'
    · have := hi.coupling i hi'
      change (O.elem i).kind ≠ .ind
      rw [this]; simp
  noLoops := by
    intro q hq
    change q ∈ placements (twoEls ids1 ids2 idsc) at hq
    rw [two_placements] at hq
    simp only [List.mem_append, List.mem_map] at hq
    rcases hq with ⟨i, hi', rfl⟩ | ⟨i, hi', rfl⟩ | ⟨i, hi', rfl⟩
    · exact hi.noLoops i (Or.inl hi')
    · exact hi.noLoops i (Or.inr (Or.inl hi'))
    · exact hi.noLoops i (Or.inr (Or.inr hi'))
  some := by
    change junctionEdges O (twoEls ids1 ids2 idsc) ≠ []
    rw [two_edges hi]; simp
  indep := by
    change LinearIndependent ℝ (junctionIncidence O (twoEls ids1 ids2 idsc) 2).row
    have key : ∀ (l : List Edge) (hl : l = [(0, 1), (0, 2)]),
        LinearIndependent ℝ (Matrix.of fun (i : Fin l.length) (k : Fin 2) => ((incidence (l.get i) (k + 1) : ℤ) : ℝ)).row := by
      rintro _ rfl
      have : (Matrix.of fun (i : Fin [((0 : ℕ), (1 : ℕ)), (0, 2)].length) (k : Fin 2) =>
          ((incidence ([((0 : ℕ), (1 : ℕ)), (0, 2)].get i) (k + 1) : ℤ) : ℝ)) = (1 : Matrix (Fin 2) (Fin 2) ℝ) := by
        ext i j
        fin_cases i <;> fin_cases j <;> simp [incidence]
      have h1 : LinearIndependent ℝ (1 : Matrix (Fin 2) (Fin 2) ℝ).row := by
        rw [Matrix.linearIndependent_rows_iff_isUnit]; exact isUnit_one
      rw [← this] at h1
      exact h1
    exact key _ (two_edges hi)
  square := by
    change (junctionEdges O (twoEls ids1 ids2 idsc)).length = 2
    rw [two_edges hi]; rfl

theorem two_det_pos (hi : TwoIslands O ids1 ids2 idsc) {v : ElemId → ℝ} (hv : TwoValues O ids1 ids2 idsc v) :
    0 < totalCap (O.withVals v) ids1 ∧ 0 < totalCap (O.withVals v) ids2 ∧ 0 ≤ totalCap (O.withVals v) idsc ∧
    0 < totalCap (O.withVals v) ids1 * totalCap (O.withVals v) ids2 +
      totalCap (O.withVals v) idsc * (totalCap (O.withVals v) ids1 + totalCap (O.withVals v) ids2) := by
  have h1 := two_total_pos hi.first v (fun i hi' => hv.pos i (Or.inl hi'))
  have h2 := two_total_pos hi.second v (fun i hi' => hv.pos i (Or.inr (Or.inl hi')))
  have hc : 0 ≤ totalCap (O.withVals v) idsc := by
    unfold totalCap
    apply List.sum_nonneg
    intro x hx
    obtain ⟨i, hi', rfl⟩ := List.mem_map.1 hx
    exact (hv.pos i (Or.inr (Or.inr hi'))).le
  exact ⟨h1, h2, hc, by positivity⟩

theorem two_cond_one {g c K : ℝ} (hg : 0 ≤ g) (hc : 0 ≤ c) (hK : K = √2) (hgc : g * c ≤ 1e11) (hb : c ≤ 1e29) :
    1e-6 * (√g + 1e-9) * (K * √c) < 1 := by
  subst hK
  have h2 : √2 < 1.5 := by
    rw [Real.sqrt_lt' (by norm_num)]; norm_num
  have h20 : 0 ≤ √(2 : ℝ) := Real.sqrt_nonneg _
  have h3 : √g * √c ≤ 3.2e5 := by
    rw [← Real.sqrt_mul hg]
    apply Real.sqrt_le_iff.2
    constructor
    · norm_num
    · refine hgc.trans ?_; norm_num
  have h4 : √c ≤ 3.2e14 := by
    apply Real.sqrt_le_iff.2
    constructor
    · norm_num
    · refine hb.trans ?_; norm_num
  have h5 : 0 ≤ √g * √c := by positivity
  have h6 : 0 ≤ √c := Real.sqrt_nonneg _
  have e : 1e-6 * (√g + 1e-9) * (√2 * √c) = √2 * (1e-6 * (√g * √c) + 1e-15 * √c) := by ring
  rw [e]
  have h7 : 1e-6 * (√g * √c) + 1e-15 * √c ≤ 0.64 := by
    nlinarith
  have h8 : 0 ≤ 1e-6 * (√g * √c) + 1e-15 * √c := by positivity
  nlinarith

theorem two_values (hi : TwoIslands O ids1 ids2 idsc) {v : ElemId → ℝ} (hv : TwoValues O ids1 ids2 idsc v) :
    IslandValues (twoSpec torch fd O ids1 ids2 idsc h lib sv argsort argmax draws) 2 v := by
  obtain ⟨h1, h2, hc, hd⟩ := two_det_pos hi hv
  have hlen : (junctionEdges O (twoEls ids1 ids2 idsc)).length = 2 := by rw [two_edges hi]; rfl
  constructor
  · intro q hq
    change q ∈ placements (twoEls ids1 ids2 idsc) at hq
    rw [two_placements] at hq
    simp only [List.mem_append, List.mem_map] at hq
    rcases hq with ⟨i, hi', rfl⟩ | ⟨i, hi', rfl⟩ | ⟨i, hi', rfl⟩
    · exact hv.pos i (Or.inl hi')
    · exact hv.pos i (Or.inr (Or.inl hi'))
    · exact hv.pos i (Or.inr (Or.inr hi'))
  · change WellConditioned 2 (junctionInvCap (O.withVals v) (twoEls ids1 ids2 idsc) 2)
    rw [two_invCap hi v hlen hd.ne']
    have hsub : ∀ {q : ℕ} (hq : q = 2) (G : Matrix (Fin 2) (Fin 2) ℝ), WellConditioned 2 G →
        WellConditioned 2 (G.submatrix (Fin.cast hq) (Fin.cast hq)) := by
      rintro _ rfl G hG
      exact hG
    refine hsub hlen _ ?_
    intro p
    rw [twoInv_inv hd.ne']
    have hc1 := hv.cond
    have hb1 := hv.bound1
    have hb2 := hv.bound2
    generalize totalCap (O.withVals v) ids1 = C1 at *
    generalize totalCap (O.withVals v) ids2 = C2 at *
    generalize totalCap (O.withVals v) idsc = Cc at *
    have hK : √((2 : ℕ) : ℝ) = √2 := by norm_num
    have hgc : (C1 * C2 + Cc * (C1 + C2))⁻¹ * ((C1 + Cc) * (C2 + Cc)) ≤ 1e11 := by
      rw [inv_mul_le_iff₀ hd]; linarith
    fin_cases p
    · refine two_cond_one ?_ ?_ hK ?_ ?_ <;> simp [twoInvCap]
      · positivity
      · positivity
      · rw [mul_assoc, mul_comm (C2 + Cc)]
        norm_num at hgc ⊢; exact hgc
      · norm_num at hb1 ⊢; exact hb1
    · refine two_cond_one ?_ ?_ hK ?_ ?_ <;> simp [twoInvCap]
      · positivity
      · positivity
      · rw [mul_assoc]
        norm_num at hgc ⊢; exact hgc
      · norm_num at hb2 ⊢; exact hb2

theorem twoInvCap_entries (C1 C2 Cc : ℝ) :
    twoInvCap C1 C2 Cc 0 0 = (C1 * C2 + Cc * (C1 + C2))⁻¹ * (C2 + Cc) ∧
    twoInvCap C1 C2 Cc 0 1 = (C1 * C2 + Cc * (C1 + C2))⁻¹ * Cc ∧
    twoInvCap C1 C2 Cc 1 0 = (C1 * C2 + Cc * (C1 + C2))⁻¹ * Cc ∧
    twoInvCap C1 C2 Cc 1 1 = (C1 * C2 + Cc * (C1 + C2))⁻¹ * (C1 + Cc) := by
  refine ⟨?_, ?_, ?_, ?_⟩ <;> simp [twoInvCap]

theorem pairs_comm {k : ℕ} (m : Fin k → ℕ) (ng : Fin k → ℝ) {i j : Fin k} (hij : i ≠ j) :
    pairs m ng i * pairs m ng j = pairs m ng j * pairs m ng i := by
  have hc : onMode m i (qCharge (m i)) * onMode m j (qCharge (m j)) =
      onMode m j (qCharge (m j)) * onMode m i (qCharge (m i)) := by
    rw [onMode_eq, onMode_eq]
    exact single_comm hij _ _
  unfold pairs
  simp only [sub_mul, mul_sub, hc, smul_mul_assoc, mul_smul_comm, one_mul, mul_one]
  module

/-- the charging energy of two islands, term by term -/
theorem two_island_hamiltonian {k : ℕ} (σ : Fin 2 ≃ Fin k) (C1 C2 Cc : ℝ) (E : Fin 2 → ℝ) (m : Fin k → ℕ) (ng : Fin k → ℝ) :
    islandHamiltonian σ (twoInvCap C1 C2 Cc) E m ng =
      (((2 * eCharge) ^ 2 / 2 / hbar / (C1 * C2 + Cc * (C1 + C2)) : ℝ) : ℂ) • (
        ((C2 + Cc : ℝ) : ℂ) • (pairs m ng (σ 0) * pairs m ng (σ 0)) +
        ((2 * Cc : ℝ) : ℂ) • (pairs m ng (σ 0) * pairs m ng (σ 1)) +
        ((C1 + Cc : ℝ) : ℂ) • (pairs m ng (σ 1) * pairs m ng (σ 1))) -
      ((E 0 : ℂ) • chargeCos m (σ 0) 0 + (E 1 : ℂ) • chargeCos m (σ 1) 0) := by
  unfold islandHamiltonian pairEnergy
  rw [← σ.sum_comp]
  simp only [← σ.sum_comp (fun j => _ • (_ * pairs m ng j)), submatrix_apply, Equiv.symm_apply_apply, Fin.sum_univ_two]
  rw [pairs_comm m ng (i := σ 1) (j := σ 0) (fun h => by have := σ.injective h; simp at this)]
  congr 1
  obtain ⟨e1, e2, e3, e4⟩ := twoInvCap_entries C1 C2 Cc
  rw [e1, e2, e3, e4]
  generalize (C1 * C2 + Cc * (C1 + C2)) = D
  generalize ((2 * eCharge) ^ 2 / 2 / hbar) = K
  generalize pairs m ng (σ 0) * pairs m ng (σ 0) = X
  generalize pairs m ng (σ 0) * pairs m ng (σ 1) = Y
  generalize pairs m ng (σ 1) * pairs m ng (σ 1) = Z
  push_cast
  rw [div_eq_mul_inv]
  module

/-- C93 (two capacitively coupled transmons or Cooper pair boxes, each any number of junctions and capacitors in
parallel): the constructor accepts the circuit, which has two modes p and q for nodes 1 and 2, and its Hamiltonian is
(2e)²/2D [(C₂+C_c)(n_p-n_gp)² + 2C_c(n_p-n_gp)(n_q-n_gq) + (C₁+C_c)(n_q-n_gq)²] - E_J1 cos φ_p - E_J2 cos φ_q
with D = C₁C₂ + C_c(C₁+C₂).  The mode of the island with the smaller capacitance comes first. -/
theorem C93_two_transmons (torch : Bool) (fd : FluxDist) (O : Objs) (ids1 ids2 idsc : List ElemId)
    (hi : TwoIslands O ids1 ids2 idsc) (h : LoopId → LoopObj) (lib : ∀ n, NumLib n)
    (hlib : ∀ n, ∀ C L : Matrix (Fin n) (Fin n) ℝ, C.PosDef → L.PosSemidef → LibSpec (lib n) C L)
    (sv : SvdFn) (hsv : SvdSpec sv) (argsort : ArgsortFn) (ha : ArgsortSpec argsort) (argmax : ∀ k, ArgmaxFn k)
    (hm : ∀ k, ArgmaxSpec (argmax k)) (draws : Draws) (vals : ElemId → ℝ) (hv : TwoValues O ids1 ids2 idsc vals) :
    let C1 := totalCap (O.withVals vals) ids1
    let C2 := totalCap (O.withVals vals) ids2
    let Cc := totalCap (O.withVals vals) idsc
    let EJ := fun ids : List ElemId => ((ids.filter (fun i => decide ((O.elem i).kind = .jj))).map vals).sum
    ∃ b, buildCirc (twoSpec torch fd O ids1 ids2 idsc h lib sv argsort argmax draws) vals = .ok b ∧
      b.M.keep.length = 2 ∧ ∃ p q : Fin b.M.keep.length, p ≠ q ∧ (C1 < C2 → p < q) ∧ (C2 < C1 → q < p) ∧
      ∀ (flux : LoopId → ℝ) (m : Fin b.M.keep.length → ℕ) (ng : Fin b.M.keep.length → ℝ),
        fullHamiltonian b.C b.M m ng vals (b.fluxes flux) b.inds b.juns = .ok (
          (((2 * eCharge) ^ 2 / 2 / hbar / (C1 * C2 + Cc * (C1 + C2)) : ℝ) : ℂ) • (
            ((C2 + Cc : ℝ) : ℂ) • (pairs m ng p * pairs m ng p) +
            ((2 * Cc : ℝ) : ℂ) • (pairs m ng p * pairs m ng q) +
            ((C1 + Cc : ℝ) : ℂ) • (pairs m ng q * pairs m ng q)) -
          ((EJ ids1 : ℂ) • chargeCos m p 0 + (EJ ids2 : ℂ) • chargeCos m q 0)) := by
  intro C1 C2 Cc EJ
  obtain ⟨h1, h2, hc, hd⟩ := two_det_pos hi hv
  have hlen : (junctionEdges O (twoEls ids1 ids2 idsc)).length = 2 := by rw [two_edges hi]; rfl
  obtain ⟨b, hb, -, hk, σ, hord, hH⟩ := C93_constructed (twoSpec torch fd O ids1 ids2 idsc h lib sv argsort argmax draws) 2
    (two_island hi) ⟨hlib, hsv, ha, hm, le_refl 3⟩ vals (two_values hi hv)
  have hG := two_invCap hi vals hlen hd.ne'
  have hE : ∀ i, edgeEJ O (twoEls ids1 ids2 idsc) vals ((junctionEdges O (twoEls ids1 ids2 idsc)).get i) =
      ![EJ ids1, EJ ids2] (i.cast hlen) := by
    have e1 : ∀ (e : Edge) (l : List ElemId) (e' : Edge),
        (((l.map (fun i => (e, i))).filter (fun q => decide ((O.elem q.2).kind = .jj ∧ q.1 = e'))).map
          (fun q => vals q.2)).sum = if e = e' then EJ l else 0 := by
      intro e l e'
      rw [List.filter_map, List.map_map]
      by_cases he : e = e'
      · subst he
        rw [if_pos rfl]
        simp only [Function.comp_def, and_true]
        rfl
      · rw [if_neg he, List.filter_eq_nil_iff.2]
        · rfl
        · intro i _
          simp [he]
    have key : ∀ (l : List Edge) (hl : l = [(0, 1), (0, 2)]) (h2 : l.length = 2) (i : Fin l.length),
        edgeEJ O (twoEls ids1 ids2 idsc) vals (l.get i) = ![EJ ids1, EJ ids2] (i.cast h2) := by
      rintro _ rfl h2 i
      unfold edgeEJ
      rw [two_placements, List.filter_append, List.filter_append, List.map_append, List.map_append, List.sum_append,
        List.sum_append, e1, e1, e1]
      have hcz : EJ idsc = 0 := by
        change ((idsc.filter (fun i => decide ((O.elem i).kind = .jj))).map vals).sum = 0
        rw [List.filter_eq_nil_iff.2]
        · rfl
        · intro i hi'
          simp [hi.coupling i hi']
      rw [hcz]
      fin_cases i <;> simp
    exact key _ (two_edges hi) hlen
  have hE' : (fun i => edgeEJ O (twoEls ids1 ids2 idsc) vals ((junctionEdges O (twoEls ids1 ids2 idsc)).get i)) =
      fun i => ![EJ ids1, EJ ids2] (i.cast hlen) := funext hE
  have key : ∀ {q k : ℕ} (hq : q = 2) (σ : Fin q ≃ Fin k) (m : Fin k → ℕ) (ng : Fin k → ℝ),
      islandHamiltonian σ ((twoInvCap C1 C2 Cc).submatrix (Fin.cast hq) (Fin.cast hq))
        (fun i => ![EJ ids1, EJ ids2] (i.cast hq)) m ng =
      (((2 * eCharge) ^ 2 / 2 / hbar / (C1 * C2 + Cc * (C1 + C2)) : ℝ) : ℂ) • (
        ((C2 + Cc : ℝ) : ℂ) • (pairs m ng (σ (Fin.cast hq.symm 0)) * pairs m ng (σ (Fin.cast hq.symm 0))) +
        ((2 * Cc : ℝ) : ℂ) • (pairs m ng (σ (Fin.cast hq.symm 0)) * pairs m ng (σ (Fin.cast hq.symm 1))) +
        ((C1 + Cc : ℝ) : ℂ) • (pairs m ng (σ (Fin.cast hq.symm 1)) * pairs m ng (σ (Fin.cast hq.symm 1)))) -
      ((EJ ids1 : ℂ) • chargeCos m (σ (Fin.cast hq.symm 0)) 0 + (EJ ids2 : ℂ) • chargeCos m (σ (Fin.cast hq.symm 1)) 0) := by
    rintro _ k rfl σ m ng
    exact two_island_hamiltonian σ C1 C2 Cc _ m ng
  refine ⟨b, hb, hk, σ (Fin.cast hlen.symm 0), σ (Fin.cast hlen.symm 1), ?_, ?_, ?_, ?_⟩
  · intro hh
    have h0 : (0 : ℕ) = 1 := congrArg Fin.val (σ.injective hh)
    omega
  · intro hlt
    refine hord _ _ ?_
    change junctionInvCap (O.withVals vals) (twoEls ids1 ids2 idsc) 2 _ _ < junctionInvCap (O.withVals vals) (twoEls ids1 ids2 idsc) 2 _ _
    rw [hG]
    change twoInvCap C1 C2 Cc 1 1 < twoInvCap C1 C2 Cc 0 0
    obtain ⟨e1, e2, e3, e4⟩ := twoInvCap_entries C1 C2 Cc
    rw [e1, e4]
    have : 0 < (C1 * C2 + Cc * (C1 + C2))⁻¹ := inv_pos.2 hd
    exact mul_lt_mul_of_pos_left (by linarith) this
  · intro hlt
    refine hord _ _ ?_
    change junctionInvCap (O.withVals vals) (twoEls ids1 ids2 idsc) 2 _ _ < junctionInvCap (O.withVals vals) (twoEls ids1 ids2 idsc) 2 _ _
    rw [hG]
    change twoInvCap C1 C2 Cc 0 0 < twoInvCap C1 C2 Cc 1 1
    obtain ⟨e1, e2, e3, e4⟩ := twoInvCap_entries C1 C2 Cc
    rw [e1, e4]
    have : 0 < (C1 * C2 + Cc * (C1 + C2))⁻¹ := inv_pos.2 hd
    exact mul_lt_mul_of_pos_left (by linarith) this
  · intro flux m ng
    rw [hH flux m ng]
    congr 1
    refine Eq.trans ?_ (key hlen σ m ng)
    have e1 : ∀ (G G' : Matrix (Fin (junctionEdges O (twoEls ids1 ids2 idsc)).length)
        (Fin (junctionEdges O (twoEls ids1 ids2 idsc)).length) ℝ) (E E' : _ → ℝ), G = G' → E = E' →
        islandHamiltonian σ G E m ng = islandHamiltonian σ G' E' m ng := by
      rintro _ _ _ _ rfl rfl; rfl
    exact e1 _ _ _ _ hG hE'

/-- The symbolic Hamiltonian of coupled islands is wrong: in every circuit of this kind in which two junction edges are
coupled, `description()` and `sym_hamiltonian` differ from the Hamiltonian that is diagonalised, as soon as every mode
has two or more charge states. -/
theorem C70_islands_refuted (c : CircSpec) (vals : ElemId → ℝ) (hc : GoodCircuit c vals) (hL : NoInductors c.O c.els)
    (hJ0 : junctionEdges c.O c.els ≠ []) (n : ℕ) (hn : numNodes c.els = .ok n)
    (hli : IndependentJunctions c.O c.els n)
    (hcond : WellConditioned n (junctionInvCap (c.O.withVals vals) c.els n))
    (hsv : SvdSpec c.sv) (ha : ArgsortSpec c.argsort)
    (htn : c.torch = false ∨ (junctionEdges c.O c.els).length = n) (b : Build) (hb : buildCirc c vals = .ok b)
    (i j : Fin (junctionEdges c.O c.els).length) (hij : i ≠ j)
    (hG : junctionInvCap (c.O.withVals vals) c.els n i j ≠ 0) (uf : ℝ) (huf : uf ≠ 0) (flux : LoopId → ℝ)
    (ng : Fin b.M.keep.length → ℝ) (m : Fin b.M.keep.length → ℕ) (hm : ∀ i, 2 ≤ m i) :
    let d := b.descrip uf vals flux ng
    fullHamiltonian b.C b.M m ng vals (b.fluxes flux) b.inds b.juns ≠
      .ok (evalSum d uf m (constructHamiltonian d b.inds b.juns)) := by
  obtain ⟨hcard, hin, hom, hJ, σ, hed, hord, hw, hcI, hsym, -⟩ := isl_facts c vals hc hL hJ0 n hn hli hcond hsv ha htn b hb
  have hwv : ∀ key ∈ b.juns, ∀ i, b.M.omega i = 0 →
      b.M.w key.wId i = -1 ∨ b.M.w key.wId i = 0 ∨ b.M.w key.wId i = 1 := by
    intro key _ i _
    rw [hw]
    split
    · exact Or.inr (Or.inr rfl)
    · exact Or.inr (Or.inl rfl)
  rcases lt_or_gt_of_ne (fun h => hij (σ.injective h) : σ i ≠ σ j) with hlt | hlt
  · exact C70_refuted b uf huf vals flux ng m hcard (fun _ j _ _ => hom j) (fun i _ _ h => absurd (hom i) h)
      (by rw [hin]; simp) hwv (fun i => by have := hm i; omega) (σ i) (σ j) hlt (hom _) (hm _) (hm _)
      (by rw [hcI]; exact hG)
  · exact C70_refuted b uf huf vals flux ng m hcard (fun _ j _ _ => hom j) (fun i _ _ h => absurd (hom i) h)
      (by rw [hin]; simp) hwv (fun i => by have := hm i; omega) (σ j) (σ i) hlt (hom _) (hm _) (hm _)
      (by rw [hcI, hsym.apply i j]; exact hG)

/-- junctions 0 and 2 with capacitors 1 and 3 attached, coupling capacitor 4 -/
def twoObjs : Objs where
  elem := fun i =>
    if i = 0 then ⟨.jj, 1, 1, [], true, true⟩
    else if i = 2 then ⟨.jj, 1, 3, [], true, true⟩
    else ⟨.cap, 1, 1, [], false, true⟩
  loopValue := fun _ => 0
  loopReqGrad := fun _ => false
  loopIsLeaf := fun _ => true

theorem two_ex_islands : TwoIslands twoObjs [0] [2] [4] where
  first := ⟨by intro i hi; simp at hi; subst hi; simp [twoObjs], 0, by simp, rfl⟩
  second := ⟨by intro i hi; simp at hi; subst hi; simp [twoObjs], 2, by simp, rfl⟩
  coupling := by intro i hi; simp at hi; subst hi; rfl
  noLoops := by
    intro i hi
    simp at hi
    rcases hi with rfl | rfl | rfl <;> rfl

/-- values: capacitors 1 (2 F) and 3 (3 F), coupling 1 F, Josephson energies 5 and 7 -/
noncomputable def twoVals : ElemId → ℝ := fun i =>
  if i = 0 then 5 else if i = 1 then 2 else if i = 2 then 7 else if i = 3 then 3 else 1

theorem two_ex_total : totalCap (twoObjs.withVals twoVals) [0] = 2 ∧ totalCap (twoObjs.withVals twoVals) [2] = 3 ∧
    totalCap (twoObjs.withVals twoVals) [4] = 1 := by
  refine ⟨?_, ?_, ?_⟩ <;> simp [totalCap, placedCap, twoObjs, Objs.withVals, twoVals]

theorem two_ex_values : TwoValues twoObjs [0] [2] [4] twoVals := by
  obtain ⟨e1, e2, e3⟩ := two_ex_total
  refine ⟨?_, ?_, ?_, ?_⟩
  · intro i hi
    simp at hi
    rcases hi with rfl | rfl | rfl <;> simp [placedCap, twoObjs, Objs.withVals, twoVals]
  · rw [e1, e2, e3]; norm_num
  · rw [e1, e3]; norm_num
  · rw [e2, e3]; norm_num

/-- the hypotheses can be met: two transmons of 2 F and 3 F coupled by 1 F; and their symbolic Hamiltonian is wrong -/
theorem C93_example : ∃ (c : CircSpec) (b : Build), IslandCircuit c 2 ∧ RoutinesOK c ∧ IslandValues c 2 twoVals ∧
    CapsOK c.O ∧ buildCirc c twoVals = .ok b ∧ b.M.keep.length = 2 ∧
    ∀ (flux : LoopId → ℝ) (ng : Fin b.M.keep.length → ℝ) (m : Fin b.M.keep.length → ℕ), (∀ i, 2 ≤ m i) →
      fullHamiltonian b.C b.M m ng twoVals (b.fluxes flux) b.inds b.juns ≠
        .ok (evalSum (b.descrip 1 twoVals flux ng) 1 m (constructHamiltonian (b.descrip 1 twoVals flux ng) b.inds b.juns)) := by
  choose lib hlib using exists_lib
  choose argmax hm using exists_argmax
  obtain ⟨argsort, ha⟩ := exists_argsort
  have hi := two_ex_islands
  have hv := two_ex_values
  have hr : RoutinesOK (twoSpec false .junctions twoObjs [0] [2] [4] (fun _ => LoopObj.init 0 0) lib exSv argsort argmax
      (fun _ _ => 0)) := ⟨hlib, exSv_spec, ha, hm, le_refl 3⟩
  have hI : IslandCircuit (twoSpec false .junctions twoObjs [0] [2] [4] (fun _ => LoopObj.init 0 0) lib exSv argsort argmax
      (fun _ _ => 0)) 2 := two_island hi
  have hV : IslandValues (twoSpec false .junctions twoObjs [0] [2] [4] (fun _ => LoopObj.init 0 0) lib exSv argsort argmax
      (fun _ _ => 0)) 2 twoVals := two_values hi hv
  obtain ⟨b, hb, -, hk, -⟩ := C93_constructed _ 2 hI hr twoVals hV
  refine ⟨_, b, hI, hr, hV, ?_, hb, hk, ?_⟩
  · intro i
    change (twoObjs.elem (twoObjs.elem i).cap).kind ≠ .jj
    unfold twoObjs
    simp only
    split_ifs <;> simp_all
  · intro flux ng m hm2
    have hlen : (junctionEdges twoObjs (twoEls [0] [2] [4])).length = 2 := by rw [two_edges hi]; rfl
    obtain ⟨-, -, -, hd⟩ := two_det_pos hi hv
    have hG := two_invCap hi twoVals hlen hd.ne'
    refine C70_islands_refuted _ twoVals (isl_good hI hr hV) hI.noInd hI.some 2 rfl hI.indep hV.2 exSv_spec ha (Or.inl rfl) b
      hb (Fin.cast hlen.symm 0) (Fin.cast hlen.symm 1) ?_ ?_ 1 one_ne_zero flux ng m hm2
    · intro hh
      have h0 : (0 : ℕ) = 1 := congrArg Fin.val hh
      omega
    · change junctionInvCap (twoObjs.withVals twoVals) (twoEls [0] [2] [4]) 2 _ _ ≠ 0
      rw [hG]
      change twoInvCap _ _ _ 0 1 ≠ 0
      rw [(twoInvCap_entries _ _ _).2.1, two_ex_total.1, two_ex_total.2.1, two_ex_total.2.2]
      norm_num

end SQ
