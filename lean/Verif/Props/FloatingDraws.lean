import Verif.Props.Floating

/-!
# C130: floating circuits are constructed, and the differential transmon
-/

namespace SQ
open Matrix Spec

section Draws
variable {k : ℕ}

/-- a further unit vector orthogonal to an incomplete orthonormal list -/
theorem orthonormal_more {b : List (Fin k → ℝ)} (h : OrthonormalList b) (hlt : b.length < k) :
    ∃ v : Fin k → ℝ, OrthonormalList (b ++ [v]) := by
  let f : (Fin k → ℝ) →ₗ[ℝ] (Fin b.length → ℝ) := (Matrix.of b.get).mulVecLin
  have hker : LinearMap.ker f ≠ ⊥ := LinearMap.ker_ne_bot_of_finrank_lt (by simpa using hlt)
  obtain ⟨x, hx, hx0⟩ := Submodule.exists_mem_ne_zero_of_ne_bot hker
  have hxe : ∀ e ∈ b, e ⬝ᵥ x = 0 := by
    intro e he
    obtain ⟨i, rfl⟩ := List.get_of_mem he
    exact congrFun (LinearMap.mem_ker.1 hx) i
  have hne : ∃ c, x c ≠ 0 := by
    by_contra hno
    push Not at hno
    exact hx0 (funext hno)
  have hpos := vnorm_pos hne
  refine ⟨(vnorm x)⁻¹ • x, ?_, ?_⟩
  · rw [List.pairwise_append]
    refine ⟨h.1, by simp, ?_⟩
    intro e he v hv
    rw [List.mem_singleton] at hv
    subst hv
    rw [dotProduct_smul, hxe e he, smul_zero]
  · intro e he
    rcases List.mem_append.1 he with he | he
    · exact h.2 e he
    · rw [List.mem_singleton] at he
      subst he
      rw [dotProduct_smul, smul_dotProduct, ← vnorm_sq, smul_eq_mul, smul_eq_mul]
      field_simp

theorem orthonormal_complete (d : ℕ) : ∀ {b : List (Fin k → ℝ)}, OrthonormalList b → b.length + d = k →
    ∃ g : ℕ → Fin k → ℝ, OrthonormalList (b ++ (List.range d).map g) := by
  induction d with
  | zero => intro b h _; exact ⟨fun _ => 0, by simpa using h⟩
  | succ d ih =>
    intro b h hl
    obtain ⟨v, hv⟩ := orthonormal_more h (by omega)
    obtain ⟨g, hg⟩ := ih hv (by simp; omega)
    refine ⟨fun i => if i = 0 then v else g (i - 1), ?_⟩
    have : (List.range (d + 1)).map (fun i => if i = 0 then v else g (i - 1)) = v :: (List.range d).map g := by
      rw [List.range_succ_eq_map, List.map_cons, List.map_map]
      simp
    rw [this]
    simpa using hg

/-- Gram-Schmidt keeps all rows of an orthonormal list -/
theorem gs_orthonormal {argsort : ArgsortFn} (ha : ArgsortSpec argsort) {b : List (Fin k → ℝ)} (h : OrthonormalList b)
    (hk : 1e-6 * (1 + 1e-9) * √k < 1) : (independentRows argsort (rowsMat b)).2.length = b.length := by
  have h1 := gs_all ha (rowsMat b) (fun i => b.get i)
    (by
      intro i j
      change b.get j ⬝ᵥ b.get i = _
      rw [orthonormal_get h]
      simp only [eq_comm])
    (by
      intro i
      have hn : vnorm (rowsMat b i) = 1 := by
        have h2 := vnorm_sq (rowsMat b i)
        have h3 : rowsMat b i ⬝ᵥ rowsMat b i = 1 := h.2 _ (List.get_mem _ _)
        rw [h3] at h2
        have h4 := vnorm_nonneg (rowsMat b i)
        nlinarith
      rw [hn]
      have h5 : ∑ c, |b.get i c| ≤ √k * √(∑ c, b.get i c ^ 2) := abs_sum_le _
      have h6 : ∑ c, b.get i c ^ 2 = 1 := by
        have := h.2 _ (List.get_mem b i)
        rw [← this]
        simp [dotProduct, sq]
      rw [h6, Real.sqrt_one, mul_one] at h5
      refine lt_of_le_of_lt ?_ hk
      unfold accGS
      exact mul_le_mul_of_nonneg_left h5 (by norm_num))
  rw [← (gsInv_rows argsort (rowsMat b)).len, h1, (ha.perm _ _).length_eq, List.length_finRange]

theorem frob_ne_zero {argsort : ArgsortFn} {m : ℕ} (A : Matrix (Fin m) (Fin k) ℝ) (h : (independentRows argsort A).2.length ≠ 0) :
    frob A ≠ 0 := by
  intro h0
  have hA : ∀ i j, A i j = 0 := by
    unfold frob at h0
    rw [Real.sqrt_eq_zero (by positivity)] at h0
    intro i j
    have h1 := (Finset.sum_eq_zero_iff_of_nonneg (fun i _ => by positivity)).1 h0 i (Finset.mem_univ _)
    have h2 := (Finset.sum_eq_zero_iff_of_nonneg (fun j _ => by positivity)).1 h1 j (Finset.mem_univ _)
    exact pow_eq_zero_iff (two_ne_zero) |>.1 h2
  have hinv := gsInv_rows argsort A
  obtain ⟨e, he⟩ := List.exists_mem_of_ne_nil _ (List.length_pos_iff.1 (Nat.pos_of_ne_zero h))
  have hs := hinv.span e he
  have hz : Submodule.span ℝ (A '' {i | i ∈ (independentRows argsort A).1}) ≤ ⊥ := by
    rw [Submodule.span_le]
    rintro x ⟨i, -, rfl⟩
    exact funext (hA i)
  have he0 : e = 0 := hz hs
  have := hinv.orth.2 e he
  rw [he0] at this
  simp at this

/-- there are draws that complete the basis -/
theorem exists_draws {argsort : ArgsortFn} (ha : ArgsortSpec argsort) {m : ℕ} (A : Matrix (Fin m) (Fin k) ℝ)
    (h0 : (independentRows argsort A).2.length ≠ 0) (hle : (independentRows argsort A).2.length ≤ k)
    (hk : 1e-6 * (1 + 1e-9) * √k < 1) :
    ∃ draws : Draws, (independentRows argsort (rowsMat ((independentRows argsort A).2 ++
      (List.range (k - (independentRows argsort A).2.length)).map
        (fun row => fun c : Fin k => frob A * draws 0 row c)))).2.length = k := by
  obtain ⟨g, hg⟩ := orthonormal_complete (k - (independentRows argsort A).2.length) (gsInv_rows argsort A).orth (by omega)
  have hf := frob_ne_zero A h0
  refine ⟨fun _ row c => if hc : c < k then g row ⟨c, hc⟩ / frob A else 0, ?_⟩
  have e : (fun row => fun c : Fin k => frob A * (if hc : (c : ℕ) < k then g row ⟨c, hc⟩ / frob A else 0)) = g := by
    funext row c
    rw [dif_pos c.2]
    field_simp
  rw [e, gs_orthonormal ha hg hk]
  simp
  omega

end Draws

/-- C130 (existence): for admissible element values and at most 10¹¹ nodes there are random numbers with which a floating
circuit is constructed. -/
theorem C130_constructed (c : CircSpec) (n : ℕ) (hi : FloatingCircuit c n) (hr : RoutinesOK c) (vals : ElemId → ℝ)
    (hv : IslandValues c n vals) (hn : n ≤ 10 ^ 11) :
    ∃ draws : Draws, ∃ b, buildCirc { c with draws := draws } vals = .ok b := by
  have hgood := flt_good hi hr hv.1
  obtain ⟨a, ha⟩ := buildEdges_succeeds (O := c.O.withVals vals) c.torch c.fd hi.valid (by
    intro p hp i hi' hk
    exact absurd hk (hi.noInd (p.1, i) (by
      unfold placements
      rw [List.mem_flatMap]
      exact ⟨p, hp, List.mem_map.2 ⟨i, hi', rfl⟩⟩))) (initAcc n c.h)
  have htr : traverse c.torch c.fd (c.O.withVals vals) n c.h c.els = .ok a := ha
  have hlu : loopUses c.O c.els = [] := by
    unfold loopUses
    rw [List.flatMap_eq_nil_iff]
    intro q hq
    have hq2 : q.1 ∈ inductivePlacements c.O c.els := by
      have := List.mem_map_of_mem (f := Prod.fst) hq
      simpa [numbered] using this
    rw [hi.noLoops q.1 (List.mem_of_mem_filter hq2)]
    rfl
  have hl0 : a.st.loops = [] := by
    obtain ⟨l1, -⟩ := C19_loop_membership c.torch c.fd (c.O.withVals vals) n c.h _ hi.valid a htr
    have : loopUses (c.O.withVals vals) c.els = [] := hlu
    rw [l1, this]
    rfl
  have hf : fluxMatrix c.sv n a.st.kMat a.st.cEdge (a.st.loops.map a.st.loopHeap) = .ok none := by
    rw [hl0]
    unfold fluxMatrix
    simp [loopRows]
  obtain ⟨hn0, hcm, hlm, hnum, hind, hlen, hW, hkeys⟩ := isl_mats hgood hi.noInd hi.some hi.nodes htr
  have : NeZero n := ⟨hn0⟩
  obtain ⟨-, hC, -⟩ := good_mats hgood hi.nodes htr
  obtain ⟨hlib, -⟩ := hgood.lib n a hi.nodes htr
  have hGdef : junctionInvCap (c.O.withVals vals) c.els n =
    junctionIncidence c.O c.els n * a.cMat⁻¹ * (junctionIncidence c.O c.els n)ᵀ := by rw [hcm]; rfl
  obtain ⟨hli', hdet', hsym', hG', hcond'⟩ := isl_gram hlen hC hi.indep (by rw [← hGdef]; exact hv.2) hW
  rw [hlm] at hlib
  obtain ⟨-, h2, -, h4⟩ := selects_all hr.sv hr.argsort (arrayOf n a.wMat) hli' (matS1 (c.lib n) a.cMat 0)
    (isl_S1 hC hlib _) hdet' hcond'
  have hcc : (chargeCols (fun _ : Fin n => (0 : ℝ))).length = n := by
    have := chargeCols_len (omega := fun _ : Fin n => (0 : ℝ)) (m := 0) (by omega) (by simp)
    omega
  have hqn : a.wMat.length ≤ n := by
    have := hli'.fintype_card_le_finrank
    simpa using this
  obtain ⟨draws, hd⟩ := exists_draws hr.argsort (wCharge c.sv (arrayOf n a.wMat) (matS1 (c.lib n) a.cMat 0) (fun _ => 0))
    (by rw [h2, hlen]; simpa using hi.some) (by rw [h2, hcc]; exact hqn) (by
      rw [hcc]
      have hs : √(n : ℝ) ≤ √(10 ^ 11 : ℝ) := Real.sqrt_le_sqrt (by exact_mod_cast hn)
      have hs2 : √(10 ^ 11 : ℝ) ≤ 400000 := by
        rw [Real.sqrt_le_left (by norm_num)]
        norm_num
      nlinarith)
  refine ⟨draws, ?_⟩
  have hgood' : GoodCircuit { c with draws := draws } vals :=
    ⟨hgood.noSelf, hgood.caps, hgood.inds, hgood.ground, hgood.argmax, hgood.lib⟩
  have hsel : SelectionFaithful c.sv c.argsort draws (arrayOf n a.wMat) (matS1 (c.lib n) a.cMat a.lMat)
      (modeFreq (c.lib n) a.cMat a.lMat) := by
    rw [hlm, (noL_first hC hlib (arrayOf n a.wMat)).2.2.2.2]
    exact ⟨h4, Or.inr ⟨by rw [h2, hlen]; simpa using hi.some, hd⟩⟩
  exact buildCirc_ok hgood' hi.nodes htr hf (Or.inr (Or.inr hsel)) hr.fuel

/-! ### two nodes -/

theorem two_nodes_list (f : Edge × ElemId → ℝ) (l : List (Edge × ElemId)) (hv : ∀ q ∈ l, ValidEdge 2 q.1) :
    (l.map (fun q => f q • edgeMat 2 q.1)).sum =
      !![((l.filter (fun q => decide (q.1 = (0, 1) ∨ q.1 = (1, 0)))).map f).sum +
          ((l.filter (fun q => decide (q.1 = (1, 2) ∨ q.1 = (2, 1)))).map f).sum,
        - ((l.filter (fun q => decide (q.1 = (1, 2) ∨ q.1 = (2, 1)))).map f).sum;
        - ((l.filter (fun q => decide (q.1 = (1, 2) ∨ q.1 = (2, 1)))).map f).sum,
        ((l.filter (fun q => decide (q.1 = (0, 2) ∨ q.1 = (2, 0)))).map f).sum +
          ((l.filter (fun q => decide (q.1 = (1, 2) ∨ q.1 = (2, 1)))).map f).sum] := by
  induction l with
  | nil => ext i j; fin_cases i <;> fin_cases j <;> simp
  | cons q l ih =>
    rw [List.map_cons, List.sum_cons, ih fun q hq => hv q (by simp [hq])]
    obtain ⟨⟨a, b⟩, i⟩ := q
    obtain ⟨h1, h2, h3⟩ := hv _ (List.mem_cons_self ..)
    simp only at h1 h2 h3
    simp only [List.filter_cons]
    interval_cases a <;> interval_cases b <;> first | exact absurd rfl h1 | skip
    all_goals
      ext i j
      fin_cases i <;> fin_cases j <;> simp [edgeMat, incidence] <;> ring

/-- the capacitance matrix of a circuit with two nodes -/
theorem two_nodes {O : Objs} {els : Elements} (hv : ValidElements 2 els) :
    capacitances O els 2 = !![capBetween O els 0 1 + capBetween O els 1 2, - capBetween O els 1 2;
      - capBetween O els 1 2, capBetween O els 0 2 + capBetween O els 1 2] :=
  two_nodes_list (fun q => placedCap O q.2) (placements els) (fun _ hq => placed_valid hv hq)

/-- inverse capacitance across two islands -/
theorem differential_inv {C1 C2 Cs : ℝ} (hP : (!![C1 + Cs, -Cs; -Cs, C2 + Cs] : Matrix (Fin 2) (Fin 2) ℝ).PosDef)
    {u v : Fin 2 → ℝ} (hu : u = ![1, -1] ∨ u = ![-1, 1]) (hv : v = u) :
    u ⬝ᵥ ((!![C1 + Cs, -Cs; -Cs, C2 + Cs] : Matrix (Fin 2) (Fin 2) ℝ)⁻¹ *ᵥ v) = 1 / (Cs + seriesCap C1 C2) ∧ 0 < C1 + C2 ∧
      0 < Cs + seriesCap C1 C2 := by
  subst hv
  set C : Matrix (Fin 2) (Fin 2) ℝ := !![C1 + Cs, -Cs; -Cs, C2 + Cs] with hCd
  have hdet : 0 < C.det := hP.det_pos
  have hD : C.det = C1 * C2 + Cs * (C1 + C2) := by rw [hCd, det_fin_two_of]; ring
  rw [hD] at hdet
  have hsum : 0 < C1 + C2 := by
    have := hP.dotProduct_mulVec_pos (x := ![1, 1]) (by intro h; simpa using congrFun h 0)
    simp [hCd, mulVec, dotProduct, Fin.sum_univ_two] at this
    linarith
  have hunit : IsUnit C.det := by rw [hD]; exact isUnit_iff_ne_zero.2 hdet.ne'
  have hCe : Cs + seriesCap C1 C2 = (C1 * C2 + Cs * (C1 + C2)) / (C1 + C2) := by
    unfold seriesCap
    field_simp
    ring
  have hz : C *ᵥ ((C1 * C2 + Cs * (C1 + C2))⁻¹ • ![C2, -C1]) = ![1, -1] := by
    funext i
    have h0 := hdet.ne'
    fin_cases i
    · simp [hCd, mulVec, dotProduct, Fin.sum_univ_two]
      field_simp
      ring
    · simp [hCd, mulVec, dotProduct, Fin.sum_univ_two]
      field_simp
      ring
  have hinv : C⁻¹ *ᵥ ![1, -1] = (C1 * C2 + Cs * (C1 + C2))⁻¹ • ![C2, -C1] := by
    rw [← hz, mulVec_mulVec, nonsing_inv_mul _ hunit, one_mulVec]
  have hval : ![1, -1] ⬝ᵥ (C⁻¹ *ᵥ ![1, -1]) = 1 / (Cs + seriesCap C1 C2) := by
    rw [hinv, hCe, one_div_div]
    simp [dotProduct, Fin.sum_univ_two]
    field_simp
    ring
  refine ⟨?_, hsum, by rw [hCe]; positivity⟩
  rcases hu with rfl | rfl
  · exact hval
  · have hneg : (![-1, 1] : Fin 2 → ℝ) = - ![1, -1] := by
      funext i; fin_cases i <;> simp
    rw [hneg, mulVec_neg, neg_dotProduct_neg]
    exact hval

theorem island_one {q : ℕ} (hq : q = 1) (σ : Equiv.Perm (Fin q)) (G : Matrix (Fin q) (Fin q) ℝ) (E : Fin q → ℝ) (d : Fin q → ℕ)
    (ng : Fin q → ℝ) {C e : ℝ} (hC : C ≠ 0) (hG : ∀ i j, G i j = 1 / C) (hE : ∀ i, E i = e) (p : Fin q) :
    islandHamiltonian σ G E d ng = charging d p C (ng p) - (e : ℂ) • chargeCos d p 0 := by
  subst hq
  have hp : ∀ i : Fin 1, i = p := fun i => Subsingleton.elim i p
  unfold islandHamiltonian
  congr 1
  · unfold pairEnergy charging
    rw [Fintype.sum_subsingleton _ p, Fintype.sum_subsingleton _ p, submatrix_apply, hG, smul_smul]
    congr 1
    rw [← Complex.ofReal_mul]
    congr 1
    field_simp
  · rw [Fintype.sum_subsingleton _ p, hE, hp (σ p)]

/-- C130 (differential transmon): two islands with capacitances C₁ and C₂ to ground and capacitance C_s and junctions between
them are a transmon of capacitance C_s + C₁C₂/(C₁+C₂): after any orderly sequence of calls without `update`, with the
capacitances as at construction, `hamiltonian()` is (2e)²/(2C) (n - ng)² - E_J cos φ for this capacitance. -/
theorem C130_differential {c : CircSpec} {eigs : EigsFn} {as : List ℂ → List ℕ} (hi : FloatingCircuit c 2) (hr : RoutinesOK c)
    (hcaps : CapsOK c.O) (e : Edge) (he : e = (1, 2) ∨ e = (2, 1)) (hj : junctionEdges c.O c.els = [e]) (vals : ElemId → ℝ)
    (flux : LoopId → ℝ) (u : ℝ) (w0 : World (circPhys c eigs as)) (hw : construct (circPhys c eigs as) vals flux u = .ok w0)
    (h : List Act) (hh : Orderly w0 h) (hnu : .update ∉ h) :
    let w := run w0 h
    let C := fun a b => capBetween (c.O.withVals w.vals) c.els a b
    (∀ i, (c.O.elem i).kind ≠ .jj → w.vals i = vals i) → IslandValues c 2 w.vals → w.circ.m ≠ [] →
    ∃ d : Fin 1 → ℕ, d 0 = (w.circ.m.getD 0 0).toNat ∧
      (hamiltonian w).1 = .ok ⟨1, d, charging d 0 (C 1 2 + seriesCap (C 0 1) (C 0 2)) ((w.circ.ng 0).getD 0) -
        (edgeEJ c.O c.els w.vals e : ℂ) • chargeCos d 0 0⟩ := by
  intro w C hl hv hm0
  obtain ⟨hPD, d, σ, hd, -, hH⟩ := C130_session hi hr hcaps vals flux u w0 hw h hh hnu hl hv hm0
  rw [two_nodes hi.valid] at hPD
  have hget : ∀ i, (junctionEdges c.O c.els).get i = e := by
    intro i
    have h1 : ∀ x ∈ junctionEdges c.O c.els, x = e := by rw [hj]; simp
    exact h1 _ (List.get_mem (junctionEdges c.O c.els) i)
  have hrow : ∀ i, junctionIncidence c.O c.els 2 i = ![1, -1] ∨ junctionIncidence c.O c.els 2 i = ![-1, 1] := by
    intro i
    have h1 : junctionIncidence c.O c.els 2 i = fun k : Fin 2 => (incidence e (k + 1) : ℝ) := by
      funext k
      change (incidence ((junctionEdges c.O c.els).get i) (k + 1) : ℝ) = _
      rw [hget]
    rw [h1]
    rcases he with rfl | rfl
    · left; funext k; fin_cases k <;> simp [incidence]
    · right; funext k; fin_cases k <;> simp [incidence]
  have hrr : ∀ i j, junctionIncidence c.O c.els 2 j = junctionIncidence c.O c.els 2 i := by
    intro i j
    funext k
    change (incidence ((junctionEdges c.O c.els).get j) (k + 1) : ℝ) = incidence ((junctionEdges c.O c.els).get i) (k + 1)
    rw [hget, hget]
  have hG : ∀ i j, junctionInvCap (c.O.withVals w.vals) c.els 2 i j = 1 / (C 1 2 + seriesCap (C 0 1) (C 0 2)) := by
    intro i j
    have e1 : junctionInvCap (c.O.withVals w.vals) c.els 2 i j =
        junctionIncidence c.O c.els 2 i ⬝ᵥ ((capacitances (c.O.withVals w.vals) c.els 2)⁻¹ *ᵥ junctionIncidence c.O c.els 2 j) := by
      unfold junctionInvCap
      rw [Matrix.mul_assoc]; rfl
    rw [e1, two_nodes hi.valid]
    exact (differential_inv hPD (hrow i) (hrr i j)).1
  have hlen : (junctionEdges c.O c.els).length = 1 := by rw [hj]; rfl
  obtain ⟨p⟩ : Nonempty (Fin (junctionEdges c.O c.els).length) := ⟨⟨0, by omega⟩⟩
  have hC0 : C 1 2 + seriesCap (C 0 1) (C 0 2) ≠ 0 :=
    ((differential_inv hPD (hrow p) rfl).2.2).ne'
  have hI := island_one hlen σ (junctionInvCap (c.O.withVals w.vals) c.els 2)
    (fun i => edgeEJ c.O c.els w.vals ((junctionEdges c.O c.els).get i)) d (fun p => (w.circ.ng p).getD 0) hC0 hG
    (fun i => by rw [hget]) p
  have hH2 : (hamiltonian w).1 = .ok ⟨_, d, charging d p (C 1 2 + seriesCap (C 0 1) (C 0 2)) ((w.circ.ng p).getD 0) -
        (edgeEJ c.O c.els w.vals e : ℂ) • chargeCos d p 0⟩ := by
    refine hH.trans ?_
    exact congrArg (fun X => Except.ok (⟨_, d, X⟩ : Σ (k : ℕ) (d : Fin k → ℕ), Op d)) hI
  have hd0 := hd p
  clear hI hG hH hrr hrow hget hd hj σ
  generalize (junctionEdges c.O c.els).length = q at *
  subst hlen
  obtain rfl : p = 0 := Subsingleton.elim _ _
  exact ⟨d, hd0, hH2⟩

end SQ
