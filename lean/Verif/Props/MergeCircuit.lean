import Verif.Props.Merge
import Verif.Lemmas.MergeCoef
import Verif.Lemmas.MergeSpace
import Verif.Props.FluxDist
import Verif.Props.Islands3

/-!
# C107: a system of coupled circuits and the one circuit that contains everything
-/

namespace SQ
open Matrix Spec Real

set_option maxHeartbeats 400000 in
/-- C107: A system of circuits of junctions and capacitors, coupled by capacitors, has the frequencies of the one circuit
that contains all of them: for every choice of the dimensions and charge offsets of the modes, if the eigenbases of the
circuits are complete, the levels of the Hamiltonian of the system are, in the frequency unit, those of the merged
circuit. -/
theorem C107_merged (spec : CircId → CircSpec) (sz : CircId → ℕ) (vals : ElemId → ℝ) (cps : List Coupling) (hne : cps ≠ []) (cM : CircSpec)
    (hi : ∀ c ∈ getAllCircuits (cps.map (Coupling.couple vals)), IslandCircuit (spec c) (sz c))
    (hr : ∀ c ∈ getAllCircuits (cps.map (Coupling.couple vals)), RoutinesOK (spec c))
    (hv : ∀ c ∈ getAllCircuits (cps.map (Coupling.couple vals)), IslandValues (spec c) (sz c) vals)
    (hO : ∀ c ∈ getAllCircuits (cps.map (Coupling.couple vals)), (spec c).O = cM.O)
    (hels : cM.els = mergedEls sz (fun c => (spec c).els) (getAllCircuits (cps.map (Coupling.couple vals))) cps)
    (hg : ∀ g ∈ cps, ValidCoupling cM.O sz vals g) (hrM : RoutinesOK cM) (nM : ℕ) (hnM : numNodes cM.els = .ok nM)
    (hsum : nM = ((getAllCircuits (cps.map (Coupling.couple vals))).map sz).sum)
    (hwM : WellConditioned nM (junctionInvCap (cM.O.withVals vals) cM.els nM))
    (bd : CircId → Build) (hb : ∀ c ∈ getAllCircuits (cps.map (Coupling.couple vals)), buildCirc (spec c) vals = .ok (bd c))
    (bM : Build) (hbM : buildCirc cM vals = .ok bM) :
    ∃ τ : ∀ c, Fin (bd c).M.keep.length → Fin bM.M.keep.length,
      Function.Bijective (fun x : (Σ s : Fin (getAllCircuits (cps.map (Coupling.couple vals))).length,
        Fin (bd ((getAllCircuits (cps.map (Coupling.couple vals))).get s)).M.keep.length) => τ _ x.2) ∧
      ∀ (flux : LoopId → ℝ) (m : Fin bM.M.keep.length → ℕ) (ng : Fin bM.M.keep.length → ℝ) (H : ∀ c, Op fun i => m (τ c i)) (HM : Op m),
        (∀ c ∈ getAllCircuits (cps.map (Coupling.couple vals)), fullHamiltonian (bd c).C (bd c).M (fun i => m (τ c i)) (fun i => ng (τ c i)) vals
          ((bd c).fluxes flux) (bd c).inds (bd c).juns = .ok (H c)) →
        fullHamiltonian bM.C bM.M m ng vals (bM.fluxes flux) bM.inds bM.juns = .ok HM →
        ∀ u : ℝ, 0 < u → ∀ (vs : ∀ c, List (Idx (fun i => m (τ c i)) → ℂ)) (ws : CircId → List ℝ),
          (∀ c ∈ getAllCircuits (cps.map (Coupling.couple vals)), Levels (H c) (vs c) (ws c)) →
          ∃ X, sysHamiltonian (fun c => completeSub (bd c) (buildMem (bd c).M.data (fun i => m (τ c i)) (fun i => ng (τ c i))) u (ws c) (vs c))
              (cps.map (Coupling.couple vals)) u = .ok X ∧
            ∀ vM wM, Levels HM vM wM → ∃ vX, Levels X vX (wM.map fun w => w / (2 * Real.pi * u)) := by
  obtain ⟨hnd, hmem, -⟩ := C65_circuits (cps.map (Coupling.couple vals))
  set cs := getAllCircuits (cps.map (Coupling.couple vals)) with hcs
  have hm : ∀ g ∈ cps, g.cr1 ∈ cs ∧ g.cr2 ∈ cs := fun g hgm =>
    ⟨(hmem _).2 ⟨g.couple vals, List.mem_map_of_mem hgm, Or.inl rfl⟩, (hmem _).2 ⟨g.couple vals, List.mem_map_of_mem hgm, Or.inr rfl⟩⟩
  have hcs0 : cs ≠ [] := by
    obtain ⟨g, l, rfl⟩ := List.exists_cons_of_ne_nil hne
    exact List.ne_nil_of_mem (hm g (by simp)).1
  subst hsum
  have hiM : IslandCircuit cM (cs.map sz).sum := merged_island hnd hcs0 hi hO hels hg hm hnM
  have hvM : IslandValues cM (cs.map sz).sum vals := ⟨merged_caps hv hO hels hg, hwM⟩
  choose hn hk σ hC hP hR hom hH using fun c (hc : c ∈ cs) => isl_built' (hO c hc) rfl (hi c hc) (hr c hc) (hv c hc) (hb c hc)
  have hszm : ∀ c ∈ cs, sz c = (bd c).n := fun c hc => (hn c hc).symm
  have hsz2 : cs.map sz = cs.map fun c => (bd c).n := List.map_congr_left hszm
  rw [mergedEls_congr hszm] at hels
  rw [hsz2] at hiM hvM
  have hvE : ∀ c ∈ cs, ValidElements (bd c).n (spec c).els := fun c hc => by rw [← hszm c hc]; exact (hi c hc).valid
  have hg' : ∀ g ∈ cps, ValidCoupling cM.O (fun c => (bd c).n) vals g := by
    intro g hgm
    obtain ⟨a, b, c⟩ := hg g hgm
    rw [hszm _ (hm g hgm).1] at a
    rw [hszm _ (hm g hgm).2] at b
    exact ⟨a, b, c⟩
  have hkc : ∀ g ∈ cps, (cM.O.elem g.el).kind = .cap := fun g hgm => (hg g hgm).2.2.2.1
  set els : CircId → Elements := fun c => (spec c).els with helsd
  obtain ⟨hnM', hkM, σM, hCM, hPM, hRM, homM, hHM⟩ := isl_built' rfl hels hiM hrM hvM hbM
  have hKpos : 0 < bM.M.keep.length := by
    have h0 : 0 < (junctionEdges cM.O (mergedEls (fun c => (bd c).n) els cs cps)).length := by
      rw [← hels]; exact List.length_pos_iff.2 hiM.some
    exact Nat.lt_of_le_of_lt (Nat.zero_le _) (σM ⟨0, h0⟩).2
  set e := junPos (sz := fun c => (bd c).n) cM.O els hnd hkc with he
  let σs : ∀ s : Fin cs.length, Fin (junctionEdges cM.O (els (cs.get s))).length ≃ Fin (bd (cs.get s)).M.keep.length :=
    fun s => σ (cs.get s) (List.get_mem _ _)
  have hτ : ∀ c, ∃ τc : Fin (bd c).M.keep.length → Fin bM.M.keep.length, ∀ s, ∀ h : cs.get s = c, ∀ i,
      τc (Fin.cast (by rw [h]) (σs s i)) = σM (e ⟨s, i⟩) := by
    intro c
    by_cases hc : ∃ s, cs.get s = c
    · obtain ⟨s, rfl⟩ := hc
      refine ⟨fun j => σM (e ⟨s, (σs s).symm j⟩), ?_⟩
      intro s' h i
      have := List.nodup_iff_injective_get.1 hnd h
      subst this
      simp
    · exact ⟨fun _ => ⟨0, hKpos⟩, fun s h => absurd ⟨s, h⟩ hc⟩
  choose τ hτ using hτ
  have hτ' : ∀ s i, τ (cs.get s) (σs s i) = σM (e ⟨s, i⟩) := fun s i => hτ (cs.get s) s rfl i
  have hbij : Function.Bijective (fun x : (Σ s : Fin cs.length, Fin (bd (cs.get s)).M.keep.length) => τ (cs.get x.1) x.2) := by
    have : (fun x : (Σ s : Fin cs.length, Fin (bd (cs.get s)).M.keep.length) => τ (cs.get x.1) x.2) =
        ((Equiv.sigmaCongrRight σs).symm.trans (e.trans σM)) := by
      funext x
      obtain ⟨z, rfl⟩ := (Equiv.sigmaCongrRight σs).surjective x
      simp only [Equiv.trans_apply, Equiv.symm_apply_apply]
      exact hτ' z.1 z.2
    rw [this]
    exact Equiv.bijective _
  refine ⟨τ, hbij, ?_⟩
  intro flux m ng H HM hHc hHM' u hu vs ws hl
  set sub : CircId → SubCirc := fun c => completeSub (bd c) (buildMem (bd c).M.data (fun i => m (τ c i)) (fun i => ng (τ c i))) u (ws c) (vs c)
    with hsub
  -- what the system reads
  have hCs : ∀ c ∈ cs, ∀ p q : Fin (sub c).nodes, (sub c).C p q = capacitances (cM.O.withVals vals) (els c) (sub c).nodes p q := by
    intro c hc p q
    change (if h : (p : ℕ) < (bd c).n ∧ (q : ℕ) < (bd c).n then (bd c).C ⟨p, h.1⟩ ⟨q, h.2⟩ else 0) = _
    have hp : (p : ℕ) < (bd c).n := p.2
    have hq : (q : ℕ) < (bd c).n := q.2
    rw [dif_pos ⟨hp, hq⟩]
    exact hC c hc _ _
  have hns : ∀ c ∈ cs, (sub c).n = (sub c).nodes := fun c hc => hk c hc
  have hRs : ∀ s i (p : ℕ), p < (sub (cs.get s)).nodes →
      (sub (cs.get s)).R p (σs s i) = incidence ((junctionEdges cM.O (els (cs.get s))).get i) (p + 1) := by
    intro s i p hp
    have hp' : p < (bd (cs.get s)).n := hp
    have hi' : (σs s i : ℕ) < (bd (cs.get s)).n := lt_of_lt_of_eq (σs s i).2 (hk _ (List.get_mem _ _))
    change (if h : p < (bd (cs.get s)).n ∧ (σs s i : ℕ) < (bd (cs.get s)).n then (bd (cs.get s)).M.R ⟨p, h.1⟩ ⟨σs s i, h.2⟩ else 0) = _
    rw [dif_pos ⟨hp', hi'⟩]
    exact hR _ (List.get_mem _ _) i ⟨p, hp'⟩
  obtain ⟨M, hM, hMcap⟩ := capMatrix_merged (O := cM.O) (els := els) (vals := vals) hnd hns hCs hvE hg' hm
  have hMc : capMatrix sub (cps.map (Coupling.couple vals)) = .ok M := hM
  have hPs : ∀ c ∈ cs, (capacitances (cM.O.withVals vals) (els c) (sub c).nodes).PosDef := hP
  have hdet1 : (toMat (sysNodes sub cs) M).det ≠ 0 := by
    rw [hMcap]
    have h := hPM
    rw [hnM'] at h
    exact h.det_pos.ne'
  have hdet2 : (toMat (sysNodes sub cs) (bareCap sub cs)).det ≠ 0 := by
    have h : (toMat (sysNodes sub cs) (bareCap sub cs)).submatrix (nodeEquiv (fun c => (sub c).nodes) cs hnd) (nodeEquiv (fun c => (sub c).nodes) cs hnd) =
        blockDiagonal' (fun t : Fin cs.length => capacitances (cM.O.withVals vals) (els (cs.get t)) (sub (cs.get t)).nodes) := by
      ext y y'
      exact bareCap_block hnd hCs y y'
    have h3 : (blockDiagonal' (fun t : Fin cs.length => capacitances (cM.O.withVals vals) (els (cs.get t)) (sub (cs.get t)).nodes)).det =
        (toMat (sysNodes sub cs) (bareCap sub cs)).det := by
      rw [← h]
      exact Matrix.det_submatrix_equiv_self _ _
    rw [← h3]
    have h4 : blockDiagonal' (fun t : Fin cs.length => capacitances (cM.O.withVals vals) (els (cs.get t)) (sub (cs.get t)).nodes) *
        blockDiagonal' (fun t : Fin cs.length => (capacitances (cM.O.withVals vals) (els (cs.get t)) (sub (cs.get t)).nodes)⁻¹) = 1 := by
      rw [← blockDiagonal'_mul, ← blockDiagonal'_one]
      congr 1
      funext t
      exact mul_nonsing_inv _ (isUnit_iff_ne_zero.2 (hPs _ (List.get_mem _ _)).det_pos.ne')
    exact isUnit_iff_ne_zero.1 (Matrix.isUnit_det_of_right_inverse h4)
  obtain ⟨X, hX⟩ := sysHam_ok (u := u) hMc hdet1 hdet2
  refine ⟨X, hX, ?_⟩
  intro vM wM hlM
  have hCsym : ∀ c ∈ cs, (bd c).Cᵀ = (bd c).C := by
    intro c hc
    ext p q
    rw [transpose_apply, hC c hc, hC c hc]
    exact congrFun (congrFun (hP c hc).isHermitian p) q
  have hQeq : ∀ c ∈ cs, ∀ i, (buildMem (bd c).M.data (fun i => m (τ c i)) (fun i => ng (τ c i))).Q i =
      ((2 * eCharge / √hbar : ℝ) : ℂ) • pairs (fun i => m (τ c i)) (fun i => ng (τ c i)) i := by
    intro c hc i
    exact island_Q _ _ _ (hom c hc _)
  obtain ⟨M', V, hM', hV1, hV2, hXV⟩ := C107_complete (cps.map (Coupling.couple vals)) bd (fun c i => m (τ c i))
    (fun c => buildMem (bd c).M.data (fun i => m (τ c i)) (fun i => ng (τ c i))) H vs ws u hu hCsym
    (fun c _ i => Q_herm _ _ _ i)
    (fun c hc i j => by
      rw [hQeq c hc, hQeq c hc]
      exact ((pairs_comm_all _ _ i j).smul_left _).smul_right _) hl hX
  obtain rfl : M = M' := by
    have := hMc.symm.trans hM'
    exact Except.ok.inj this
  have hjoin : joinOp (t := fun s i => τ (cs.get s) i) hbij m (compositeHam (cps.map (Coupling.couple vals)) bd (fun c i => m (τ c i))
      (fun c => buildMem (bd c).M.data (fun i => m (τ c i)) (fun i => ng (τ c i))) H vs ws u (fun x y =>
        interactionCoef sub (cps.map (Coupling.couple vals)) M (modeIdx _ _ x) (modeIdx _ _ y))) = HM := by
    have hHMeq : HM = islandHamiltonian σM (junctionInvCap (cM.O.withVals vals) (mergedEls (fun c => (bd c).n) els cs cps) (cs.map fun c => (bd c).n).sum)
        (fun i => edgeEJ cM.O (mergedEls (fun c => (bd c).n) els cs cps) vals ((junctionEdges cM.O (mergedEls (fun c => (bd c).n) els cs cps)).get i)) m ng := by
      have h := hHM'.symm.trans (hHM flux m ng)
      have hG : junctionInvCap (cM.O.withVals vals) (mergedEls (fun c => (bd c).n) els cs cps) bM.n =
          junctionInvCap (cM.O.withVals vals) (mergedEls (fun c => (bd c).n) els cs cps) (cs.map fun c => (bd c).n).sum := by
        rw [hnM']
      rw [hG] at h
      exact Except.ok.inj h
    rw [hHMeq]
    refine Eq.trans ?_ (join_islands hbij m σs e σM hτ'
      (fun s => junctionInvCap (cM.O.withVals vals) (els (cs.get s)) (bd (cs.get s)).n)
      (fun s i => edgeEJ cM.O (els (cs.get s)) vals ((junctionEdges cM.O (els (cs.get s))).get i)) _ _ ?_
      (fun x y => interactionCoef sub (cps.map (Coupling.couple vals)) M (modeIdx sub cs x) (modeIdx sub cs y)) ?_ ng
      (fun s => (buildMem (bd (cs.get s)).M.data (fun i => m (τ (cs.get s) i)) (fun i => ng (τ (cs.get s) i))).Q) ?_)
    · congr 1
      unfold compositeHam
      congr 1
      refine Finset.sum_congr rfl fun s _ => ?_
      congr 1
      have h := (hHc (cs.get s) (List.get_mem _ _)).symm.trans (hH (cs.get s) (List.get_mem _ _) flux _ _)
      exact Except.ok.inj h
    · intro s i
      have h := junPos_get (sz := fun c => (bd c).n) (O := cM.O) (els := els) hnd hkc ⟨s, i⟩
      rw [← he] at h
      simp only [h]
      exact merged_edgeEJ hnd hvE hkc vals s (valid_junctionEdge (hvE _ (List.get_mem _ _)) (List.get_mem _ _))
    · intro z z'
      have h := coef_merged hnd hns hCs hPs hvE hkc (fun s i => σs s i) hRs z z'
      rw [← hMcap] at h
      exact h
    · intro s i
      exact hQeq _ (List.get_mem _ _) i
  obtain ⟨v1, hl1⟩ := levels_reindex (splitEquiv (t := fun s i => τ (cs.get s) i) hbij m).symm hlM
  have h1 : HM.submatrix (splitEquiv (t := fun s i => τ (cs.get s) i) hbij m).symm (splitEquiv (t := fun s i => τ (cs.get s) i) hbij m).symm = compositeHam (cps.map (Coupling.couple vals)) bd (fun c i => m (τ c i))
      (fun c => buildMem (bd c).M.data (fun i => m (τ c i)) (fun i => ng (τ c i))) H vs ws u (fun x y =>
        interactionCoef sub (cps.map (Coupling.couple vals)) M (modeIdx _ _ x) (modeIdx _ _ y)) := by
    rw [← hjoin]
    unfold joinOp
    ext x y
    simp
  rw [h1] at hl1
  have h2 := levels_conj hV1 hV2 (levels_scale hl1 (c := 1 / (2 * Real.pi * u)) (by positivity))
  rw [← hXV] at h2
  have hw : (wM.map fun w => w / (2 * Real.pi * u)) = wM.map (1 / (2 * Real.pi * u) * ·) := List.map_congr_left fun w _ => by ring
  rw [hw]
  exact ⟨_, h2⟩

/-- C107, no capacitors: the circuits of a system without capacitive couplings do not see each other: the energies of
the system are the sums of the energies of the circuits. -/
theorem C107_uncoupled (sub : CircId → SubCirc) (cps : List Couple) (h : ∀ cp ∈ cps, cp.cap = none)
    (hdet : (toMat (sysNodes sub (getAllCircuits cps)) (bareCap sub (getAllCircuits cps))).det ≠ 0) (u : ℝ) :
    sysHamiltonian sub cps u = .ok (diagonal fun x => ((∑ s, (sub ((getAllCircuits cps).get s)).efreqs.get (x s) : ℝ) : ℂ)) := by
  unfold sysHamiltonian
  rw [C66_no_interaction sub cps h hdet u]
  simp only [Except.map, add_zero]
  congr 1
  unfold hLocal
  ext x y
  rw [Matrix.sum_apply]
  by_cases hxy : x = y
  · subst hxy
    rw [diagonal_apply_eq, Complex.ofReal_sum]
    refine Finset.sum_congr rfl fun s _ => ?_
    rw [opInSys_onSub]
    simp [onSub]
  · rw [diagonal_apply_ne _ hxy]
    refine Finset.sum_eq_zero fun s _ => ?_
    rw [opInSys_onSub]
    simp only [onSub, Matrix.of_apply]
    split_ifs with h'
    · rw [diagonal_apply_ne]
      intro e
      apply hxy
      funext t
      by_cases ht : t = s
      · subst ht; exact e
      · exact h' t ht
    · rfl

/-- parallel junctions as a part of a system -/
theorem oe_island_circuit {torch : Bool} {fd : FluxDist} {O : Objs} {ids : List ElemId} {h : LoopId → LoopObj} {lib : ∀ n, NumLib n}
    {sv : SvdFn} {argsort : ArgsortFn} {argmax : ∀ k, ArgmaxFn k} {draws : Draws} {vals : ElemId → ℝ} (hj : OnlyJunctions O ids)
    (hl : ∀ i ∈ ids, (O.elem i).loops = []) (hv : ParallelValues O ids vals) :
    IslandCircuit (parallelSpec torch fd O ids h lib sv argsort argmax draws) 1 ∧
      IslandValues (parallelSpec torch fd O ids h lib sv argsort argmax draws) 1 vals := by
  obtain ⟨h1, h2, h3, h4⟩ := oe_islands hj hv
  obtain ⟨i, hi, -⟩ := hj.2
  refine ⟨⟨rfl, oe_valid ids, ?_, h1, ?_, ?_, h3, h2⟩, ?_, h4⟩
  · intro k hk
    have j1 : Joined (oneEdge ids) 1 0 := ⟨((0,1),ids), by simp [oneEdge], by
      simp [List.ne_nil_of_mem hi], by simp⟩
    interval_cases k
    · exact .refl
    · exact .single j1
  · intro q hq
    change q ∈ placements (oneEdge ids) at hq
    simp [placements, oneEdge] at hq
    obtain ⟨i, hi, rfl⟩ := hq
    exact hl i hi
  · intro h0
    change junctionEdges O (oneEdge ids) = [] at h0
    rw [h0] at h2
    simp at h2
  · intro q hq
    change q ∈ placements (oneEdge ids) at hq
    simp [placements, oneEdge] at hq
    obtain ⟨i, hi, rfl⟩ := hq
    exact hv.1 i hi

/-- the hypotheses can be met: transmons 0 (2 F) and 1 (3 F), coupled by 1 F between their nodes; the merged circuit is
the dictionary `twoEls` -/
theorem C107_example : ∃ (spec : CircId → CircSpec) (cM : CircSpec) (bd : CircId → Build) (bM : Build),
    let cps : List Coupling := [⟨0, 1, 1, 1, 4⟩]
    getAllCircuits (cps.map (Coupling.couple twoVals)) = [0, 1] ∧
    (spec 0).els = oneEdge [0] ∧ (spec 1).els = oneEdge [2] ∧
    (∀ c, (spec c).O = cM.O) ∧ (∀ c ∈ [0, 1], IslandCircuit (spec c) 1 ∧ RoutinesOK (spec c) ∧ IslandValues (spec c) 1 twoVals ∧
      buildCirc (spec c) twoVals = .ok (bd c)) ∧
    cM.els = mergedEls (fun _ => 1) (fun c => (spec c).els) [0, 1] cps ∧ (∀ g ∈ cps, ValidCoupling cM.O (fun _ => 1) twoVals g) ∧
    RoutinesOK cM ∧ numNodes cM.els = .ok 2 ∧
    WellConditioned 2 (junctionInvCap (cM.O.withVals twoVals) cM.els 2) ∧ buildCirc cM twoVals = .ok bM := by
  choose lib hlib using exists_lib
  choose argmax hm using exists_argmax
  obtain ⟨argsort, ha⟩ := exists_argsort
  have hi := two_ex_islands
  have hv := two_ex_values
  let sp : CircId → CircSpec := fun c => parallelSpec false .junctions twoObjs (if c = 0 then [0] else [2]) (fun _ => LoopObj.init 0 0)
    lib exSv argsort argmax (fun _ _ => 0)
  have hrM : RoutinesOK (twoSpec false .junctions twoObjs [0] [2] [4] (fun _ => LoopObj.init 0 0) lib exSv argsort argmax
      (fun _ _ => 0)) := ⟨hlib, exSv_spec, ha, hm, le_refl 3⟩
  have hIM : IslandCircuit (twoSpec false .junctions twoObjs [0] [2] [4] (fun _ => LoopObj.init 0 0) lib exSv argsort argmax
      (fun _ _ => 0)) 2 := two_island hi
  have hVM : IslandValues (twoSpec false .junctions twoObjs [0] [2] [4] (fun _ => LoopObj.init 0 0) lib exSv argsort argmax
      (fun _ _ => 0)) 2 twoVals := two_values hi hv
  have hs : ∀ c, IslandCircuit (sp c) 1 ∧ RoutinesOK (sp c) ∧ IslandValues (sp c) 1 twoVals := by
    intro c
    obtain ⟨e1, e2, -⟩ := two_ex_total
    have key : ∀ l : List ElemId, l = [0] ∨ l = [2] → IslandCircuit (parallelSpec false .junctions twoObjs l (fun _ => LoopObj.init 0 0)
        lib exSv argsort argmax (fun _ _ => 0)) 1 ∧ IslandValues (parallelSpec false .junctions twoObjs l (fun _ => LoopObj.init 0 0)
        lib exSv argsort argmax (fun _ _ => 0)) 1 twoVals := by
      rintro l (rfl | rfl)
      · refine oe_island_circuit hi.first (fun i h => hi.noLoops i (Or.inl h)) ⟨fun i h => hv.pos i (Or.inl h), ?_⟩
        rw [e1]; norm_num
      · refine oe_island_circuit hi.second (fun i h => hi.noLoops i (Or.inr (Or.inl h))) ⟨fun i h => hv.pos i (Or.inr (Or.inl h)), ?_⟩
        rw [e2]; norm_num
    obtain ⟨a, b⟩ := key (if c = 0 then [0] else [2]) (by split_ifs <;> simp)
    exact ⟨a, ⟨hlib, exSv_spec, ha, hm, le_refl 3⟩, b⟩
  choose bd hbd using fun c => (C93_constructed _ 1 (hs c).1 (hs c).2.1 twoVals (hs c).2.2)
  obtain ⟨bM, hbM, -⟩ := C93_constructed _ 2 hIM hrM twoVals hVM
  refine ⟨sp, twoSpec false .junctions twoObjs [0] [2] [4] (fun _ => LoopObj.init 0 0) lib exSv argsort argmax (fun _ _ => 0), bd, bM, ?_⟩
  refine ⟨?_, rfl, rfl, fun _ => rfl, fun c _ => ⟨(hs c).1, (hs c).2.1, (hs c).2.2, (hbd c).1⟩, ?_, ?_, hrM, rfl, hVM.2, hbM⟩
  · simp [getAllCircuits, Coupling.couple]
  · rfl
  · intro g hg
    simp at hg
    subst hg
    simp [ValidCoupling, twoVals, twoObjs, twoSpec]

end SQ
