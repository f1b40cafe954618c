import Verif.Props.MergeCircuit
import Verif.Lemmas.Parts

/-!
# C128: parts of a circuit that share only the ground node
-/

namespace SQ
open Matrix Spec Real

theorem parts_invCap {O : Objs} {els : CircId → Elements} {vals : ElemId → ℝ} {cs : List CircId} (hnd : cs.Nodup) {sz : CircId → ℕ}
    (hv : ∀ c ∈ cs, ValidElements (sz c) (els c))
    (hP : ∀ c ∈ cs, (capacitances (O.withVals vals) (els c) (sz c)).PosDef)
    (hk : ∀ g ∈ ([] : List Coupling), (O.elem g.el).kind = .cap)
    (z z' : Σ s : Fin cs.length, Fin (junctionEdges O (els (cs.get s))).length) :
    junctionInvCap (O.withVals vals) (mergedEls sz els cs []) (cs.map sz).sum (junPos O els hnd hk z) (junPos O els hnd hk z') =
      blockDiagonal' (fun s : Fin cs.length => junctionInvCap (O.withVals vals) (els (cs.get s)) (sz (cs.get s))) z z' := by
  rw [merged_invCap hnd hv hk]
  have h0 : (capacitances (O.withVals vals) (mergedEls sz els cs []) (cs.map sz).sum).submatrix (nodeEquiv sz cs hnd) (nodeEquiv sz cs hnd) =
      blockDiagonal' (fun t : Fin cs.length => capacitances (O.withVals vals) (els (cs.get t)) (sz (cs.get t))) := by
    ext y y'
    have := merged_capacitances (O := O.withVals vals) (cps := []) hnd hv (by simp) y y'
    rw [List.map_nil, List.sum_nil, add_zero] at this
    exact this
  have h0i : (capacitances (O.withVals vals) (mergedEls sz els cs []) (cs.map sz).sum)⁻¹.submatrix (nodeEquiv sz cs hnd) (nodeEquiv sz cs hnd) =
      blockDiagonal' (fun t : Fin cs.length => (capacitances (O.withVals vals) (els (cs.get t)) (sz (cs.get t)))⁻¹) := by
    rw [← blockDiagonal'_inv _ (fun s => (hP _ (List.get_mem _ _)).isUnit.map Matrix.detMonoidHom), ← h0]
    exact (inv_submatrix_equiv _ _ _).symm
  rw [h0i]
  unfold bigInc
  rw [blockDiagonal'_transpose, ← blockDiagonal'_mul, ← blockDiagonal'_mul]
  rfl

set_option maxHeartbeats 400000 in
/-- C128: Let circuits `cs` of junctions and capacitors be written into one dictionary, on nodes of their own, so that they
share only the ground node. For every choice of the dimensions and charge offsets of the modes the energies of the whole
are the sums of the energies of the parts, one of each. -/
theorem C128_parts (spec : CircId → CircSpec) (sz : CircId → ℕ) (vals : ElemId → ℝ) (cs : List CircId) (hnd : cs.Nodup) (hne : cs ≠ [])
    (cM : CircSpec) (hi : ∀ c ∈ cs, IslandCircuit (spec c) (sz c)) (hr : ∀ c ∈ cs, RoutinesOK (spec c))
    (hv : ∀ c ∈ cs, IslandValues (spec c) (sz c) vals) (hO : ∀ c ∈ cs, (spec c).O = cM.O)
    (hels : cM.els = mergedEls sz (fun c => (spec c).els) cs []) (hrM : RoutinesOK cM) (nM : ℕ) (hnM : numNodes cM.els = .ok nM)
    (hsum : nM = (cs.map sz).sum) (hwM : WellConditioned nM (junctionInvCap (cM.O.withVals vals) cM.els nM))
    (bd : CircId → Build) (hb : ∀ c ∈ cs, buildCirc (spec c) vals = .ok (bd c))
    (bM : Build) (hbM : buildCirc cM vals = .ok bM) :
    ∃ τ : ∀ c, Fin (bd c).M.keep.length → Fin bM.M.keep.length,
      Function.Bijective (fun x : (Σ s : Fin cs.length, Fin (bd (cs.get s)).M.keep.length) => τ _ x.2) ∧
      ∀ (flux : LoopId → ℝ) (m : Fin bM.M.keep.length → ℕ) (ng : Fin bM.M.keep.length → ℝ) (H : ∀ c, Op fun i => m (τ c i)) (HM : Op m),
        (∀ c ∈ cs, fullHamiltonian (bd c).C (bd c).M (fun i => m (τ c i)) (fun i => ng (τ c i)) vals
          ((bd c).fluxes flux) (bd c).inds (bd c).juns = .ok (H c)) →
        fullHamiltonian bM.C bM.M m ng vals (bM.fluxes flux) bM.inds bM.juns = .ok HM →
        ∀ (vs : ∀ c, List (Idx (fun i => m (τ c i)) → ℂ)) (ws : CircId → List ℝ), (∀ c ∈ cs, Levels (H c) (vs c) (ws c)) →
          ∀ vM wM, Levels HM vM wM →
            (wM : Multiset ℝ) = (Finset.univ : Finset (∀ s : Fin cs.length, Fin (ws (cs.get s)).length)).val.map
              fun x => ∑ s, (ws (cs.get s)).get (x s) := by
  have hg : ∀ g ∈ ([] : List Coupling), ValidCoupling cM.O sz vals g := by simp
  have hm : ∀ g ∈ ([] : List Coupling), g.cr1 ∈ cs ∧ g.cr2 ∈ cs := by simp
  subst hsum
  have hiM : IslandCircuit cM (cs.map sz).sum := merged_island hnd hne hi hO hels hg hm hnM
  have hvM : IslandValues cM (cs.map sz).sum vals := ⟨merged_caps hv hO hels hg, hwM⟩
  choose hn hk σ hC hP hR hom hH using fun c (hc : c ∈ cs) => isl_built' (hO c hc) rfl (hi c hc) (hr c hc) (hv c hc) (hb c hc)
  have hszm : ∀ c ∈ cs, sz c = (bd c).n := fun c hc => (hn c hc).symm
  have hsz2 : cs.map sz = cs.map fun c => (bd c).n := List.map_congr_left hszm
  rw [mergedEls_congr hszm] at hels
  rw [hsz2] at hiM hvM
  have hvE : ∀ c ∈ cs, ValidElements (bd c).n (spec c).els := fun c hc => by rw [← hszm c hc]; exact (hi c hc).valid
  have hkc : ∀ g ∈ ([] : List Coupling), (cM.O.elem g.el).kind = .cap := by simp
  set els : CircId → Elements := fun c => (spec c).els with helsd
  obtain ⟨hnM', hkM, σM, hCM, hPM, hRM, homM, hHM⟩ := isl_built' rfl hels hiM hrM hvM hbM
  have hKpos : 0 < bM.M.keep.length := by
    have h0 : 0 < (junctionEdges cM.O (mergedEls (fun c => (bd c).n) els cs [])).length := by
      rw [← hels]; exact List.length_pos_iff.2 hiM.some
    exact Nat.lt_of_le_of_lt (Nat.zero_le _) (σM ⟨0, h0⟩).2
  set e := junPos (sz := fun c => (bd c).n) cM.O els hnd hkc with he
  let σs : ∀ s : Fin cs.length, Fin (junctionEdges cM.O (els (cs.get s))).length ≃ Fin (bd (cs.get s)).M.keep.length :=
    fun s => σ (cs.get s) (List.get_mem _ _)
  have hτ : ∀ c, ∃ τc : Fin (bd c).M.keep.length → Fin bM.M.keep.length, ∀ s, ∀ h : cs.get s = c, ∀ i,
      τc (Fin.cast (by rw [h]) (σs s i)) = σM (e ⟨s, i⟩) := by
    intro c
    by_cases hc : ∃ s, cs.get s = c
    · obtain ⟨s, rfl⟩ := hc
      refine ⟨fun j => σM (e ⟨s, (σs s).symm j⟩), ?_⟩
      intro s' h i
      have := List.nodup_iff_injective_get.1 hnd h
      subst this
      simp
    · exact ⟨fun _ => ⟨0, hKpos⟩, fun s h => absurd ⟨s, h⟩ hc⟩
  choose τ hτ using hτ
  have hτ' : ∀ s i, τ (cs.get s) (σs s i) = σM (e ⟨s, i⟩) := fun s i => hτ (cs.get s) s rfl i
  have hbij : Function.Bijective (fun x : (Σ s : Fin cs.length, Fin (bd (cs.get s)).M.keep.length) => τ (cs.get x.1) x.2) := by
    have : (fun x : (Σ s : Fin cs.length, Fin (bd (cs.get s)).M.keep.length) => τ (cs.get x.1) x.2) =
        ((Equiv.sigmaCongrRight σs).symm.trans (e.trans σM)) := by
      funext x
      obtain ⟨z, rfl⟩ := (Equiv.sigmaCongrRight σs).surjective x
      simp only [Equiv.trans_apply, Equiv.symm_apply_apply]
      exact hτ' z.1 z.2
    rw [this]
    exact Equiv.bijective _
  refine ⟨τ, hbij, ?_⟩
  intro flux m ng H HM hHc hHM' vs ws hl vM wM hlM
  have hjoin : joinOp (t := fun s i => τ (cs.get s) i) hbij m
      (∑ s, onSub (ι := fun s => Idx fun i => m (τ (cs.get s) i)) s (H (cs.get s))) = HM := by
    have hHMeq : HM = islandHamiltonian σM (junctionInvCap (cM.O.withVals vals) (mergedEls (fun c => (bd c).n) els cs []) (cs.map fun c => (bd c).n).sum)
        (fun i => edgeEJ cM.O (mergedEls (fun c => (bd c).n) els cs []) vals ((junctionEdges cM.O (mergedEls (fun c => (bd c).n) els cs [])).get i)) m ng := by
      have h := hHM'.symm.trans (hHM flux m ng)
      have hG : junctionInvCap (cM.O.withVals vals) (mergedEls (fun c => (bd c).n) els cs []) bM.n =
          junctionInvCap (cM.O.withVals vals) (mergedEls (fun c => (bd c).n) els cs []) (cs.map fun c => (bd c).n).sum := by
        rw [hnM']
      rw [hG] at h
      exact Except.ok.inj h
    rw [hHMeq]
    refine Eq.trans ?_ (join_islands hbij m σs e σM hτ'
      (fun s => junctionInvCap (cM.O.withVals vals) (els (cs.get s)) (bd (cs.get s)).n)
      (fun s i => edgeEJ cM.O (els (cs.get s)) vals ((junctionEdges cM.O (els (cs.get s))).get i)) _ _ ?_
      (fun _ _ => 0) ?_ ng
      (fun s i => ((2 * eCharge / √hbar : ℝ) : ℂ) • pairs (fun i => m (τ (cs.get s) i)) (fun i => ng (τ (cs.get s) i)) i)
      (fun s i => rfl))
    · simp only [Complex.ofReal_zero, zero_smul, Finset.sum_const_zero, smul_zero, add_zero]
      congr 1
      refine Finset.sum_congr rfl fun s _ => ?_
      congr 1
      have h := (hHc (cs.get s) (List.get_mem _ _)).symm.trans (hH (cs.get s) (List.get_mem _ _) flux _ _)
      exact Except.ok.inj h
    · intro s i
      have h := junPos_get (sz := fun c => (bd c).n) (O := cM.O) (els := els) hnd hkc ⟨s, i⟩
      rw [← he] at h
      simp only [h]
      exact merged_edgeEJ hnd hvE hkc vals s (valid_junctionEdge (hvE _ (List.get_mem _ _)) (List.get_mem _ _))
    · intro z z'
      rw [he, parts_invCap (sz := fun c => (bd c).n) hnd hvE hP hkc z z']
      exact (sub_self _).symm
  obtain ⟨v1, hl1⟩ := levels_reindex (splitEquiv (t := fun s i => τ (cs.get s) i) hbij m).symm hlM
  have h1 : HM.submatrix (splitEquiv (t := fun s i => τ (cs.get s) i) hbij m).symm (splitEquiv (t := fun s i => τ (cs.get s) i) hbij m).symm =
      ∑ s, onSub (ι := fun s => Idx fun i => m (τ (cs.get s) i)) s (H (cs.get s)) := by
    rw [← hjoin]
    unfold joinOp
    ext x y
    simp
  rw [h1] at hl1
  exact levels_parts (H := fun s => H (cs.get s)) (vs := fun s => vs (cs.get s)) (ws := fun s => ws (cs.get s))
    (fun s => hl _ (List.get_mem _ _)) hl1

end SQ
