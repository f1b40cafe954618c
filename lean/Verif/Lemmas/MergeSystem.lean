import Verif.Lemmas.MergeIsland2

/-!
# The merged circuit and the matrices of the system
-/

namespace SQ
open Matrix Spec Real

section Merged
variable {sz : CircId → ℕ} {spec : CircId → CircSpec} {cs : List CircId} {cps : List Coupling} {cM : CircSpec} {vals : ElemId → ℝ}

theorem merged_island (hnd : cs.Nodup) (hne : cs ≠ []) (hi : ∀ c ∈ cs, IslandCircuit (spec c) (sz c)) (hO : ∀ c ∈ cs, (spec c).O = cM.O)
    (hels : cM.els = mergedEls sz (fun c => (spec c).els) cs cps) (hg : ∀ g ∈ cps, ValidCoupling cM.O sz vals g)
    (hm : ∀ g ∈ cps, g.cr1 ∈ cs ∧ g.cr2 ∈ cs) (hn : numNodes cM.els = .ok (cs.map sz).sum) :
    IslandCircuit cM (cs.map sz).sum := by
  have hk : ∀ g ∈ cps, (cM.O.elem g.el).kind = .cap := fun g h => (hg g h).2.2.2.1
  have hje : ∀ c ∈ cs, junctionEdges (spec c).O (spec c).els = junctionEdges cM.O (spec c).els := fun c hc => by rw [hO c hc]
  refine ⟨hn, ?_, ?_, ?_, ?_, ?_, ?_, ?_⟩
  · rw [hels]; exact merged_valid hnd (fun c hc => (hi c hc).valid) hg hm
  · rw [hels]; exact merged_ground hnd (fun c hc => (hi c hc).ground)
  · rw [hels]
    intro q hq
    rcases merged_mem_placements hq with ⟨c, hc, q', hq', e⟩ | ⟨g, hgm, e⟩
    · rw [e, ← hO c hc]; exact (hi c hc).noInd q' hq'
    · rw [e, hk g hgm]; simp
  · rw [hels]
    intro q hq
    rcases merged_mem_placements hq with ⟨c, hc, q', hq', e⟩ | ⟨g, hgm, e⟩
    · rw [e, ← hO c hc]; exact (hi c hc).noLoops q' hq'
    · rw [e]; exact (hg g hgm).2.2.2.2.1
  · rw [hels, merged_junctionEdges hk]
    obtain ⟨c, l, rfl⟩ := List.exists_cons_of_ne_nil hne
    have := (hi c (by simp)).some
    rw [hje c (by simp)] at this
    rw [List.flatMap_cons]
    intro h
    have h2 := (List.append_eq_nil_iff.1 h).1
    rw [List.map_eq_nil_iff] at h2
    exact this h2
  · rw [hels]
    refine merged_independent hnd (fun c hc => (hi c hc).valid) hk (fun c hc => ?_)
    have := (hi c hc).indep
    rw [hO c hc] at this
    exact this
  · rw [hels, merged_junctionEdges hk, List.length_flatMap]
    congr 1
    refine List.map_congr_left fun c hc => ?_
    rw [List.length_map, ← hje c hc, (hi c hc).square]

theorem merged_caps (hv : ∀ c ∈ cs, IslandValues (spec c) (sz c) vals) (hO : ∀ c ∈ cs, (spec c).O = cM.O)
    (hels : cM.els = mergedEls sz (fun c => (spec c).els) cs cps) (hg : ∀ g ∈ cps, ValidCoupling cM.O sz vals g) :
    PositiveCaps (cM.O.withVals vals) cM.els := by
  rw [hels]
  intro q hq
  rcases merged_mem_placements hq with ⟨c, hc, q', hq', e⟩ | ⟨g, hgm, e⟩
  · rw [e, ← hO c hc]; exact (hv c hc).1 q' hq'
  · rw [e]
    obtain ⟨-, -, -, h1, -, h2⟩ := hg g hgm
    unfold placedCap
    have : ((cM.O.withVals vals).elem g.el).kind = .cap := h1
    rw [this]
    exact h2

end Merged

section System

theorem incAt_edge (M : ℕ → ℕ → ℝ) {i j N : ℕ} (hij : i ≠ j) (c : ℝ) (p q : Fin N) :
    incAt (incAt (incAt (incAt M i i c) j j c) i j (-c)) j i (-c) p q = M p q + c * edgeMat N (i + 1, j + 1) p q := by
  have e : ∀ k : ℕ, incidence (i + 1, j + 1) (k + 1) = if k = i then 1 else if k = j then -1 else 0 := by
    intro k
    unfold incidence
    simp
  unfold edgeMat
  rw [Matrix.of_apply, e, e]
  unfold incAt
  by_cases h1 : (p : ℕ) = i <;> by_cases h2 : (q : ℕ) = i <;> by_cases h3 : (p : ℕ) = j <;> by_cases h4 : (q : ℕ) = j <;>
    first
    | (exfalso; omega)
    | (simp only [h1, h2, h3, h4, hij, hij.symm]; simp [hij, hij.symm])

variable {sub : CircId → SubCirc} {cs : List CircId}

theorem addCouples_entries {vals : ElemId → ℝ} (hn : ∀ c ∈ cs, (sub c).n = (sub c).nodes) :
    ∀ (cps : List Coupling), (∀ g ∈ cps, g.cr1 ∈ cs ∧ g.cr2 ∈ cs ∧ (1 ≤ g.node1 ∧ g.node1 ≤ (sub g.cr1).nodes) ∧
        (1 ≤ g.node2 ∧ g.node2 ≤ (sub g.cr2).nodes) ∧
        nodeOffset (fun c => (sub c).nodes) cs g.cr1 + g.node1 ≠ nodeOffset (fun c => (sub c).nodes) cs g.cr2 + g.node2) →
      ∀ M, ∃ M', addCouples sub cs (cps.map (Coupling.couple vals)) M = .ok M' ∧ ∀ p q : Fin (sysNodes sub cs),
        M' p q = M p q + (cps.map fun g => vals g.el * edgeMat (sysNodes sub cs)
          (nodeOffset (fun c => (sub c).nodes) cs g.cr1 + g.node1, nodeOffset (fun c => (sub c).nodes) cs g.cr2 + g.node2) p q).sum := by
  intro cps
  induction cps with
  | nil => intro _ M; exact ⟨M, rfl, fun p q => by simp⟩
  | cons g cps ih =>
    intro h M
    obtain ⟨h1, h2, ⟨a1, a2⟩, ⟨b1, b2⟩, hne⟩ := h g (by simp)
    rw [nodeOffset_before _ _ _ h1, nodeOffset_before _ _ _ h2] at hne
    obtain ⟨i, hi, hiv, -⟩ := node_index sub cs hn h1 (i := (g.node1 : ℤ)) (by omega) (by omega)
    obtain ⟨j, hj, hjv, -⟩ := node_index sub cs hn h2 (i := (g.node2 : ℤ)) (by omega) (by omega)
    obtain ⟨M', hM', hM''⟩ := ih (fun g' hg' => h g' (by simp [hg']))
      (incAt (incAt (incAt (incAt M i i (vals g.el)) j j (vals g.el)) i j (-(vals g.el))) j i (-(vals g.el)))
    refine ⟨M', ?_, ?_⟩
    · rw [List.map_cons, addCouples]
      have : addCouple sub cs M (g.couple vals) = .ok (incAt (incAt (incAt (incAt M i i (vals g.el)) j j (vals g.el)) i j (-(vals g.el))) j i (-(vals g.el))) := by
        unfold addCouple Coupling.couple
        simp only [hi, hj]
      rw [this]
      exact hM'
    · intro p q
      have hij : (i : ℕ) ≠ j := by omega
      rw [hM'', incAt_edge M hij, List.map_cons, List.sum_cons, ← add_assoc]
      congr 3
      have e1 : (i : ℕ) + 1 = nodeOffset (fun c => (sub c).nodes) cs g.cr1 + g.node1 := by
        rw [nodeOffset_before _ _ _ h1]; omega
      have e2 : (j : ℕ) + 1 = nodeOffset (fun c => (sub c).nodes) cs g.cr2 + g.node2 := by
        rw [nodeOffset_before _ _ _ h2]; omega
      rw [e1, e2]

theorem sysHam_ok {sub : CircId → SubCirc} {cps : List Couple} {u : ℝ} {M : ℕ → ℕ → ℝ} (hM : capMatrix sub cps = .ok M)
    (h1 : (toMat (sysNodes sub (getAllCircuits cps)) M).det ≠ 0)
    (h2 : (toMat (sysNodes sub (getAllCircuits cps)) (bareCap sub (getAllCircuits cps))).det ≠ 0) :
    ∃ X, sysHamiltonian sub cps u = .ok X := by
  unfold sysHamiltonian hInt
  simp only [hM, npInv, if_neg h1, if_neg h2]
  exact ⟨_, rfl⟩

theorem nodeOffset_congr {sz sz' : CircId → ℕ} {cs : List CircId} (h : ∀ c ∈ cs, sz c = sz' c) (c : CircId) :
    nodeOffset sz cs c = nodeOffset sz' cs c := by
  unfold nodeOffset
  congr 1
  refine List.map_congr_left fun a ha => h a ((List.takeWhile_sublist _).mem ha)

theorem mergedEls_congr {sz sz' : CircId → ℕ} {cs : List CircId} (h : ∀ c ∈ cs, sz c = sz' c) (els : CircId → Elements) (cps : List Coupling) :
    mergedEls sz els cs cps = mergedEls sz' els cs cps := by
  unfold mergedEls
  simp only [nodeOffset_congr h]

end System

end SQ
