import Verif.Lemmas.Grounded
import Verif.Lemmas.GroundedOps
import Verif.Lemmas.BuildKeys
import Verif.Props.LevelsSession
import Verif.Lemmas.Merge

/-!
# C132: circuits whose nodes are all held by inductors have the Hamiltonian of their normal modes
-/

namespace SQ
open Matrix Spec Real

theorem gm_across {n : ℕ} {e : Edge} (h : ValidEdge n e) (x : Fin n → ℝ) :
    coupleAt "inductive" x e = acrossEdge x e := by
  unfold acrossEdge
  rw [sum_incidence h]
  obtain ⟨i, j⟩ := e
  obtain ⟨hne, -, -⟩ := h
  unfold coupleAt branchDiff
  simp only at hne ⊢
  by_cases h1 : i = 0
  · subst h1
    have hp0 : pot x 0 = 0 := rfl
    simp [hp0]
  · rw [if_neg h1]
    by_cases h2 : j = 0
    · subst h2
      have hp0 : pot x 0 = 0 := rfl
      simp [hp0]
    · rw [if_neg (by simp [h1, h2]), if_neg (by decide)]

section
variable {c : CircSpec} {vals : ElemId → ℝ}

theorem gm_neg_sum {α β : Type*} [AddCommGroup β] (l : List α) (f : α → β) : (l.map fun x => - f x).sum = - (l.map f).sum := by
  induction l with
  | nil => simp
  | cons a l ih => simp only [List.map_cons, List.sum_cons, ih]; abel

theorem gm_junlist {nB nJ : ℕ} (f : Fin nB → ℝ) (val : ElemId → ℝ) (keys : List (Edge × ElemId × ℕ × ℕ))
    (h1 : ∀ k ∈ keys, k.2.2.1 < nB) (h2 : ∀ k ∈ keys, k.2.2.2 < nJ) :
    ((junKeysOf nB nJ keys).map fun key => (⟨key.edge, val key.el, f key.bId⟩ : PlacedBranch)) =
      keys.map fun k => ⟨k.1, val k.2.1, if h : k.2.2.1 < nB then f ⟨k.2.2.1, h⟩ else 0⟩ := by
  unfold junKeysOf
  rw [List.map_filterMap, ← List.filterMap_eq_map]
  refine List.filterMap_congr fun k hk => ?_
  simp only [dif_pos (And.intro (h1 k hk) (h2 k hk)), Option.map_some, Function.comp, dif_pos (h1 k hk)]

theorem gm_inds (hs : NoSelfLoops c.els) {b : Build} (hb : buildCirc c vals = .ok b) (val : ElemId → ℝ) (flux : LoopId → ℝ) :
    (b.inds.map fun key => (⟨key.edge, val key.el, b.fluxes flux key.bId⟩ : PlacedBranch)) =
      fluxedBranches .ind c.O c.els val (branchPhase b flux) := by
  obtain ⟨n, a, B, t, hn, htr, hB, ht, rfl⟩ := buildCirc_stages hb
  have hv : ValidElements n c.els := fun p hp => ⟨hs p hp, buildEdges_nodes_le htr p hp⟩
  obtain ⟨hi, -, -, -, hbI, hkM⟩ := C18_branch_numbering _ _ _ _ _ _ hv _ htr
  unfold fluxedBranches
  change (indKeysOf a.st.kMat.length a.st.indKeys).map _ = _
  unfold indKeysOf
  rw [hi, List.filterMap_map, List.map_filterMap, ← List.filterMap_eq_map]
  refine List.filterMap_congr fun q hq => ?_
  have hlt : q.2 < a.st.kMat.length := by
    rw [hkM, List.length_map]
    exact (List.mem_zipIdx' (List.mem_filter.1 hq).1).1
  simp only [Function.comp, dif_pos hlt, Option.map_some, branchPhase]

theorem gm_juns (hs : NoSelfLoops c.els) {b : Build} (hb : buildCirc c vals = .ok b) (val : ElemId → ℝ) (flux : LoopId → ℝ) :
    (b.juns.map fun key => (⟨key.edge, val key.el, b.fluxes flux key.bId⟩ : PlacedBranch)) =
      fluxedBranches .jj c.O c.els val (branchPhase b flux) := by
  obtain ⟨n, a, B, t, hn, htr, hB, ht, rfl⟩ := buildCirc_stages hb
  have hv : ValidElements n c.els := fun p hp => ⟨hs p hp, buildEdges_nodes_le htr p hp⟩
  obtain ⟨-, hi, hW, hrow, hbI, hkM⟩ := C18_branch_numbering _ _ _ _ _ _ hv _ htr
  have hlt : ∀ k ∈ a.st.junKeys, k.2.2.1 < a.st.kMat.length := by
    intro k hk
    have : (k.1, k.2.1, k.2.2.1) ∈ a.st.junKeys.map (fun k => (k.1, k.2.1, k.2.2.1)) := List.mem_map_of_mem hk
    rw [hi] at this
    obtain ⟨q, hq, hq2⟩ := List.mem_map.1 this
    have h3 := (List.mem_zipIdx' (List.mem_filter.1 hq).1).1
    rw [hkM, List.length_map]
    have h4 : q.2 = k.2.2.1 := congrArg (fun z => z.2.2) hq2
    rw [← h4]; exact h3
  have hlt2 : ∀ k ∈ a.st.junKeys, k.2.2.2 < a.wMat.length := fun k hk =>
    (List.getElem?_eq_some_iff.1 (hrow k hk).2).1
  refine (gm_junlist (extFlux (fluxTable B) fun i => flux (a.st.loops.get i)) val a.st.junKeys hlt hlt2).trans ?_
  have h2 := congrArg (List.map fun k : Edge × ElemId × ℕ => (⟨k.1, val k.2.1, if h : k.2.2 < a.st.kMat.length then
    (extFlux (fluxTable B) fun i => flux (a.st.loops.get i)) ⟨k.2.2, h⟩ else 0⟩ : PlacedBranch)) hi
  rw [List.map_map, List.map_map] at h2
  exact h2

theorem gm_facts (hc : GoodCircuit c vals) {b : Build} (hb : buildCirc c vals = .ok b) (hk : b.M.keep.length = b.n)
    {ω : Fin b.n → ℝ} {v : Fin b.n → Fin b.n → ℝ}
    (hm : ModePatterns (nodeCap b.n (c.O.withVals vals) c.els) (nodeInvInd b.n (c.O.withVals vals) c.els) ω v) :
    (∀ j, b.M.omega j = ω (j.cast hk)) ∧ (∀ i j, i ≠ j → b.M.cInv i j = 0) ∧
    ∃ s : Fin b.M.keep.length → ℝ, (∀ j, s j = 1 ∨ s j = -1) ∧
      (∀ key ∈ b.inds, ValidEdge b.n key.edge ∧
        ∀ (j : Fin b.M.keep.length) (hj : (j : ℕ) < b.n), b.M.data.phiZp j * coupleAt "inductive" (fun r => b.M.S r ⟨j, hj⟩) key.edge =
          phaseZp (ω (j.cast hk)) (fun i => s j * v (j.cast hk) i) key.edge) ∧
      ∀ key ∈ b.juns, ∀ j, b.M.data.w key.wId j * b.M.data.phiZp j =
        neglect (phaseZp (ω (j.cast hk)) (fun i => s j * v (j.cast hk) i) key.edge) := by
  have hvalid := (build_valid hc.noSelf hb).2
  obtain ⟨n, a, B, t, hn, htr, hB, ht, rfl⟩ := buildCirc_stages hb
  obtain ⟨hv, hC, hL⟩ := good_mats hc hn htr
  obtain ⟨hm1, hm2⟩ := traverse_mats hv htr
  have hnC : nodeCap n (c.O.withVals vals) c.els = a.cMat := hm1.symm
  have hnL : nodeInvInd n (c.O.withVals vals) c.els = a.lMat := hm2.symm
  have hm : ModePatterns a.cMat a.lMat ω v := hnC ▸ hnL ▸ hm
  obtain ⟨hom, hd, s, hs, hS, hw⟩ := gm_trans hc hn htr ht hm
  obtain ⟨-, -, hW, hrow, -⟩ := C18_branch_numbering _ _ _ _ _ _ hv _ htr
  have hfin : finishModes c.torch t = restrict t (List.finRange n) := finishModes_full c.torch t hk
  clear hb
  simp only at hk hvalid ⊢
  generalize hM : finishModes c.torch t = M at *
  subst hfin
  have hget : ∀ j : Fin (restrict t (List.finRange n)).keep.length, (List.finRange n).get j = j.cast hk := by
    intro j
    apply Fin.ext
    exact congrArg Fin.val (List.getElem_finRange (n := n) (i := (j : ℕ)) j.isLt)
  refine ⟨fun j => ?_, fun i j hij => ?_, fun j => s (j.cast hk), fun j => hs _, fun key hkey => ⟨hvalid key hkey, fun j hj => ?_⟩,
    fun key hkey j => ?_⟩
  · exact (congrArg t.omega (hget j)).trans (congrFun hom _)
  · refine hd _ _ fun h0 => hij ?_
    have h0' := (hget i).symm.trans (h0.trans (hget j))
    have h1 := congrArg Fin.val h0'
    exact Fin.ext h1
  · rw [gm_across (hvalid key hkey)]
    have e1 : (restrict t (List.finRange n)).data.phiZp j = t.phiZp (j.cast hk) := by
      exact congrArg t.phiZp (hget j)
    have e2 : (fun r => (restrict t (List.finRange n)).S r ⟨j, hj⟩) = fun r => t.S r (j.cast hk) := rfl
    rw [e1, e2]
    have h4 := hm.positive (j.cast hk)
    have e3 : t.phiZp (j.cast hk) = 2 * Real.pi / Phi0 * (√(hbar / 2) * √(t.impedance (j.cast hk))) := by
      unfold Trans.phiZp
      rw [Real.sqrt_mul (by unfold hbar; positivity)]
    have e4 : √(hbar / (2 * ω (j.cast hk))) = √(hbar / 2) / √(ω (j.cast hk)) := by
      rw [← div_div, Real.sqrt_div' _ h4.le]
    have h5 : √(ω (j.cast hk)) ≠ 0 := (Real.sqrt_pos.2 h4).ne'
    have e5 : (fun i => s (j.cast hk) * v (j.cast hk) i) =
        fun i => (√(ω (j.cast hk)) * √(t.impedance (j.cast hk))) * t.S i (j.cast hk) := by
      funext i
      have := hS i (j.cast hk)
      field_simp at this
      linarith
    unfold phaseZp
    rw [e3, e4, e5, acrossEdge_smul]
    field_simp
  · have e1 : (restrict t (List.finRange n)).data.phiZp j = t.phiZp (j.cast hk) := by
      exact congrArg t.phiZp (hget j)
    have e2 : (restrict t (List.finRange n)).data.w key.wId j = t.w key.wId (j.cast hk) := by
      exact congrArg (t.w key.wId) (hget j)
    rw [e1, e2, hw]
    unfold phaseZp acrossEdge
    congr 2
    refine Finset.sum_congr rfl fun k _ => ?_
    congr 1
    have hkey : key ∈ junKeysOf a.st.kMat.length a.wMat.length a.st.junKeys := hkey
    unfold junKeysOf at hkey
    obtain ⟨k', hk', hk2⟩ := List.mem_filterMap.1 hkey
    split at hk2
    · rename_i hlt
      have hk2 := Option.some.inj hk2
      subst hk2
      obtain ⟨h2, h3⟩ := List.getElem?_eq_some_iff.1 (hrow k' hk').2
      unfold arrayOf rowVec
      simp only [of_apply, List.get_eq_getElem, h3]
      unfold incVec
      rw [List.getD_eq_getElem?_getD, List.getElem?_map, List.getElem?_range k.isLt]
      rfl
    · cases hk2

/-- the Hamiltonian of a constructed circuit whose modes are all kept -/
theorem gm_ham (hc : GoodCircuit c vals) {b : Build} (hb : buildCirc c vals = .ok b) (hk : b.M.keep.length = b.n)
    {ω : Fin b.n → ℝ} {v : Fin b.n → Fin b.n → ℝ}
    (hm : ModePatterns (nodeCap b.n (c.O.withVals vals) c.els) (nodeInvInd b.n (c.O.withVals vals) c.els) ω v)
    (m : Fin b.M.keep.length → ℕ) (ng : Fin b.M.keep.length → ℝ) (val : ElemId → ℝ) (flux : LoopId → ℝ) :
    ∃ s : Fin b.M.keep.length → ℝ, (∀ j, s j = 1 ∨ s j = -1) ∧
      fullHamiltonian b.C b.M m ng val (b.fluxes flux) b.inds b.juns = .ok
        (normalModeHamiltonian m (fun j => ω (j.cast hk)) (fun j i => s j * v (j.cast hk) i)
          (fluxedBranches .ind c.O c.els val (branchPhase b flux)) (fluxedBranches .jj c.O c.els val (branchPhase b flux))) := by
  obtain ⟨h1, h2, s, hs, h3, h4⟩ := gm_facts hc hb hk hm
  refine ⟨s, hs, ?_⟩
  have hne : ∀ j, b.M.data.omega j ≠ 0 := fun j => by
    change b.M.omega j ≠ 0
    rw [h1]; exact (hm.positive _).ne'
  unfold fullHamiltonian
  simp only
  rw [hamiltonianOf_eq b.C b.M hk.le _ _ _ _ _ _ (fun key hkey => (h3 key hkey).1), gmo_lc b.M.data ng hne h2]
  congr 1
  unfold normalModeHamiltonian
  rw [← gm_inds hc.noSelf hb, ← gm_juns hc.noSelf hb, List.map_map, List.map_map]
  have e1 : (∑ j, ((b.M.data.omega j : ℝ) : ℂ) • onMode m j (qCreate (m j) * qDestroy (m j))) =
      ∑ j, ((ω (j.cast hk) : ℝ) : ℂ) • onMode m j (qCreate (m j) * qDestroy (m j)) :=
    Finset.sum_congr rfl fun j _ => by
      rw [← h1]; rfl
  have e2 : (b.inds.map fun key => ((1 / val key.el * b.fluxes flux key.bId * (Phi0 / 2 / Real.pi) / √hbar : ℝ) : ℂ) •
        indOpOf b.C b.M (buildMem b.M.data m ng) key) = b.inds.map ((fun q : PlacedBranch => (((Phi0 / (2 * π)) ^ 2 / (hbar * q.value) * q.ext : ℝ) : ℂ) •
    phaseOperator m fun j => phaseZp (ω (j.cast hk)) (fun i => s j * v (j.cast hk) i) q.edge) ∘ fun key => ⟨key.edge, val key.el, b.fluxes flux key.bId⟩) := by
    refine List.map_congr_left fun key hkey => ?_
    rw [indOpOf_eq b.C b.M hk.le _ (h3 key hkey).1, gmo_ind b.M.data ng hne]
    simp only [Function.comp]
    congr 2
    funext j
    exact (h3 key hkey).2 j _
  have e3 : (b.juns.map fun key => (-(val key.el : ℂ)) • cosOp (buildMem b.M.data m ng) key.wId (b.fluxes flux key.bId)).sum =
      -(b.juns.map ((fun q : PlacedBranch => (q.value : ℂ) • cosPhase m (fun j => neglect (phaseZp (ω (j.cast hk)) (fun i => s j * v (j.cast hk) i) q.edge)) q.ext)
        ∘ fun key => ⟨key.edge, val key.el, b.fluxes flux key.bId⟩)).sum := by
    rw [← gm_neg_sum]
    congr 1
    refine List.map_congr_left fun key hkey => ?_
    rw [gmo_cos b.M.data ng hne, neg_smul]
    simp only [Function.comp]
    congr 3
    funext j
    exact h4 key hkey j
  rw [e1, e2, e3]
  abel

end
section
variable {c : CircSpec} {eigs : EigsFn} {as : List ℂ → List ℕ}

/-- no mode is removed -/
theorem gm_keep {n : ℕ} {vals : ElemId → ℝ} {ω : Fin n → ℝ} {v : Fin n → Fin n → ℝ} (hh : HeldCircuit c n vals ω v) {b : Build}
    (hb : buildCirc c vals = .ok b) : b.n = n ∧ b.M.keep.length = b.n := by
  have hc := hh.good
  obtain ⟨n', a, B, t, hn, htr, hB, ht, rfl⟩ := buildCirc_stages hb
  obtain rfl : n' = n := Except.ok.inj (hn.symm.trans hh.nodes)
  refine ⟨rfl, ?_⟩
  change (finishModes c.torch t).keep.length = n'
  obtain ⟨h1, ⟨h2, h3⟩, h4⟩ := C32_uncoupled_removal t
  by_cases htc : c.torch = true
  · rw [htc, h3, List.length_finRange]
  · have htf : c.torch = false := by simpa using htc
    by_cases h0 : a.wMat.length = 0
    · rw [htf, h2 h0, List.length_finRange]
    · obtain ⟨hv, -, -⟩ := good_mats hc hn htr
      obtain ⟨hm1, hm2⟩ := traverse_mats hv htr
      have hnC : nodeCap n' (c.O.withVals vals) c.els = a.cMat := hm1.symm
      have hnL : nodeInvInd n' (c.O.withVals vals) c.els = a.lMat := hm2.symm
      have hm : ModePatterns a.cMat a.lMat ω v := hnC ▸ hnL ▸ hh.modes
      obtain ⟨-, -, s, hs, -, hw⟩ := gm_trans hc hn htr ht hm
      obtain ⟨-, -, hW, -⟩ := C18_branch_numbering _ _ _ _ _ _ hv _ htr
      have hcp : ∀ j, CoupledMode c.O c.els (ω j) (v j) := by
        rcases hh.kept with h | h | h
        · exact absurd h htc
        · exfalso
          apply h0
          rw [hW, List.length_map]
          have := linear_edges h
          exact congrArg List.length this
        · exact h
      have hall : ∀ j, j ∈ (finishModes c.torch t).keep := by
        intro j
        rw [htf, h1 h0]
        obtain ⟨q, hq, hqk, hq1⟩ := hcp j
        have hqe : q.1 ∈ junctionEdges c.O c.els := by
          unfold placements at hq
          obtain ⟨p, hp, hp2⟩ := List.mem_flatMap.1 hq
          obtain ⟨i, hi, rfl⟩ := List.mem_map.1 hp2
          unfold junctionEdges
          exact List.mem_map.2 ⟨p, List.mem_filter.2 ⟨hp, List.any_eq_true.2 ⟨i, hi, by simpa using hqk⟩⟩, rfl⟩
        have hqe : incVec n' q.1 ∈ a.wMat := by
          rw [hW]; exact List.mem_map_of_mem hqe
        obtain ⟨i, hi, hgi⟩ := List.getElem_of_mem hqe
        refine ⟨⟨i, hi⟩, fun h00 => ?_⟩
        have := hw ⟨i, hi⟩ j
        rw [h00, zero_mul] at this
        have e : 2 * Real.pi / Phi0 * √(hbar / (2 * ω j)) * ∑ k, arrayOf n' a.wMat ⟨i, hi⟩ k * (s j * v j k) =
            s j * phaseZp (ω j) (v j) q.1 := by
          rw [← phaseZp_smul]
          unfold phaseZp acrossEdge
          congr 1
          refine Finset.sum_congr rfl fun k _ => ?_
          congr 1
          unfold arrayOf rowVec
          simp only [of_apply, List.get_eq_getElem, hgi]
          unfold incVec
          rw [List.getD_eq_getElem?_getD, List.getElem?_map, List.getElem?_range k.isLt]
          rfl
        rw [e, neglect_sgn (hs j)] at this
        have hz : neglect (phaseZp (ω j) (v j) q.1) = 0 := by
          rcases hs j with h | h <;> rw [h] at this <;> simpa using this.symm
        unfold neglect at hz
        rw [if_neg (not_lt.2 hq1)] at hz
        rw [hz, abs_zero] at hq1
        norm_num at hq1
      have hnd : (finishModes c.torch t).keep.Nodup := (h4 c.torch).1.imp fun h => ne_of_lt h
      have := List.toFinset_card_of_nodup hnd
      rw [← this, Finset.eq_univ_iff_forall.2 fun j => List.mem_toFinset.2 (hall j), Finset.card_univ, Fintype.card_fin]

theorem gm_cast {k n : ℕ} (hk : k = n) (m : List ℤ) (ω : Fin n → ℝ) (v : Fin n → Fin n → ℝ) (s : Fin k → ℝ)
    (inds juns : List PlacedBranch) :
    (⟨k, fun i => (m.getD i 0).toNat, normalModeHamiltonian _ (fun j => ω (j.cast hk)) (fun j i => s j * v (j.cast hk) i) inds juns⟩ :
      Σ (k : ℕ) (d : Fin k → ℕ), Op d) =
    ⟨n, fun i => (m.getD i 0).toNat, normalModeHamiltonian _ ω (fun j i => s (j.cast hk.symm) * v j i) inds juns⟩ := by
  subst hk
  rfl

/-- C132: at any point of a session of a circuit whose nodes are all held by inductors and whose modes have different
frequencies, `hamiltonian()` is that of its normal modes: an oscillator per mode, the inductors' flux terms, and a cosine per
junction of the phase across it, each mode's pattern being determined up to its sign. -/
theorem C132_hamiltonian (hcaps : CapsOK c.O) {n : ℕ} (vals : ElemId → ℝ) (flux : LoopId → ℝ) (u : ℝ)
    (w0 : World (circPhys c eigs as)) (hw : construct (circPhys c eigs as) vals flux u = .ok w0)
    (h : List Act) (hh : Orderly w0 h) (h0 : ∃ ω v, HeldCircuit c n vals ω v)
    (hup : ∀ h1 h2, h = h1 ++ .update :: h2 → ∃ ω v, HeldCircuit c n (run w0 h1).vals ω v) :
    let w := run w0 h
    (∀ i, (c.O.elem i).kind ≠ .jj → w.vals i = lastBuilt vals w0 h i) → w.circ.m ≠ [] →
    ∀ ω v, HeldCircuit c n w.vals ω v →
    ∃ (b : Build) (s : Fin n → ℝ), buildCirc c w.vals = .ok b ∧ (∀ j, s j = 1 ∨ s j = -1) ∧
      (hamiltonian w).1 = .ok ⟨n, fun j => (w.circ.m.getD j 0).toNat,
        normalModeHamiltonian _ ω (fun j i => s j * v j i) (fluxedBranches .ind c.O c.els w.vals (branchPhase b w.flux))
          (fluxedBranches .jj c.O c.els w.vals (branchPhase b w.flux))⟩ := by
  intro w hlast hm0 ω v hheld
  obtain ⟨ω0, v0, h0⟩ := h0
  have hrem : NoRemoval c w0 h := by
    intro h1 h2 he
    right
    have hb0 : buildCirc c vals = .ok w0.circ.bd := (construct_build hw).1
    obtain ⟨e1, e2⟩ := gm_keep h0 hb0
    refine ⟨h0.nodes.trans (congrArg _ (e1.symm.trans e2.symm)), fun b hb => ?_⟩
    obtain ⟨ω1, v1, h1'⟩ := hup h1 h2 he
    exact (gm_keep h1' hb).2
  obtain ⟨b, hb, hham⟩ := C48_circuit hcaps vals flux u w0 hw h hh hrem hlast hm0
  obtain ⟨hbn, hk⟩ := gm_keep hheld hb
  subst hbn
  obtain ⟨s, hs, hH⟩ := gm_ham hheld.good hb hk hheld.modes (b.dims w.circ.m) (fun i => (w.circ.ng i).getD 0) w.vals w.flux
  refine ⟨b, fun j => s (j.cast hk.symm), hb, fun j => hs _, ?_⟩
  refine hham.trans ?_
  rw [hH]
  exact congrArg Except.ok (gm_cast hk w.circ.m ω v s _ _)

theorem gm_conj_levels {k : ℕ} {m : Fin k → ℕ} {s : Fin k → ℝ} (hs : ∀ j, s j = 1 ∨ s j = -1) {H : Op m}
    (hherm : ((modeParity m s)ᴴ * H * modeParity m s).IsHermitian) :
    ∃ vs ws, Levels H vs ws ∧ ∃ vs', Levels ((modeParity m s)ᴴ * H * modeParity m s) vs' ws := by
  have hV1 : (modeParity m s)ᴴ * modeParity m s = 1 := by rw [modeParity_herm, modeParity_sq hs]
  have hV2 : modeParity m s * (modeParity m s)ᴴ = 1 := by rw [modeParity_herm, modeParity_sq hs]
  have hHh : H.IsHermitian := by
    have e : modeParity m s * ((modeParity m s)ᴴ * H * modeParity m s) * (modeParity m s)ᴴ = H := by
      rw [← Matrix.mul_assoc, ← Matrix.mul_assoc, hV2, Matrix.one_mul, Matrix.mul_assoc, hV2, Matrix.mul_one]
    rw [← e, IsHermitian, conjTranspose_mul, conjTranspose_mul, hherm.eq, conjTranspose_conjTranspose]
    simp only [Matrix.mul_assoc]
  obtain ⟨vs, ws, hlev⟩ := levels_exists hHh
  exact ⟨vs, ws, hlev, _, levels_conj hV1 hV2 hlev⟩

/-- C132, frequencies: `diag` returns the lowest levels of that Hamiltonian, in which the signs of the patterns do not matter. -/
theorem C132_levels (he : EigsLowest eigs) (ha : CArgsortSpec as) (hcaps : CapsOK c.O) {n : ℕ} (vals : ElemId → ℝ)
    (flux : LoopId → ℝ) (u : ℝ)
    (w0 : World (circPhys c eigs as)) (hw : construct (circPhys c eigs as) vals flux u = .ok w0)
    (h : List Act) (hh : Orderly w0 h) (h0 : ∃ ω v, HeldCircuit c n vals ω v)
    (hup : ∀ h1 h2, h = h1 ++ .update :: h2 → ∃ ω v, HeldCircuit c n (run w0 h1).vals ω v) :
    let w := run w0 h
    (∀ i, (c.O.elem i).kind ≠ .jj → w.vals i = lastBuilt vals w0 h i) → w.circ.m ≠ [] →
    ∀ ω v, HeldCircuit c n w.vals ω v →
    ∃ b : Build, buildCirc c w.vals = .ok b ∧
      let H : Op (fun j : Fin n => (w.circ.m.getD j 0).toNat) := normalModeHamiltonian _ ω v
        (fluxedBranches .ind c.O c.els w.vals (branchPhase b w.flux)) (fluxedBranches .jj c.O c.els w.vals (branchPhase b w.flux))
      ∃ vs ws, Levels H vs ws ∧ ∀ num : ℕ, 1 ≤ num → num + 1 < ∏ i : Fin n, (w.circ.m.getD i 0).toNat →
        ∃ ev, (diag (some num) w).1 = .ok ((ws.take num).map (fun f => f / (2 * Real.pi * w.unitFreq)), ev) := by
  intro w hlast hm0 ω v hheld
  obtain ⟨b, s, hb, hs, hham⟩ := C132_hamiltonian hcaps vals flux u w0 hw h hh h0 hup hlast hm0 ω v hheld
  refine ⟨b, hb, ?_⟩
  obtain ⟨H0, hH0, hherm⟩ := C40_circuit hheld.good.noSelf vals flux u w0 hw h hh hm0
  have hsame := Except.ok.inj (hH0.symm.trans hham)
  subst hsame
  have hconj := normalMode_sign (m := fun j : Fin n => (w.circ.m.getD j 0).toNat) hs ω v
    (fluxedBranches .ind c.O c.els w.vals (branchPhase b w.flux)) (fluxedBranches .jj c.O c.els w.vals (branchPhase b w.flux))
  obtain ⟨vs, ws, hlev, vs', hlev'⟩ := gm_conj_levels hs (H := normalModeHamiltonian (fun j : Fin n => (w.circ.m.getD j 0).toNat) ω v
    (fluxedBranches .ind c.O c.els w.vals (branchPhase b w.flux)) (fluxedBranches .jj c.O c.els w.vals (branchPhase b w.flux)))
    (by rw [hconj]; exact hherm)
  rw [hconj] at hlev'
  refine ⟨vs, ws, hlev, fun num h1 hnum => ?_⟩
  obtain ⟨vs'', ws'', ev, w', hlev'', hd, -⟩ := diag_lowest he ha hm0 hham hherm num h1 (by
      show num + 1 < Fintype.card (∀ i : Fin n, Fin (w.circ.m.getD i 0).toNat)
      rw [Fintype.card_pi]
      simp only [Fintype.card_fin]
      exact hnum)
  rw [levels_unique hlev'' hlev'] at hd
  exact ⟨_, by rw [hd]⟩

end

/-! ### without external flux, and renumbered nodes -/

theorem branchPhase_zero (b : Build) {flux : LoopId → ℝ} (h0 : ∀ l, flux l = 0) (i : ℕ) : branchPhase b flux i = 0 := by
  unfold branchPhase
  split
  · unfold Build.fluxes
    rw [extFlux_sum]
    simp [h0]
  · rfl

/-- E_J cos φ of the placed junctions, without external flux -/
noncomputable def cosSum {n k : ℕ} (m : Fin k → ℕ) (ω : Fin k → ℝ) (v : Fin k → Fin n → ℝ) (O : Objs) (val : ElemId → ℝ)
    (l : List (Edge × ElemId)) : Op m :=
  ((l.filter fun q => decide ((O.elem q.2).kind = .jj)).map fun q =>
    (val q.2 : ℂ) • cosPhase m (fun j => neglect (phaseZp (ω j) (v j) q.1)) 0).sum

theorem branches_sum {α : Type*} (kd : Kind) (hkd : kd ≠ .cap) (O : Objs) (els : Elements) (val : ElemId → ℝ) (f : Edge → ℝ → α) (x : ℕ → ℝ) (hx : ∀ i, x i = 0) :
    ((fluxedBranches kd O els val x).map fun q => f q.edge q.value) =
      ((placements els).filter fun q => decide ((O.elem q.2).kind = kd)).map fun q => f q.1 (val q.2) := by
  unfold fluxedBranches numbered inductivePlacements
  rw [List.map_map]
  have key : ∀ (l : List (Edge × ElemId)) (i : ℕ),
      (((l.filter fun q => decide ((O.elem q.2).kind ≠ .cap)).zipIdx i).filter fun q => decide ((O.elem q.1.2).kind = kd)).map
        ((fun q : PlacedBranch => f q.edge q.value) ∘ fun q => ⟨q.1.1, val q.1.2, x q.2⟩) =
      (l.filter fun q => decide ((O.elem q.2).kind = kd)).map fun q => f q.1 (val q.2) := by
    intro l
    induction l with
    | nil => intro i; rfl
    | cons q l ih =>
      intro i
      by_cases hc : (O.elem q.2).kind = .cap
      · have hk : ¬ (O.elem q.2).kind = kd := fun h => hkd (h.symm.trans hc)
        rw [List.filter_cons_of_neg (by simp [hc]), List.filter_cons_of_neg (by simp [hk])]
        exact ih i
      · rw [List.filter_cons_of_pos (by simp [hc]), List.zipIdx_cons]
        by_cases hk : (O.elem q.2).kind = kd
        · rw [List.filter_cons_of_pos (by simp [hk]), List.filter_cons_of_pos (by simp [hk]), List.map_cons, List.map_cons, ih]
          rfl
        · rw [List.filter_cons_of_neg (by simp [hk]), List.filter_cons_of_neg (by simp [hk]), ih]
  exact key _ 0

theorem normalMode_zero {n k : ℕ} (m : Fin k → ℕ) (ω : Fin k → ℝ) (v : Fin k → Fin n → ℝ) (O : Objs) (els : Elements)
    (val : ElemId → ℝ) {x : ℕ → ℝ} (hx : ∀ i, x i = 0) :
    normalModeHamiltonian m ω v (fluxedBranches .ind O els val x) (fluxedBranches .jj O els val x) =
      ∑ j, ((ω j : ℝ) : ℂ) • onMode m j (qCreate (m j) * qDestroy (m j)) - cosSum m ω v O val (placements els) := by
  have hext : ∀ kd, ∀ q ∈ fluxedBranches kd O els val x, q.ext = 0 := by
    intro kd q hq
    unfold fluxedBranches at hq
    obtain ⟨p, -, rfl⟩ := List.mem_map.1 hq
    exact hx _
  unfold normalModeHamiltonian
  have e1 : ((fluxedBranches .ind O els val x).map fun q => (((Phi0 / (2 * π)) ^ 2 / (hbar * q.value) * q.ext : ℝ) : ℂ) •
      phaseOperator m fun j => phaseZp (ω j) (v j) q.edge).sum = 0 := by
    refine List.sum_eq_zero fun y hy => ?_
    obtain ⟨q, hq, rfl⟩ := List.mem_map.1 hy
    rw [hext _ q hq]; simp
  have e2 : ((fluxedBranches .jj O els val x).map fun q => (q.value : ℂ) •
      cosPhase m (fun j => neglect (phaseZp (ω j) (v j) q.edge)) q.ext) =
      (fluxedBranches .jj O els val x).map fun q => (fun (e : Edge) (y : ℝ) => (y : ℂ) •
        cosPhase m (fun j => neglect (phaseZp (ω j) (v j) e)) 0) q.edge q.value := by
    refine List.map_congr_left fun q hq => ?_
    rw [hext _ q hq]
  rw [e1, e2.trans (branches_sum .jj (by decide) O els val (fun (e : Edge) (y : ℝ) => (y : ℂ) •
        cosPhase m (fun j => neglect (phaseZp (ω j) (v j) e)) 0) x hx), add_zero]
  rfl

theorem cosPhase_even {k : ℕ} (m : Fin k → ℕ) (g : Fin k → ℝ) : cosPhase m (fun j => - g j) 0 = cosPhase m g 0 := by
  have hP : phaseOperator m (fun j => - g j) = - phaseOperator m g := by
    unfold phaseOperator
    rw [← Finset.sum_neg_distrib]
    refine Finset.sum_congr rfl fun j _ => ?_
    rw [← neg_smul]; push_cast; rfl
  have hH : (phaseOperator m g)ᴴ = phaseOperator m g := by
    unfold phaseOperator
    rw [conjTranspose_sum]
    refine Finset.sum_congr rfl fun j _ => ?_
    rw [conjTranspose_smul, onMode_eq, single_conjTranspose, conjTranspose_add]
    unfold qCreate
    rw [conjTranspose_conjTranspose, add_comm]
    simp
  have hE : (NormedSpace.exp (Complex.I • phaseOperator m g))ᴴ = NormedSpace.exp (Complex.I • phaseOperator m fun j => - g j) := by
    rw [← Matrix.exp_conjTranspose, conjTranspose_smul, hH, hP]
    simp
  have hE' : (NormedSpace.exp (Complex.I • phaseOperator m fun j => - g j))ᴴ = NormedSpace.exp (Complex.I • phaseOperator m g) := by
    rw [← hE, conjTranspose_conjTranspose]
  unfold cosPhase
  simp only [Complex.ofReal_zero, mul_zero, Complex.exp_zero, one_smul]
  rw [hE, hE', add_comm]

theorem acrossEdge_rename {n : ℕ} (σ : Equiv.Perm (Fin n)) {e e' : Edge} (hv : ValidEdge n e)
    (h : e' = (renameNode σ e.1, renameNode σ e.2) ∨ e' = (renameNode σ e.2, renameNode σ e.1)) :
    ∃ a : ℝ, (a = 1 ∨ a = -1) ∧ ∀ x : Fin n → ℝ, acrossEdge (x ∘ σ.symm) e' = a * acrossEdge x e := by
  have hr := incidence_rename σ hv.2.1 hv.2.2
  have key : ∀ (a : ℝ), (∀ i : Fin n, (incidence e' ((σ i : ℕ) + 1) : ℝ) = a * incidence e (i + 1)) →
      ∀ x : Fin n → ℝ, acrossEdge (x ∘ σ.symm) e' = a * acrossEdge x e := by
    intro a hh x
    unfold acrossEdge
    rw [← Equiv.sum_comp σ, Finset.mul_sum]
    refine Finset.sum_congr rfl fun i _ => ?_
    rw [hh]
    simp [mul_assoc]
  rcases h with rfl | rfl
  · exact ⟨1, Or.inl rfl, key 1 fun i => by rw [hr, one_mul]⟩
  · have hne : renameNode σ e.1 ≠ renameNode σ e.2 := fun h => hv.1 (renameNode_inj σ hv.2.1 hv.2.2 h)
    rcases incidence_flip _ _ hne with h | h
    · exact ⟨1, Or.inl rfl, key 1 fun i => by rw [h, hr, one_mul]⟩
    · exact ⟨-1, Or.inr rfl, key (-1) fun i => by rw [h, hr]; push_cast; ring⟩

theorem cosSum_rename {n k : ℕ} (m : Fin k → ℕ) (ω : Fin k → ℝ) (v : Fin k → Fin n → ℝ) (O : Objs) (val : ElemId → ℝ)
    (σ : Equiv.Perm (Fin n)) {l l' : List (Edge × ElemId)}
    (hv : ∀ q ∈ l, ValidEdge n q.1) (h : List.Forall₂ (fun q q' => q'.2 = q.2 ∧
      (q'.1 = (renameNode σ q.1.1, renameNode σ q.1.2) ∨ q'.1 = (renameNode σ q.1.2, renameNode σ q.1.1))) l l') :
    cosSum m ω (fun j => v j ∘ σ.symm) O val l' = cosSum m ω v O val l := by
  unfold cosSum
  induction h with
  | nil => rfl
  | @cons q q' l l' hq _ ih =>
    have ih := ih fun q h => hv q (List.mem_cons_of_mem _ h)
    by_cases hk : (O.elem q.2).kind = .jj
    · rw [List.filter_cons_of_pos (by simp [hq.1, hk]), List.filter_cons_of_pos (by simp [hk]), List.map_cons, List.map_cons,
        List.sum_cons, List.sum_cons, ih, hq.1]
      congr 2
      obtain ⟨a, ha, hh⟩ := acrossEdge_rename σ (hv _ (List.mem_cons_self ..)) hq.2
      have e : (fun j => neglect (phaseZp (ω j) (v j ∘ σ.symm) q'.1)) = fun j => a * neglect (phaseZp (ω j) (v j) q.1) := by
        funext j
        rw [← neglect_sgn ha]
        unfold phaseZp
        rw [hh]
        congr 1; ring
      rw [e]
      rcases ha with rfl | rfl
      · simp
      · simp only [neg_mul, one_mul]
        exact cosPhase_even m _
    · rw [List.filter_cons_of_neg (by simp [hq.1, hk]), List.filter_cons_of_neg (by simp [hk]), ih]

theorem modePatterns_rename {n : ℕ} {σ : Equiv.Perm (Fin n)} {C L C' L' : Matrix (Fin n) (Fin n) ℝ}
    (hC : ∀ i j, C' (σ i) (σ j) = C i j) (hL : ∀ i j, L' (σ i) (σ j) = L i j) {ω : Fin n → ℝ} {v : Fin n → Fin n → ℝ}
    (h : ModePatterns C L ω v) : ModePatterns C' L' ω fun j => v j ∘ σ.symm := by
  have key : ∀ (A A' : Matrix (Fin n) (Fin n) ℝ), (∀ i j, A' (σ i) (σ j) = A i j) → ∀ (x : Fin n → ℝ) a,
      (A' *ᵥ (x ∘ σ.symm)) (σ a) = (A *ᵥ x) a := by
    intro A A' hA x a
    unfold mulVec dotProduct
    rw [← Equiv.sum_comp σ]
    refine Finset.sum_congr rfl fun b _ => ?_
    simp [hA]
  refine ⟨h.positive, h.descending, fun j => ?_, fun i j => ?_⟩
  · funext a
    obtain ⟨a, rfl⟩ := σ.surjective a
    rw [key L L' hL, Pi.smul_apply, key C C' hC, h.pattern j]
    rfl
  · rw [← h.unit i j]
    unfold dotProduct
    rw [← Equiv.sum_comp σ]
    refine Finset.sum_congr rfl fun b _ => ?_
    rw [key C C' hC]
    simp

/-- patterns are determined up to sign -/
theorem mp_same {n : ℕ} {C L : Matrix (Fin n) (Fin n) ℝ} {ω ω' : Fin n → ℝ} {v v' : Fin n → Fin n → ℝ}
    (h : ModePatterns C L ω v) (h' : ModePatterns C L ω' v') :
    ω' = ω ∧ ∃ s : Fin n → ℝ, (∀ j, s j = 1 ∨ s j = -1) ∧ ∀ j i, v' j i = s j * v j i := by
  obtain ⟨S, hSdef⟩ : ∃ S : Matrix (Fin n) (Fin n) ℝ, ∀ i j, S i j = v' j i := ⟨Matrix.of fun i j => v' j i, fun _ _ => rfl⟩
  have hcol : ∀ j, (fun i => S i j) = v' j := fun j => funext fun i => hSdef i j
  have hSCS : Sᵀ * (C * S) = 1 := by
    ext i j
    rw [one_apply, ← h'.unit i j, ← hcol i, ← hcol j]
    rfl
  have hSLS : Sᵀ * (L * S) = diagonal fun j => ω' j ^ 2 := by
    ext i j
    have : (Sᵀ * (L * S)) i j = (fun a => S a i) ⬝ᵥ (L *ᵥ fun a => S a j) := rfl
    rw [this, hcol, hcol, h'.pattern, dotProduct_smul, h'.unit, diagonal_apply]
    by_cases hij : i = j
    · subst hij; simp
    · simp [hij]
  have hCu : IsUnit C.det := by
    have := congrArg det hSCS
    rw [det_mul, det_mul, det_one] at this
    refine isUnit_iff_ne_zero.2 fun h0 => ?_
    rw [h0] at this
    simp at this
  have hcI : (1 : Matrix (Fin n) (Fin n) ℝ) = (C * S)ᵀ * C⁻¹ * (C * S) := by
    have e : C⁻¹ * (C * S) = S := by rw [← Matrix.mul_assoc, nonsing_inv_mul _ hCu, Matrix.one_mul]
    have := congrArg transpose hSCS
    rw [transpose_mul, transpose_transpose, transpose_one] at this
    rw [Matrix.mul_assoc, e, this]
  obtain ⟨h1, s, hs, h2⟩ := mp_unique (ω' := ω') (R := C * S) (l := diagonal fun j => ω' j ^ 2) hCu hSCS hcI (by rw [Matrix.mul_assoc, hSLS])
    (fun i j hij => one_apply_ne hij) (fun i j hij => diagonal_apply_ne _ hij)
    (fun j => by rw [one_apply_eq]; exact one_pos) (fun j => by rw [one_apply_eq, diagonal_apply_eq, one_mul])
    (fun j => (h'.positive j).le) h'.descending.antitone h
  refine ⟨h1, s, hs, fun j i => ?_⟩
  have := h2 i j
  rw [one_apply_eq, Real.sqrt_one, mul_one, hSdef] at this
  exact this

/-- C132: a network of capacitors and inductors with different, nonzero mode frequencies has such patterns. -/
theorem C132_patterns {n : ℕ} {C L : Matrix (Fin n) (Fin n) ℝ} (hC : C.PosDef) (hL : L.IsHermitian) {ω : Fin n → ℝ}
    (hpos : ∀ j, 0 < ω j) (hanti : StrictAnti ω) (h : NormalModes C L ω) : ∃ v, ModePatterns C L ω v := by
  obtain ⟨-, -, -, y, hli, hy⟩ := h
  have hCt : Cᵀ = C := by
    have := hC.isHermitian.eq
    rwa [conjTranspose_eq_transpose_of_trivial] at this
  have hLt : Lᵀ = L := by
    have := hL.eq
    rwa [conjTranspose_eq_transpose_of_trivial] at this
  have hsym : ∀ (A : Matrix (Fin n) (Fin n) ℝ), Aᵀ = A → ∀ a b : Fin n → ℝ, a ⬝ᵥ (A *ᵥ b) = b ⬝ᵥ (A *ᵥ a) := by
    intro A hA a b
    rw [dotProduct_mulVec, ← mulVec_transpose, hA, dotProduct_comm]
  have hpd : ∀ j, 0 < y j ⬝ᵥ (C *ᵥ y j) := by
    intro j
    have := hC.dotProduct_mulVec_pos (hli.ne_zero j)
    simpa using this
  have horth : ∀ i j, i ≠ j → y i ⬝ᵥ (C *ᵥ y j) = 0 := by
    intro i j hij
    have h1 : y i ⬝ᵥ (L *ᵥ y j) = ω j ^ 2 * (y i ⬝ᵥ (C *ᵥ y j)) := by rw [hy j, dotProduct_smul, smul_eq_mul]
    have h2 : y i ⬝ᵥ (L *ᵥ y j) = ω i ^ 2 * (y i ⬝ᵥ (C *ᵥ y j)) := by
      rw [hsym L hLt, hy i, dotProduct_smul, smul_eq_mul, hsym C hCt]
    have h3 : ω i ^ 2 - ω j ^ 2 ≠ 0 := by
      have : ω i ≠ ω j := fun h0 => hij (hanti.injective h0)
      have hi := hpos i
      have hj := hpos j
      intro h0
      have : (ω i - ω j) * (ω i + ω j) = 0 := by linarith [sq_sub_sq (ω i) (ω j)]
      rcases mul_eq_zero.1 this with h | h
      · exact ‹ω i ≠ ω j› (by linarith)
      · linarith
    have h4 : (ω i ^ 2 - ω j ^ 2) * (y i ⬝ᵥ (C *ᵥ y j)) = 0 := by linarith
    exact (mul_eq_zero.1 h4).resolve_left h3
  refine ⟨fun j => (1 / √(y j ⬝ᵥ (C *ᵥ y j))) • y j, hpos, hanti, fun j => ?_, fun i j => ?_⟩
  · rw [mulVec_smul, hy j, mulVec_smul, smul_comm]
  · rw [mulVec_smul, dotProduct_smul, smul_dotProduct, smul_eq_mul, smul_eq_mul]
    by_cases hij : i = j
    · subst hij
      rw [if_pos rfl]
      have := Real.mul_self_sqrt (hpd i).le
      have h0 : √(y i ⬝ᵥ (C *ᵥ y i)) ≠ 0 := (Real.sqrt_pos.2 (hpd i)).ne'
      field_simp
      rw [sq]; exact this.symm
    · rw [if_neg hij, horth i j hij]; simp

/-- C132 without external flux: the returned frequencies are the lowest levels of
Σ ω_j a_j†a_j - Σ E_J cos φ over the placed junctions. -/
theorem C132_zero_flux {c : CircSpec} {eigs : EigsFn} {as : List ℂ → List ℕ} (he : EigsLowest eigs) (ha : CArgsortSpec as)
    (hcaps : CapsOK c.O) {n : ℕ} (vals : ElemId → ℝ) (flux : LoopId → ℝ) (u : ℝ)
    (w0 : World (circPhys c eigs as)) (hw : construct (circPhys c eigs as) vals flux u = .ok w0)
    (h : List Act) (hh : Orderly w0 h) (h0 : ∃ ω v, HeldCircuit c n vals ω v)
    (hup : ∀ h1 h2, h = h1 ++ .update :: h2 → ∃ ω v, HeldCircuit c n (run w0 h1).vals ω v) :
    let w := run w0 h
    (∀ i, (c.O.elem i).kind ≠ .jj → w.vals i = lastBuilt vals w0 h i) → w.circ.m ≠ [] → (∀ l, w.flux l = 0) →
    ∀ ω v, HeldCircuit c n w.vals ω v →
    ∃ vs ws, Levels (∑ j, ((ω j : ℝ) : ℂ) • onMode (fun j : Fin n => (w.circ.m.getD j 0).toNat) j (qCreate _ * qDestroy _) -
        (((placements c.els).filter fun q => decide ((c.O.elem q.2).kind = .jj)).map fun q =>
          (w.vals q.2 : ℂ) • cosPhase _ (fun j => neglect (phaseZp (ω j) (v j) q.1)) 0).sum) vs ws ∧
      ∀ num : ℕ, 1 ≤ num → num + 1 < ∏ i : Fin n, (w.circ.m.getD i 0).toNat →
        ∃ ev, (diag (some num) w).1 = .ok ((ws.take num).map (fun f => f / (2 * Real.pi * w.unitFreq)), ev) := by
  intro w hlast hm0 hflux ω v hheld
  obtain ⟨b, hb, vs, ws, hlev, hd⟩ := C132_levels he ha hcaps vals flux u w0 hw h hh h0 hup hlast hm0 ω v hheld
  rw [normalMode_zero _ ω v c.O c.els _ (branchPhase_zero b hflux)] at hlev
  exact ⟨vs, ws, hlev, hd⟩

/-- C111 for circuits whose nodes are all held by inductors, with junctions, at zero flux: renumbering the nodes, turning edges
around and listing edges and elements in another order does not change the frequencies. -/
theorem C111_held_partial {c c' : CircSpec} {eigs eigs' : EigsFn} {as as' : List ℂ → List ℕ}
    (he : EigsLowest eigs) (ha : CArgsortSpec as) (he' : EigsLowest eigs') (ha' : CArgsortSpec as')
    (hO : c'.O = c.O) (hcaps : CapsOK c.O) {n : ℕ} (σ : Equiv.Perm (Fin n)) (hren : Renumbered σ c.els c'.els)
    (vals vals' : ElemId → ℝ) (flux flux' : LoopId → ℝ) (u u' : ℝ)
    (w0 : World (circPhys c eigs as)) (hw : construct (circPhys c eigs as) vals flux u = .ok w0)
    (w0' : World (circPhys c' eigs' as')) (hw' : construct (circPhys c' eigs' as') vals' flux' u' = .ok w0')
    (h h' : List Act) (hh : Orderly w0 h) (hh' : Orderly w0' h')
    (h0 : ∃ ω v, HeldCircuit c n vals ω v) (h0' : ∃ ω v, HeldCircuit c' n vals' ω v)
    (hup : ∀ h1 h2, h = h1 ++ .update :: h2 → ∃ ω v, HeldCircuit c n (run w0 h1).vals ω v)
    (hup' : ∀ h1 h2, h' = h1 ++ .update :: h2 → ∃ ω v, HeldCircuit c' n (run w0' h1).vals ω v) :
    let w := run w0 h
    let w' := run w0' h'
    (∀ i, (c.O.elem i).kind ≠ .jj → w.vals i = lastBuilt vals w0 h i) →
    (∀ i, (c.O.elem i).kind ≠ .jj → w'.vals i = lastBuilt vals' w0' h' i) →
    (∃ ω v, HeldCircuit c n w.vals ω v) → (∃ ω v, HeldCircuit c' n w'.vals ω v) →
    (∀ l, w.flux l = 0) → (∀ l, w'.flux l = 0) →
    w.circ.m ≠ [] → w'.vals = w.vals → w'.circ.m = w.circ.m → w'.unitFreq = w.unitFreq →
    ∀ num : ℕ, 1 ≤ num → num + 1 < ∏ i : Fin n, (w.circ.m.getD i 0).toNat →
      ∃ F v v', (diag (some num) w).1 = .ok (F, v) ∧ (diag (some num) w').1 = .ok (F, v') := by
  intro w w' hlast hlast' hheld hheld' hflux hflux' hm0 hvv hmm huu num h1 hnum
  obtain ⟨ω, v, hheld⟩ := hheld
  obtain ⟨ω', v', hheld'⟩ := hheld'
  have hval : ValidElements n c.els := by
    obtain ⟨b, s, hb, -⟩ := C132_hamiltonian hcaps vals flux u w0 hw h hh h0 hup hlast hm0 ω v hheld
    obtain ⟨n', a, B, t, hn, htr, -⟩ := buildCirc_stages hb
    obtain rfl : n' = n := Except.ok.inj (hn.symm.trans hheld.nodes)
    exact (good_mats hheld.good hn htr).1
  have hnode := node_rename hval hren (c.O.withVals w.vals)
  have hmod := modePatterns_rename (σ := σ) (fun i j => (hnode i j).1) (fun i j => (hnode i j).2) hheld.modes
  have hOv : c'.O.withVals w'.vals = c.O.withVals w.vals := by rw [hO, hvv]
  have hvp := placements_valid hval
  obtain ⟨l, hperm, hl⟩ := hren
  have hlen := (List.forall₂_iff_get.1 hl).1
  have hget := (List.forall₂_iff_get.1 hl).2
  have hheld2 : HeldCircuit c' n w'.vals ω fun j => v j ∘ σ.symm := by
    refine ⟨hheld'.good, hheld'.nodes, by rw [hOv]; exact hmod, ?_⟩
    rcases hheld'.kept with h | h | h
    · exact Or.inl h
    · exact Or.inr (Or.inl h)
    · right; right
      intro j
      obtain ⟨q, hq, hqk, hq1⟩ := h j
      have hm2 := hheld'.modes
      rw [hOv] at hm2
      obtain ⟨rfl, s, hs, hvs⟩ := mp_same hmod hm2
      refine ⟨q, hq, hqk, ?_⟩
      have e : v' j = fun i => s j * (v j ∘ σ.symm) i := funext fun i => hvs j i
      rw [e, phaseZp_smul, abs_mul] at hq1
      rcases hs j with h | h <;> rw [h] at hq1 <;> simpa using hq1
  obtain ⟨vs, ws, hlev, hd⟩ := C132_zero_flux he ha hcaps vals flux u w0 hw h hh h0 hup hlast hm0 hflux ω v hheld
  obtain ⟨vs', ws', hlev', hd'⟩ := C132_zero_flux he' ha' (by rw [hO]; exact hcaps) vals' flux' u' w0' hw' h' hh' h0' hup'
    (by rw [hO]; exact hlast') (by rw [hmm]; exact hm0) hflux' ω _ hheld2
  have hws : ws' = ws := by
    have e : ∀ (mm mm' : List ℤ), mm' = mm → ∀ (va va' : ElemId → ℝ), va' = va →
        ∀ (vs vs' : _) (ws ws' : List ℝ),
        Levels (∑ j, ((ω j : ℝ) : ℂ) • onMode (fun j : Fin n => (mm.getD j 0).toNat) j (qCreate _ * qDestroy _) -
          cosSum _ ω v c.O va (placements c.els)) vs ws →
        Levels (∑ j, ((ω j : ℝ) : ℂ) • onMode (fun j : Fin n => (mm'.getD j 0).toNat) j (qCreate _ * qDestroy _) -
          cosSum _ ω (fun j => v j ∘ σ.symm) c.O va' (placements c'.els)) vs' ws' → ws' = ws := by
      rintro _ mm' rfl _ va' rfl vs vs' ws ws' h1 h2
      have hc : cosSum (fun j : Fin n => (mm'.getD j 0).toNat) ω (fun j => v j ∘ σ.symm) c.O va' (placements c'.els) =
          cosSum _ ω v c.O va' (placements c.els) := by
        refine Eq.trans ?_ (cosSum_rename _ ω v c.O va' σ hvp hl)
        unfold cosSum
        exact ((hperm.filter _).map _).sum_eq
      rw [hc] at h2
      exact levels_unique h2 h1
    refine e _ _ hmm _ _ hvv vs vs' ws ws' hlev ?_
    rw [hO] at hlev'
    exact hlev'
  subst hws
  obtain ⟨ev, hev⟩ := hd num h1 hnum
  obtain ⟨ev', hev'⟩ := hd' num h1 (by
    show num + 1 < ∏ i : Fin n, (w'.circ.m.getD i 0).toNat
    rw [hmm]; exact hnum)
  refine ⟨_, ev, ev', hev, hev'.trans ?_⟩
  show _ = Except.ok (List.map (fun f => f / (2 * Real.pi * w.unitFreq)) _, ev')
  rw [← huu]

end SQ
