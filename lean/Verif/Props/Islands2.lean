import Verif.Props.Islands

/-! # C93: islands are constructed, in sessions -/

namespace SQ
open Matrix Spec Real

theorem junKeysOf_edges (n m : ℕ) (l : List (Edge × ElemId × ℕ × ℕ))
    (h : ∀ k ∈ l, k.2.2.1 < n ∧ k.2.2.2 < m) :
    (junKeysOf n m l).map (fun k => (k.edge, k.el)) = l.map (fun k => (k.1, k.2.1)) := by
  induction l with
  | nil => rfl
  | cons a l ih =>
    have ha := h a (by simp)
    have := ih (fun k hk => h k (by simp [hk]))
    unfold junKeysOf at this ⊢
    rw [List.filterMap_cons, dif_pos ha, List.map_cons, List.map_cons, this]

/-- the junctions of a constructed circuit are those of the dictionary -/
theorem build_junEdges {c : CircSpec} {vals : ElemId → ℝ} {b : Build} (hs : NoSelfLoops c.els)
    (hb : buildCirc c vals = .ok b) :
    b.juns.map (fun k => (k.edge, k.el)) =
      (placements c.els).filter (fun q => decide ((c.O.elem q.2).kind = .jj)) := by
  obtain ⟨n, a, B, t, hn, htr, hB, ht, rfl⟩ := buildCirc_stages hb
  have hv : ValidElements n c.els := by
    intro p hp
    have := buildEdges_nodes_le htr p hp
    exact ⟨hs p hp, this.1, this.2⟩
  obtain ⟨h1, h2, h3, h4, h5, h6⟩ := C18_branch_numbering _ _ _ _ _ _ hv a htr
  have hlen : a.st.kMat.length = (inductivePlacements c.O c.els).length := by
    rw [h6, List.length_map]; rfl
  have hlt : ∀ q ∈ numbered c.O c.els, q.2 < a.st.kMat.length := by
    intro q hq
    rw [hlen]
    obtain ⟨x, i⟩ := q
    have := List.mem_zipIdx hq
    omega
  change (junKeysOf _ _ a.st.junKeys).map _ = _
  rw [junKeysOf_edges]
  · have h7 := congrArg (List.map fun k : Edge × ElemId × ℕ => (k.1, k.2.1)) h2
    rw [List.map_map, List.map_map] at h7
    have h8 : a.st.junKeys.map (fun k => (k.1, k.2.1)) =
        ((numbered c.O c.els).filter (fun q => decide ((c.O.elem q.1.2).kind = .jj))).map (fun q => q.1) := h7
    rw [h8]
    have h9 := filter_zipIdx (inductivePlacements c.O c.els) (fun q => decide ((c.O.elem q.2).kind = .jj)) id 0
    unfold numbered
    have h9' : ((inductivePlacements c.O c.els).zipIdx.filter (fun q => decide ((c.O.elem q.1.2).kind = .jj))).map
        (fun q => q.1) = _ := h9
    rw [h9', List.map_id]
    unfold inductivePlacements
    rw [List.filter_filter]
    apply List.filter_congr
    intro q _
    by_cases h : (c.O.elem q.2).kind = .jj
    · simp [h]
    · simp [h]
  · intro k hk
    constructor
    · have hm : (k.1, k.2.1, k.2.2.1) ∈ a.st.junKeys.map (fun k => (k.1, k.2.1, k.2.2.1)) :=
        List.mem_map.2 ⟨k, hk, rfl⟩
      rw [h2] at hm
      obtain ⟨q, hq, he⟩ := List.mem_map.1 hm
      have := hlt q (List.mem_filter.1 hq).1
      exact lt_of_eq_of_lt (Prod.ext_iff.1 (Prod.ext_iff.1 he).2).2.symm this
    · exact (List.getElem?_eq_some_iff.1 (h4 k hk).2).1

/-- sum over the junctions, edge by edge -/
theorem sum_edges {V : Type*} [AddCommGroup V] [Module ℂ V] (O : Objs) (els : Elements) (vals : ElemId → ℝ)
    {es : List Edge} (hnd : es.Nodup) {K : Type*} (l : List K) (edge : K → Edge) (el : K → ElemId) (pos : K → Fin es.length)
    (hpos : ∀ k ∈ l, es.get (pos k) = edge k)
    (hl : l.map (fun k => (edge k, el k)) = (placements els).filter (fun q => decide ((O.elem q.2).kind = .jj)))
    (f : Fin es.length → V) :
    (l.map (fun k => (vals (el k) : ℂ) • f (pos k))).sum =
      ∑ i, (edgeEJ O els vals (es.get i) : ℂ) • f i := by
  have h1 : ∀ i, edgeEJ O els vals (es.get i) =
      (l.map (fun k => if edge k = es.get i then vals (el k) else 0)).sum := by
    intro i
    have h2 : ((placements els).filter (fun q => decide ((O.elem q.2).kind = .jj ∧ q.1 = es.get i))) =
        (l.map (fun k => (edge k, el k))).filter (fun q => decide (q.1 = es.get i)) := by
      rw [hl, List.filter_filter]
      apply List.filter_congr
      intro q _
      by_cases h : (O.elem q.2).kind = .jj <;> simp [h]
    unfold edgeEJ
    rw [h2]
    clear hl hpos h2
    induction l with
    | nil => rfl
    | cons x l ih =>
      simp only [List.map_cons, List.sum_cons, List.filter_cons]
      rw [← ih]
      by_cases hx : edge x = es.get i
      · simp [hx]
      · simp only [hx, decide_false, if_false, zero_add]; rfl
  simp only [h1]
  clear hl h1
  induction l with
  | nil => simp
  | cons x l ih =>
    have hx := hpos x (by simp)
    simp only [List.map_cons, List.sum_cons]
    rw [ih (fun k hk => hpos k (by simp [hk]))]
    simp only [Complex.ofReal_add, add_smul]
    rw [Finset.sum_add_distrib]
    congr 1
    rw [Finset.sum_eq_single (pos x)]
    · rw [if_pos hx.symm]
    · intro i _ hi
      rw [if_neg, Complex.ofReal_zero, zero_smul]
      intro he
      exact hi (List.nodup_iff_injective_get.1 hnd (he.symm.trans hx.symm))
    · intro h; exact absurd (Finset.mem_univ _) h

theorem isl_nodup {c : CircSpec} {n : ℕ} (h : IndependentJunctions c.O c.els n) : (junctionEdges c.O c.els).Nodup := by
  rw [List.nodup_iff_injective_get]
  intro i j hij
  apply LinearIndependent.injective h
  funext k
  change (incidence ((junctionEdges c.O c.els).get i) (k + 1) : ℝ) = incidence ((junctionEdges c.O c.els).get j) (k + 1)
  rw [hij]

theorem _root_.SQ.Spec.IslandCircuit.noSelf {c : CircSpec} {n : ℕ} (hi : IslandCircuit c n) : NoSelfLoops c.els :=
  fun p hp => (hi.valid p hp).1

theorem isl_good {c : CircSpec} {n : ℕ} (hi : IslandCircuit c n) (hr : RoutinesOK c) {vals : ElemId → ℝ}
    (hv : IslandValues c n vals) : GoodCircuit c vals where
  noSelf := hi.noSelf
  caps := hv.1
  inds := fun q hq hk => absurd hk (hi.noInd q hq)
  ground := by
    intro n' hn'
    have : n' = n := by rw [hi.nodes] at hn'; exact (Except.ok.inj hn').symm
    rw [this]; exact hi.ground
  argmax := hr.argmax
  lib := by
    intro n' a hn' htr
    have : n' = n := by rw [hi.nodes] at hn'; exact (Except.ok.inj hn').symm
    subst this
    have hve : ValidElements n' c.els := by
      intro p hp
      have := buildEdges_nodes_le htr p hp
      exact ⟨hi.noSelf p hp, this.1, this.2⟩
    have hC := (C16_cap_posdef _ _ _ _ _ _ hve hv.1 hi.ground a htr).1
    have hlm : a.lMat = 0 := by
      rw [(traverse_mats hve htr).2]
      apply List.sum_eq_zero
      intro x hx
      obtain ⟨q, hq, rfl⟩ := List.mem_map.1 hx
      have : placedInvInd (c.O.withVals vals) q.2 = 0 := by
        have h1 : ((c.O.withVals vals).elem q.2).kind ≠ .ind := hi.noInd q hq
        unfold placedInvInd
        cases hk : ((c.O.withVals vals).elem q.2).kind with
        | ind => exact absurd hk h1
        | cap => rfl
        | jj => rfl
      rw [this, zero_smul]
    have hlib := hr.lib n' a.cMat 0 hC PosSemidef.zero
    rw [hlm]
    refine ⟨hlib, ?_⟩
    intro i hne
    exfalso
    apply hne
    have h1 := hlib.eig
    have h2 : (c.lib n').eigvals 0 i ∈ (0 : Matrix (Fin n') (Fin n') ℝ).charpoly.roots := by
      rw [h1]
      exact Multiset.mem_map_of_mem _ (Finset.mem_univ_val _)
    rw [charpoly_zero] at h2
    simp at h2
    exact h2.2

/-- C93 (existence): such circuits are constructed, with the Hamiltonian of coupled islands. -/
theorem C93_constructed (c : CircSpec) (n : ℕ) (hi : IslandCircuit c n) (hr : RoutinesOK c) (vals : ElemId → ℝ)
    (hv : IslandValues c n vals) :
    ∃ b, buildCirc c vals = .ok b ∧ b.loops = [] ∧ b.M.keep.length = n ∧
      ∃ σ : Fin (junctionEdges c.O c.els).length ≃ Fin b.M.keep.length,
      (∀ i j, junctionInvCap (c.O.withVals vals) c.els n j j < junctionInvCap (c.O.withVals vals) c.els n i i →
        σ i < σ j) ∧
      ∀ (flux : LoopId → ℝ) (m : Fin b.M.keep.length → ℕ) (ng : Fin b.M.keep.length → ℝ),
        fullHamiltonian b.C b.M m ng vals (b.fluxes flux) b.inds b.juns = .ok (
          islandHamiltonian σ (junctionInvCap (c.O.withVals vals) c.els n)
            (fun i => edgeEJ c.O c.els vals ((junctionEdges c.O c.els).get i)) m ng) := by
  have hgood := isl_good hi hr hv
  have hve : ValidElements n c.els := hi.valid
  obtain ⟨a, ha⟩ := buildEdges_succeeds (O := c.O.withVals vals) c.torch c.fd hve (by
    intro p hp i hi' hk
    exact absurd hk (hi.noInd (p.1, i) (by
      unfold placements
      rw [List.mem_flatMap]
      exact ⟨p, hp, List.mem_map.2 ⟨i, hi', rfl⟩⟩))) (initAcc n c.h)
  have htr : traverse c.torch c.fd (c.O.withVals vals) n c.h c.els = .ok a := ha
  have hlu : loopUses c.O c.els = [] := by
    unfold loopUses
    rw [List.flatMap_eq_nil_iff]
    intro q hq
    have hq2 : q.1 ∈ inductivePlacements c.O c.els := by
      have := List.mem_map_of_mem (f := Prod.fst) hq
      simpa [numbered] using this
    rw [hi.noLoops q.1 (List.mem_of_mem_filter hq2)]
    rfl
  have hl0 : a.st.loops = [] := by
    obtain ⟨l1, -⟩ := C19_loop_membership c.torch c.fd (c.O.withVals vals) n c.h _ hve a htr
    have : loopUses (c.O.withVals vals) c.els = [] := hlu
    rw [l1, this]
    rfl
  have hf : fluxMatrix c.sv n a.st.kMat a.st.cEdge (a.st.loops.map a.st.loopHeap) = .ok none := by
    rw [hl0]
    unfold fluxMatrix
    simp [loopRows]
  obtain ⟨hn0, hcm, hlm, hnum, hind, hlen, hW, hkeys⟩ := isl_mats hgood hi.noInd hi.some hi.nodes htr
  have : NeZero n := ⟨hn0⟩
  obtain ⟨-, hC, -⟩ := good_mats hgood hi.nodes htr
  obtain ⟨hlib, -⟩ := hgood.lib n a hi.nodes htr
  have hGdef : junctionInvCap (c.O.withVals vals) c.els n =
    junctionIncidence c.O c.els n * a.cMat⁻¹ * (junctionIncidence c.O c.els n)ᵀ := by rw [hcm]; rfl
  obtain ⟨hli', hdet', hsym', hG', hcond'⟩ := isl_gram hlen hC hi.indep (by rw [← hGdef]; exact hv.2) hW
  rw [hlm] at hlib
  have hsel : SelectionFaithful c.sv c.argsort c.draws (arrayOf n a.wMat) (matS1 (c.lib n) a.cMat a.lMat)
      (modeFreq (c.lib n) a.cMat a.lMat) := by
    rw [hlm, (noL_first hC hlib (arrayOf n a.wMat)).2.2.2.2]
    obtain ⟨-, h2, -, h4⟩ := selects_all hr.sv hr.argsort (arrayOf n a.wMat) hli' (matS1 (c.lib n) a.cMat 0)
      (isl_S1 hC hlib _) hdet' hcond'
    refine ⟨h4, Or.inl ?_⟩
    rw [h2, hlen, hi.square]
    have := chargeCols_len (omega := fun _ : Fin n => (0 : ℝ)) (m := 0) (by omega) (by simp)
    omega
  obtain ⟨b, hb⟩ := buildCirc_ok hgood hi.nodes htr hf (Or.inr (Or.inr hsel)) hr.fuel
  obtain ⟨hJ, σ, hin, hed, hord, hH⟩ := C93_islands c vals hgood hi.noInd hi.some n hi.nodes hi.indep hv.2 hr.sv hr.argsort
    (Or.inr hi.square) b hb
  have hlo : b.loops = [] := by
    obtain ⟨-, -, -, hl⟩ := build_pairs hi.noSelf hb
    rw [hl, hlu]; rfl
  refine ⟨b, hb, hlo, ?_, σ, hord, ?_⟩
  · have := Fintype.card_congr σ
    simp only [Fintype.card_fin] at this
    rw [← this]; exact hi.square
  · intro flux m ng
    rw [hH flux m ng]
    congr 1
    unfold islandHamiltonian
    congr 1
    have hz : ∀ q, b.fluxes flux q = 0 := by
      intro q
      unfold Build.fluxes
      rw [extFlux_sum]
      apply Finset.sum_eq_zero
      intro l _
      have h1 := l.2
      have h2 : b.loops.length = 0 := by rw [hlo]; rfl
      omega
    simp only [hz]
    exact sum_edges c.O c.els vals (isl_nodup hi.indep) b.juns (fun k => k.edge) (fun k => k.el)
      (fun k => k.wId.cast hJ) hed (build_junEdges hi.noSelf hb) (fun i => chargeCos m (σ i) 0)

/-- C93 for sessions: the circuit is constructed, and after any orderly sequence of calls in which the capacitances
were admissible at each `update` and not changed since, `hamiltonian()` is that of the coupled islands for the current
capacitances, Josephson energies and charge offsets. -/
theorem C93_session (c : CircSpec) (n : ℕ) (hi : IslandCircuit c n) (hr : RoutinesOK c) (hcaps : CapsOK c.O) (eigs as)
    (vals : ElemId → ℝ) (hv : IslandValues c n vals) (flux : LoopId → ℝ) (u : ℝ) :
    ∃ w0, construct (circPhys c eigs as) vals flux u = .ok w0 ∧
      ∀ hist : List Act, Orderly w0 hist →
        (∀ h1 h2, hist = h1 ++ .update :: h2 → IslandValues c n (run w0 h1).vals) →
        let w := run w0 hist
        (∀ i, (c.O.elem i).kind ≠ .jj → w.vals i = lastBuilt vals w0 hist i) → IslandValues c n w.vals →
        w.circ.m ≠ [] →
        ∃ (k : ℕ) (d : Fin k → ℕ) (σ : Fin (junctionEdges c.O c.els).length ≃ Fin k), k = n ∧
          (∀ i, d i = (w.circ.m.getD i 0).toNat) ∧
          (∀ i j, junctionInvCap (c.O.withVals w.vals) c.els n j j < junctionInvCap (c.O.withVals w.vals) c.els n i i →
            σ i < σ j) ∧
          (hamiltonian w).1 = .ok ⟨k, d,
            islandHamiltonian σ (junctionInvCap (c.O.withVals w.vals) c.els n)
              (fun i => edgeEJ c.O c.els w.vals ((junctionEdges c.O c.els).get i)) d
              (fun p => (w.circ.ng p).getD 0)⟩ := by
  obtain ⟨b, hb, -, hk, -⟩ := C93_constructed c n hi hr vals hv
  have hcon : ∃ w0, construct (circPhys c eigs as) vals flux u = .ok w0 := by
    have hb' : (circPhys c eigs as).build vals = .ok b := hb
    unfold construct
    rw [hb']
    exact ⟨_, rfl⟩
  obtain ⟨w0, hw⟩ := hcon
  refine ⟨w0, hw, ?_⟩
  intro hist hord hupd w hlast hval hm0
  have hb0 : buildCirc c vals = .ok w0.circ.bd := (construct_build hw).1
  have hrem : NoRemoval c w0 hist := by
    intro h1 h2 he
    right
    constructor
    · have : w0.circ.bd = b := by rw [hb] at hb0; exact (Except.ok.inj hb0).symm
      rw [this, hi.nodes]
      exact congrArg _ hk.symm
    · intro b' hb'
      obtain ⟨b'', hb'', -, hk', -⟩ := C93_constructed c n hi hr _ (hupd h1 h2 he)
      have : b' = b'' := by rw [hb''] at hb'; exact (Except.ok.inj hb').symm
      subst this
      obtain ⟨n', a, B, t, hn', htr, hB, ht, rfl⟩ := buildCirc_stages hb'
      have hnn : n' = n := by rw [hi.nodes] at hn'; exact (Except.ok.inj hn').symm
      exact hk'.trans hnn.symm
  obtain ⟨b', hb', hham⟩ := C48_circuit hcaps vals flux u w0 hw hist hord hrem hlast hm0
  obtain ⟨b'', hb'', -, hk2, σ, hσ, hH⟩ := C93_constructed c n hi hr w.vals hval
  have : b' = b'' := by
    have hb3 : buildCirc c w.vals = .ok b' := hb'
    rw [hb''] at hb3
    exact (Except.ok.inj hb3).symm
  subst this
  refine ⟨_, b'.dims w.circ.m, σ, hk2, fun _ => rfl, hσ, ?_⟩
  rw [hham, hH w.flux]
  rfl

end SQ
