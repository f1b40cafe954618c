import Verif.Lemmas.Floating

/-!
# C130: islands without junction to ground, and capacitors in series
-/

namespace SQ
open Matrix Spec

theorem flt_good {c : CircSpec} {n : ℕ} (hi : FloatingCircuit c n) (hr : RoutinesOK c) {vals : ElemId → ℝ}
    (hv : PositiveCaps (c.O.withVals vals) c.els) : GoodCircuit c vals where
  noSelf := fun p hp => (hi.valid p hp).1
  caps := hv
  inds := fun q hq hk => absurd hk (hi.noInd q hq)
  ground := by
    intro n' hn'
    have : n' = n := by rw [hi.nodes] at hn'; exact (Except.ok.inj hn').symm
    rw [this]; exact hi.ground
  argmax := hr.argmax
  lib := by
    intro n' a hn' htr
    have : n' = n := by rw [hi.nodes] at hn'; exact (Except.ok.inj hn').symm
    subst this
    have hC := (C16_cap_posdef _ _ _ _ _ _ hi.valid hv hi.ground a htr).1
    have hlm : a.lMat = 0 := by
      rw [(traverse_mats hi.valid htr).2]
      apply List.sum_eq_zero
      intro x hx
      obtain ⟨q, hq, rfl⟩ := List.mem_map.1 hx
      have : placedInvInd (c.O.withVals vals) q.2 = 0 := by
        have h1 : ((c.O.withVals vals).elem q.2).kind ≠ .ind := hi.noInd q hq
        unfold placedInvInd
        cases hk : ((c.O.withVals vals).elem q.2).kind with
        | ind => exact absurd hk h1
        | cap => rfl
        | jj => rfl
      rw [this, zero_smul]
    have hlib := hr.lib n' a.cMat 0 hC PosSemidef.zero
    rw [hlm]
    refine ⟨hlib, ?_⟩
    intro i hne
    exfalso
    apply hne
    have h1 := hlib.eig
    have h2 : (c.lib n').eigvals 0 i ∈ (0 : Matrix (Fin n') (Fin n') ℝ).charpoly.roots := by
      rw [h1]
      exact Multiset.mem_map_of_mem _ (Finset.mem_univ_val _)
    rw [charpoly_zero] at h2
    simp at h2
    exact h2.2

theorem lastBuilt_noUpdate {P : Phys} : ∀ (h : List Act) (v0 : ElemId → ℝ) (w : World P), .update ∉ h → lastBuilt v0 w h = v0
  | [], _, _, _ => rfl
  | a :: h, v0, w, hn => by
    have hn' : Act.update ∉ h := fun hh => hn (by simp [hh])
    have ih := lastBuilt_noUpdate h v0 (a.exec w).2 hn'
    cases a with
    | update => exact absurd (by simp) hn
    | _ => exact ih

theorem flt_built {c : CircSpec} {n : ℕ} (hi : FloatingCircuit c n) (hr : RoutinesOK c) {vals : ElemId → ℝ}
    (hv : IslandValues c n vals) {b : Build} (hb : buildCirc c vals = .ok b) :
    (capacitances (c.O.withVals vals) c.els n).PosDef ∧
    ∃ σ : Fin (junctionEdges c.O c.els).length ≃ Fin b.M.keep.length,
      (∀ i j, junctionInvCap (c.O.withVals vals) c.els n j j < junctionInvCap (c.O.withVals vals) c.els n i i → σ i < σ j) ∧
      ∀ (flux : LoopId → ℝ) (m : Fin b.M.keep.length → ℕ) (ng : Fin b.M.keep.length → ℝ),
        fullHamiltonian b.C b.M m ng vals (b.fluxes flux) b.inds b.juns = .ok (
          islandHamiltonian σ (junctionInvCap (c.O.withVals vals) c.els n)
            (fun i => edgeEJ c.O c.els vals ((junctionEdges c.O c.els).get i)) m ng) := by
  have hgood := flt_good hi hr hv.1
  have hns : NoSelfLoops c.els := fun p hp => (hi.valid p hp).1
  obtain ⟨hJ, σ, hin, hed, hord, hH⟩ := C93_islands c vals hgood hi.noInd hi.some n hi.nodes hi.indep hv.2 hr.sv hr.argsort
    (Or.inl hi.numpy) b hb
  have hlu : loopUses c.O c.els = [] := by
    unfold loopUses
    rw [List.flatMap_eq_nil_iff]
    intro q hq
    have hq2 : q.1 ∈ inductivePlacements c.O c.els := by
      have := List.mem_map_of_mem (f := Prod.fst) hq
      simpa [numbered] using this
    rw [hi.noLoops q.1 (List.mem_of_mem_filter hq2)]
    rfl
  have hlo : b.loops = [] := by
    obtain ⟨-, -, -, hl⟩ := build_pairs hns hb
    rw [hl, hlu]; rfl
  have hPD : (capacitances (c.O.withVals vals) c.els n).PosDef := by
    obtain ⟨n', a, B, t, hn', htr, hB, ht, rfl⟩ := buildCirc_stages hb
    have : n' = n := by rw [hi.nodes] at hn'; exact (Except.ok.inj hn').symm
    subst this
    obtain ⟨-, hcm, -⟩ := isl_mats hgood hi.noInd hi.some hi.nodes htr
    obtain ⟨-, hP, -⟩ := good_mats hgood hi.nodes htr
    rwa [hcm] at hP
  refine ⟨hPD, σ, hord, ?_⟩
  intro flux m ng
  rw [hH flux m ng]
  congr 1
  unfold islandHamiltonian
  congr 1
  have hz : ∀ q, b.fluxes flux q = 0 := by
    intro q
    unfold Build.fluxes
    rw [extFlux_sum]
    apply Finset.sum_eq_zero
    intro l _
    have h1 := l.2
    have h2 : b.loops.length = 0 := by rw [hlo]; rfl
    omega
  simp only [hz]
  exact sum_edges c.O c.els vals (isl_nodup hi.indep) b.juns (fun k => k.edge) (fun k => k.el)
    (fun k => k.wId.cast hJ) hed (build_junEdges hns hb) (fun i => chargeCos m (σ i) 0)

variable {c c' : CircSpec} {eigs eigs' : EigsFn} {as as' : List ℂ → List ℕ} {n : ℕ}

/-- C130 (floating islands): whenever a circuit of junctions and capacitors, with any number of nodes without junctions and of
islands without junction to ground, has been constructed, then after any orderly sequence of calls without `update`, with the
capacitances as at construction, the circuit has one mode for each junction edge, ordered by decreasing charging energy, and
`hamiltonian()` is ½ (2e)² Σ_ij (J C⁻¹ Jᵀ)_ij (n_i - ng_i)(n_j - ng_j) - Σ_i E_i cos φ_i. -/
theorem C130_session (hi : FloatingCircuit c n) (hr : RoutinesOK c) (hcaps : CapsOK c.O) (vals : ElemId → ℝ)
    (flux : LoopId → ℝ) (u : ℝ) (w0 : World (circPhys c eigs as)) (hw : construct (circPhys c eigs as) vals flux u = .ok w0)
    (h : List Act) (hh : Orderly w0 h) (hnu : .update ∉ h) :
    let w := run w0 h
    (∀ i, (c.O.elem i).kind ≠ .jj → w.vals i = vals i) → IslandValues c n w.vals → w.circ.m ≠ [] →
    (capacitances (c.O.withVals w.vals) c.els n).PosDef ∧
    ∃ (d : Fin (junctionEdges c.O c.els).length → ℕ) (σ : Equiv.Perm (Fin (junctionEdges c.O c.els).length)),
      (∀ i, d i = (w.circ.m.getD i 0).toNat) ∧
      (∀ i j, junctionInvCap (c.O.withVals w.vals) c.els n j j < junctionInvCap (c.O.withVals w.vals) c.els n i i → σ i < σ j) ∧
      (hamiltonian w).1 = .ok ⟨_, d, islandHamiltonian σ (junctionInvCap (c.O.withVals w.vals) c.els n)
        (fun i => edgeEJ c.O c.els w.vals ((junctionEdges c.O c.els).get i)) d (fun p => (w.circ.ng p).getD 0)⟩ := by
  intro w hl hv hm0
  obtain ⟨b, hb, hham⟩ := C48_circuit hcaps vals flux u w0 hw h hh
    (fun h1 h2 e => absurd (by rw [e]; simp) hnu) (by rw [lastBuilt_noUpdate h vals w0 hnu]; exact hl) hm0
  obtain ⟨hPD, σ, hσ, hH⟩ := flt_built hi hr hv hb
  refine ⟨hPD, ?_⟩
  have hlen : b.M.keep.length = (junctionEdges c.O c.els).length := by
    have := Fintype.card_congr σ
    simpa using this.symm
  have hham2 : (hamiltonian w).1 = .ok ⟨_, b.dims w.circ.m, islandHamiltonian σ (junctionInvCap (c.O.withVals w.vals) c.els n)
        (fun i => edgeEJ c.O c.els w.vals ((junctionEdges c.O c.els).get i)) (b.dims w.circ.m) (fun p => (w.circ.ng p).getD 0)⟩ := by
    rw [hham, hH w.flux]; rfl
  clear hham hH
  have hd : ∀ i, b.dims w.circ.m i = (w.circ.m.getD i 0).toNat := fun _ => rfl
  generalize b.dims w.circ.m = d at hham2 hd
  change ∀ i : Fin b.M.keep.length, d i = _ at hd
  generalize b.M.keep.length = k at *
  subst hlen
  exact ⟨d, σ, hd, hσ, hham2⟩

/-- C130 (capacitors in series): let one dictionary arise from another by replacing a capacitor with two capacitors in
series, joined in a new node, of the same capacitance C₁C₂/(C₁+C₂) together. Then there is a correspondence `π` of the modes
(the identity, if the charging energies of the junction edges are all different) such that in any two reachable states of the
two circuits (without `update`) with the same element values and unit, and with the same truncation numbers and offset charges of
corresponding modes, `diag` returns the same frequencies. -/
theorem C130_series (he : EigsLowest eigs) (ha : CArgsortSpec as) (he' : EigsLowest eigs') (ha' : CArgsortSpec as')
    (hi : FloatingCircuit c n) (hi' : FloatingCircuit c' (n + 1)) (hr : RoutinesOK c) (hr' : RoutinesOK c') (hO : c'.O = c.O)
    (hcaps : CapsOK c.O) (i0 i1 i2 : ElemId) (hs : SplitCapacitor c.O n c.els c'.els i0 i1 i2)
    (vals vals' : ElemId → ℝ) (flux flux' : LoopId → ℝ) (u u' : ℝ)
    (w0 : World (circPhys c eigs as)) (hw : construct (circPhys c eigs as) vals flux u = .ok w0)
    (w0' : World (circPhys c' eigs' as')) (hw' : construct (circPhys c' eigs' as') vals' flux' u' = .ok w0')
    (h h' : List Act) (hh : Orderly w0 h) (hh' : Orderly w0' h') (hnu : .update ∉ h) (hnu' : .update ∉ h') :
    let w := run w0 h
    let w' := run w0' h'
    let q := (junctionEdges c.O c.els).length
    (∀ i, (c.O.elem i).kind ≠ .jj → w.vals i = vals i) → (∀ i, (c.O.elem i).kind ≠ .jj → w'.vals i = vals' i) →
    IslandValues c n w.vals → IslandValues c' (n + 1) w.vals → w'.vals = w.vals →
    w.vals i0 = seriesCap (w.vals i1) (w.vals i2) → w.circ.m ≠ [] → w'.circ.m ≠ [] → w'.unitFreq = w.unitFreq →
    ∃ π : Equiv.Perm (Fin q),
      ((∀ i j, i ≠ j → junctionInvCap (c.O.withVals w.vals) c.els n i i ≠ junctionInvCap (c.O.withVals w.vals) c.els n j j) → π = 1) ∧
      ((∀ i : Fin q, w'.circ.m.getD (π i) 0 = w.circ.m.getD i 0) →
       (∀ i : Fin q, (w'.circ.ng (π i)).getD 0 = (w.circ.ng i).getD 0) →
       ∀ num : ℕ, 1 ≤ num → num + 1 < ∏ i : Fin q, (w.circ.m.getD i 0).toNat →
         ∃ F v v', (diag (some num) w).1 = .ok (F, v) ∧ (diag (some num) w').1 = .ok (F, v')) := by
  intro w w' q hl hl' hval hval' hvv h0 hm0 hm0' huu
  obtain ⟨hPD, d, σ1, hd, hord, hH⟩ := C130_session hi hr hcaps vals flux u w0 hw h hh hnu hl hval hm0
  obtain ⟨hPD', d', σ2, hd', hord', hH'⟩ := C130_session hi' hr' (by rw [hO]; exact hcaps) vals' flux' u' w0' hw' h' hh' hnu'
    (by rw [hO]; exact hl') (by change IslandValues c' (n + 1) w'.vals; rw [hvv]; exact hval') hm0'
  have hvals : (run w0' h').vals = (run w0 h).vals := hvv
  rw [hvals] at hPD' hord' hH'
  -- the second circuit in terms of the objects of the first
  have hH'' : (capacitances (c.O.withVals (run w0 h).vals) c'.els (n + 1)).PosDef ∧ IndependentJunctions c.O c'.els (n + 1) ∧
      ∃ (d' : Fin (junctionEdges c.O c'.els).length → ℕ) (σ3 : Equiv.Perm (Fin (junctionEdges c.O c'.els).length)),
      (∀ i, d' i = ((run w0' h').circ.m.getD i 0).toNat) ∧
      (∀ i j, junctionInvCap (c.O.withVals (run w0 h).vals) c'.els (n + 1) j j <
        junctionInvCap (c.O.withVals (run w0 h).vals) c'.els (n + 1) i i → σ3 i < σ3 j) ∧
      (hamiltonian (run w0' h')).1 = .ok ⟨_, d', islandHamiltonian σ3 (junctionInvCap (c.O.withVals (run w0 h).vals) c'.els (n + 1))
        (fun i => edgeEJ c.O c'.els (run w0 h).vals ((junctionEdges c.O c'.els).get i)) d'
        (fun p => ((run w0' h').circ.ng p).getD 0)⟩ := by
    have hx := hi'.indep
    rw [← hO]
    exact ⟨hPD', hx, d', σ2, hd', hord', hH'⟩
  clear hH' hord' hPD' hd'
  obtain ⟨hPD', hind', d', σ3, hd', hord', hH'⟩ := hH''
  have hpos1 : 0 < (run w0 h).vals i1 ∧ 0 < (run w0 h).vals i2 := by
    obtain ⟨k0, k1, k2, a, b, rest, hp, hp'⟩ := hs
    have hP := hval'.1
    constructor
    · have := hP ((a, n + 1), i1) (hp'.mem_iff.2 (by simp))
      unfold placedCap at this
      have hk : ((c'.O.withVals w.vals).elem i1).kind = .cap := by rw [hO]; exact k1
      rw [hk] at this
      exact this
    · have := hP ((n + 1, b), i2) (hp'.mem_iff.2 (by simp))
      unfold placedCap at this
      have hk : ((c'.O.withVals w.vals).elem i2).kind = .cap := by rw [hO]; exact k2
      rw [hk] at this
      exact this
  obtain ⟨τ, -, hG, hE⟩ := split_dict hs hi.valid hi'.valid hi.indep hind' (run w0 h).vals
    (isUnit_iff_ne_zero.2 hPD.det_pos.ne') (isUnit_iff_ne_zero.2 hPD'.det_pos.ne') hpos1.1 hpos1.2 h0
  have hlen : (junctionEdges c.O c'.els).length = (junctionEdges c.O c.els).length := by
    have := Fintype.card_congr τ
    simpa using this.symm
  have hns : NoSelfLoops c.els := fun p hp => (hi.valid p hp).1
  have hns' : NoSelfLoops c'.els := fun p hp => (hi'.valid p hp).1
  obtain ⟨G', E', hord2, hH2, hG2, hE2⟩ : ∃ (G' : Matrix (Fin (junctionEdges c.O c'.els).length) (Fin (junctionEdges c.O c'.els).length) ℝ)
      (E' : Fin (junctionEdges c.O c'.els).length → ℝ),
      (∀ i j : Fin (junctionEdges c.O c'.els).length, G' j j < G' i i → σ3 i < σ3 j) ∧
      (hamiltonian (run w0' h')).1 = .ok ⟨_, d', islandHamiltonian σ3 G' E' d' (fun p => ((run w0' h').circ.ng p).getD 0)⟩ ∧
      (∀ i j : Fin (junctionEdges c.O c.els).length, G' (τ i) (τ j) = junctionInvCap (c.O.withVals (run w0 h).vals) c.els n i j) ∧
      (∀ i, E' (τ i) = edgeEJ c.O c.els (run w0 h).vals ((junctionEdges c.O c.els).get i)) := ⟨_, _, hord', hH', hG, hE⟩
  clear hord' hH' hG hE hPD' hind'
  generalize (junctionEdges c.O c'.els).length = q' at *
  subst hlen
  let π : Equiv.Perm (Fin (junctionEdges c.O c.els).length) := (σ1.symm.trans τ).trans σ3
  have hπ : ∀ i, π (σ1 i) = σ3 (τ i) := by
    intro i
    simp [π]
  refine ⟨π, ?_, ?_⟩
  · intro hne
    have hmono : StrictMono π := by
      intro a b hab
      obtain ⟨i, rfl⟩ := σ1.surjective a
      obtain ⟨j, rfl⟩ := σ1.surjective b
      have hij : i ≠ j := by rintro rfl; exact lt_irrefl _ hab
      have hlt : junctionInvCap (c.O.withVals (run w0 h).vals) c.els n j j <
          junctionInvCap (c.O.withVals (run w0 h).vals) c.els n i i := by
        rcases lt_trichotomy (junctionInvCap (c.O.withVals (run w0 h).vals) c.els n j j)
          (junctionInvCap (c.O.withVals (run w0 h).vals) c.els n i i) with h1 | h1 | h1
        · exact h1
        · exact absurd h1.symm (hne i j hij)
        · exact absurd (hord j i h1) (not_lt.2 hab.le)
      rw [hπ, hπ]
      apply hord2
      rw [hG2, hG2]
      exact hlt
    have : (⟨π, hmono.le_iff_le⟩ : Fin (junctionEdges c.O c.els).length ≃o Fin (junctionEdges c.O c.els).length) =
      OrderIso.refl _ := Subsingleton.elim _ _
    ext a
    have h2 := congrArg (fun f : Fin (junctionEdges c.O c.els).length ≃o Fin (junctionEdges c.O c.els).length =>
      ((f a : Fin _) : ℕ)) this
    exact h2
  · intro hmm hng num h1 hnum
    have hdd : d = fun a => d' (π a) := by
      funext a
      rw [hd, hd']
      exact congrArg Int.toNat (hmm a).symm
    subst hdd
    have hrel := relabel_islands π (fun _ => false) d' σ1 σ3 τ hπ
      (junctionInvCap (c.O.withVals (run w0 h).vals) c.els n) G'
      (fun i => edgeEJ c.O c.els (run w0 h).vals ((junctionEdges c.O c.els).get i)) E'
      (by intro i j; simp only [flipSign]; rw [hG2]; norm_num) hE2
      (fun p => ((run w0 h).circ.ng p).getD 0) (fun p => ((run w0' h').circ.ng p).getD 0)
      (by intro a; simp only [flipSign]; norm_num; exact hng a)
    have hcard : Fintype.card (Idx fun a => d' (π a)) = Fintype.card (Idx d') :=
      Fintype.card_congr (relIdx π (fun _ => false) d').symm
    have hnum1 : num + 1 < Fintype.card (Idx fun a => d' (π a)) := by
      rw [Fintype.card_pi]
      simp only [Fintype.card_fin, hd]
      exact hnum
    obtain ⟨H1, e1, hherm⟩ := C40_circuit hns vals flux u _ hw h hh hm0
    rw [hH] at e1
    obtain rfl := Except.ok.inj e1
    obtain ⟨H2, e2, hherm'⟩ := C40_circuit hns' vals' flux' u' _ hw' h' hh' hm0'
    rw [hH2] at e2
    obtain rfl := Except.ok.inj e2
    obtain ⟨vs, ws, ev, x1, hlev, hdg, -⟩ := diag_lowest he ha hm0 hH hherm num h1 hnum1
    obtain ⟨vs', ws', ev', x2, hlev', hdg', -⟩ := diag_lowest he' ha' hm0' hH2 hherm' num h1 (by rw [← hcard]; exact hnum1)
    obtain ⟨vs2, hlev2⟩ := levels_reindex (relIdx π (fun _ => false) d') hlev
    rw [hrel] at hlev2
    obtain rfl : ws' = ws := levels_unique hlev' hlev2
    have hu2 : (run w0' h').unitFreq = (run w0 h).unitFreq := huu
    refine ⟨_, _, ev'.map (fun v => ⟨_, d', v⟩), by rw [hdg], ?_⟩
    rw [hdg', hu2]

end SQ
