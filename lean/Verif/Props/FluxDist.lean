import Verif.Lemmas.Gauge
import Verif.Lemmas.GaugeFlux
import Verif.Props.Stability
import Verif.Props.Islands
import Verif.Spec.FluxDist

/-!
# C104: what depends on `flux_dist`
-/

namespace SQ
open Matrix Complex SQ.Spec

theorem edgeDrop_sum {n : ℕ} (y : Fin n → ℝ) {e : Edge} (he : ValidEdge n e) :
    ∑ j : Fin n, nodeEntry (incVec n e) j * y j = edgeDrop (pot y) e := by
  have h1 : ∀ j : Fin n, nodeEntry (incVec n e) j = (incidence e (j + 1) : ℝ) := by
    intro j
    unfold nodeEntry incVec
    rw [List.getD_eq_getElem?_getD, List.getElem?_map, List.getElem?_range j.isLt]
    rfl
  have h2 : ∀ k : ℕ, 0 < k → k ≤ n → ∑ j : Fin n, (if ((j : ℕ) + 1 = k) then (1 : ℝ) else 0) * y j = pot y k := by
    intro k hk hkn
    obtain ⟨k, rfl⟩ := Nat.exists_eq_succ_of_ne_zero hk.ne'
    rw [Finset.sum_eq_single ⟨k, by omega⟩]
    · simp only [Nat.succ_eq_add_one, if_true, one_mul, pot]
      rw [dif_pos (by omega)]
    · intro j _ hj
      rw [if_neg, zero_mul]
      intro h
      exact hj (Fin.ext (by simp only; omega))
    · intro h; exact absurd (Finset.mem_univ _) h
  obtain ⟨hne, hl1, hl2⟩ := he
  simp only [h1]
  unfold incidence edgeDrop
  by_cases ha : e.1 = 0
  · simp only [ha, if_true]
    rw [← h2 e.2 (by omega) hl2]
    refine Finset.sum_congr rfl fun j _ => ?_
    push_cast; rfl
  · by_cases hb : e.2 = 0
    · simp only [ha, hb, if_true, if_false]
      rw [← h2 e.1 (by omega) hl1]
      refine Finset.sum_congr rfl fun j _ => ?_
      push_cast; rfl
    · simp only [ha, hb, if_false]
      rw [← h2 e.1 (by omega) hl1, ← h2 e.2 (by omega) hl2, ← Finset.sum_sub_distrib]
      refine Finset.sum_congr rfl fun j _ => ?_
      rw [← sub_mul]
      congr 1
      by_cases h3 : (j : ℕ) + 1 = e.1
      · simp [h3, hne]
      · simp only [h3, if_false]
        by_cases h4 : (j : ℕ) + 1 = e.2 <;> simp [h4]

/-- the builds for two choices of `flux_dist` -/
theorem flux_dist_gauge {c : CircSpec} {fd' : FluxDist} {vals : ElemId → ℝ} (hs : NoSelfLoops c.els)
    (ho : LoopsListedOnce c.O) (hsv : SvdSpec c.sv) {b b' : Build} (hb : buildCirc c vals = .ok b)
    (hb' : buildCirc (withFluxDist c fd') vals = .ok b') :
    ∃ (B' : Matrix (Fin b.nB) (Fin b.loops.length) ℝ) (y : Fin b.loops.length → ℕ → ℝ)
      (g : Fin b.nB → Fin b.loops.length → ℝ), b' = { b with B := B' } ∧
      (∀ i l, |b.B i l - B' i l - g i l| ≤ 1e-5) ∧
      (∀ key ∈ b.juns, ∀ l, g key.bId l = edgeDrop (y l) key.edge) ∧
      (∀ key ∈ b.inds, ∀ l, g key.bId l = edgeDrop (y l) key.edge) := by
  obtain ⟨n, a, B, t, hn, htr, hB, ht, rfl⟩ := buildCirc_stages hb
  obtain ⟨n', a', B', t', hn', htr', hB', ht', rfl⟩ := buildCirc_stages hb'
  have hnn : n' = n := by
    have : numNodes c.els = .ok n' := hn'
    rw [hn] at this
    exact (Except.ok.inj this).symm
  subst hnn
  have htr2 : traverse c.torch fd' (c.O.withVals vals) n' c.h c.els = .ok a' := htr'
  obtain ⟨cE, rfl⟩ := traverse_fd htr htr2
  have htt : t' = t := by
    have h2 : transformHamil (c.lib n') c.sv c.argsort (c.argmax _) c.draws a.numJunWithoutInd a.cMat a.lMat
        (arrayOf n' a.wMat) c.fuel (initTrans a.cMat a.lMat (arrayOf n' a.wMat)) = some (.ok t') := ht'
    rw [ht] at h2
    injection h2 with h2
    injection h2 with h2
    exact h2.symm
  subst htt
  have hv : ValidElements n' c.els := by
    intro p hp
    have := buildEdges_nodes_le htr p hp
    exact ⟨hs p hp, this.1, this.2⟩
  obtain ⟨k1, k2, -, -, -, k6⟩ := C18_branch_numbering _ _ _ _ _ _ hv a htr
  -- edges of the keys
  have hedge : ∀ (q : Edge × ElemId) (i : ℕ), (q, i) ∈ numbered (c.O.withVals vals) c.els → ∀ hi : i < a.st.kMat.length,
      a.st.kMat[i] = incVec n' q.1 ∧ ValidEdge n' q.1 := by
    intro q i hq hi
    unfold numbered at hq
    rw [List.mem_zipIdx_iff_getElem?] at hq
    simp only at hq
    constructor
    · have h1 : a.st.kMat[i]? = some (incVec n' q.1) := by
        rw [k6, List.getElem?_map, hq]; rfl
      rw [List.getElem?_eq_getElem hi] at h1
      exact Option.some.inj h1
    · have h1 := List.mem_of_getElem? hq
      unfold inductivePlacements at h1
      have h2 := List.mem_of_mem_filter h1
      unfold placements at h2
      obtain ⟨p, hp, hq2⟩ := List.mem_flatMap.1 h2
      obtain ⟨x, -, rfl⟩ := List.mem_map.1 hq2
      exact hv p hp
  have hjun : ∀ key ∈ junKeysOf a.st.kMat.length a.wMat.length a.st.junKeys,
      a.st.kMat.get key.bId = incVec n' key.edge ∧ ValidEdge n' key.edge := by
    intro key hkey
    simp only [junKeysOf, List.mem_filterMap] at hkey
    obtain ⟨x, hx, hx2⟩ := hkey
    split at hx2
    · rename_i hlt
      injection hx2 with hx2
      subst hx2
      have h1 : (x.1, x.2.1, x.2.2.1) ∈ a.st.junKeys.map (fun k => (k.1, k.2.1, k.2.2.1)) := List.mem_map.2 ⟨x, hx, rfl⟩
      rw [k2] at h1
      obtain ⟨q, hq, hq2⟩ := List.mem_map.1 h1
      obtain ⟨⟨e, i⟩, j⟩ := q
      simp only [Prod.mk.injEq] at hq2
      obtain ⟨e1, e2, e3⟩ := hq2
      subst e3
      have := hedge (e, i) _ (List.mem_of_mem_filter hq) hlt.1
      simp only at this
      rw [e1] at this
      exact this
    · cases hx2
  have hind : ∀ key ∈ indKeysOf a.st.kMat.length a.st.indKeys,
      a.st.kMat.get key.bId = incVec n' key.edge ∧ ValidEdge n' key.edge := by
    intro key hkey
    simp only [indKeysOf, List.mem_filterMap] at hkey
    obtain ⟨x, hx, hx2⟩ := hkey
    split at hx2
    · rename_i hlt
      injection hx2 with hx2
      subst hx2
      rw [k1] at hx
      obtain ⟨q, hq, hq2⟩ := List.mem_map.1 hx
      obtain ⟨⟨e, i⟩, j⟩ := q
      simp only at hq2
      subst hq2
      exact hedge (e, i) _ (List.mem_of_mem_filter hq) hlt
    · cases hx2
  have hcon := traverse_loopsConsistent (O := c.O.withVals vals) hv ho htr
  have main : ∀ (B B' : Option (Matrix (Fin a.st.kMat.length) (Fin (a.st.loops.map a.st.loopHeap).length) ℝ)),
      fluxMatrix c.sv n' a.st.kMat a.st.cEdge (a.st.loops.map a.st.loopHeap) = .ok B →
      fluxMatrix c.sv n' a.st.kMat cE (a.st.loops.map a.st.loopHeap) = .ok B' →
      ∀ l : Fin a.st.loops.length, ∃ y : Fin n' → ℝ, ∀ i,
        |fluxTable B i l - fluxTable B' i l - ∑ j : Fin n', nodeEntry (a.st.kMat.get i) j * y j| ≤ 1e-5 := by
    intro B B' h1 h2 l
    have hne : (a.st.loops.map a.st.loopHeap).length ≠ 0 := by
      rw [List.length_map]
      have := l.isLt
      omega
    have hsome : ∀ {cE : List ℝ} {B : Option (Matrix (Fin a.st.kMat.length) (Fin (a.st.loops.map a.st.loopHeap).length) ℝ)},
        fluxMatrix c.sv n' a.st.kMat cE (a.st.loops.map a.st.loopHeap) = .ok B → ∃ B1, B = some B1 := by
      intro cE B hB
      cases B with
      | some B1 => exact ⟨B1, rfl⟩
      | none =>
        exfalso
        unfold fluxMatrix at hB
        simp only at hB
        cases hr : loopRows c.sv n' a.st.kMat.length (a.st.loops.map a.st.loopHeap) with
        | error e => rw [hr] at hB; cases e <;> simp at hB
        | ok gRows =>
          rw [hr] at hB
          simp only [hne, if_false] at hB
          split at hB
          · rename_i heq
            split at heq
            · cases heq
            · split at heq
              · cases heq
              · split at heq <;> cases heq
          · cases hB
          · cases hB
          · cases hB
          · cases hB
    obtain ⟨B1, rfl⟩ := hsome h1
    obtain ⟨B2, rfl⟩ := hsome h2
    obtain ⟨y, hy⟩ := flux_gauge c.sv hsv n' _ _ _ _ hcon h1 h2 (l.cast (by simp))
    exact ⟨y, fun i => hy i⟩
  choose y hy using main B B' hB hB'
  refine ⟨fluxTable B', fun l => pot (y l), fun i l => ∑ j : Fin n', nodeEntry (a.st.kMat.get i) j * y l j, rfl,
    fun i l => hy l i, ?_, ?_⟩
  · intro key hkey l
    obtain ⟨h1, h2⟩ := hjun key hkey
    simp only [h1]
    exact edgeDrop_sum (y l) h2
  · intro key hkey l
    obtain ⟨h1, h2⟩ := hind key hkey
    simp only [h1]
    exact edgeDrop_sum (y l) h2

/-- C104: choosing another `flux_dist` changes only the flux distribution: modes, capacitances, loops and element keys
stay the same, and the share of a loop's flux attributed to each inductive element changes by the difference of a node
potential across its edge, up to 1e-5 (the code rounds the shares to five digits). -/
theorem C104_gradient (c : CircSpec) (fd' : FluxDist) (vals : ElemId → ℝ) (hs : NoSelfLoops c.els)
    (ho : LoopsListedOnce c.O) (hsv : SvdSpec c.sv) (b b' : Build) (hb : buildCirc c vals = .ok b)
    (hb' : buildCirc (withFluxDist c fd') vals = .ok b') :
    ∃ B' : Matrix (Fin b.nB) (Fin b.loops.length) ℝ, b' = { b with B := B' } ∧
      ∀ l, ∃ y : ℕ → ℝ, (∀ key ∈ b.juns, |b.B key.bId l - B' key.bId l - edgeDrop y key.edge| ≤ 1e-5) ∧
        ∀ key ∈ b.inds, |b.B key.bId l - B' key.bId l - edgeDrop y key.edge| ≤ 1e-5 := by
  obtain ⟨B', y, g, h1, h2, h3, h4⟩ := flux_dist_gauge hs ho hsv hb hb'
  refine ⟨B', h1, fun l => ⟨y l, fun key hkey => ?_, fun key hkey => ?_⟩⟩
  · rw [← h3 key hkey l]; exact h2 _ _
  · rw [← h4 key hkey l]; exact h2 _ _

section
variable {c : CircSpec} {fd' : FluxDist} {eigs : EigsFn} {as : List ℂ → List ℕ}

/-- C104 for frequencies: in circuits of junctions and capacitors whose junction edges close no loops through several
nodes (SQUIDs, transmons made of several junctions, capacitively coupled ones) the frequencies do not depend on
`flux_dist`, up to the rounding of the flux shares: two circuits that differ only in `flux_dist`, with the same current
values, fluxes, offsets, truncation numbers and units, whatever calls led there, have frequencies that differ at most by
1e-5 ∑|E_J| ∑|φ_ext| / (2π unit). -/
theorem C104_frequencies (he : EigsLowest eigs) (ha : CArgsortSpec as)
    (vals : ElemId → ℝ) (hc : GoodCircuit c vals) (hL : NoInductors c.O c.els)
    (hJ0 : junctionEdges c.O c.els ≠ []) (n : ℕ) (hn : numNodes c.els = .ok n)
    (hli : IndependentJunctions c.O c.els n)
    (hcond : WellConditioned n (junctionInvCap (c.O.withVals vals) c.els n))
    (hsv : SvdSpec c.sv) (has : ArgsortSpec c.argsort)
    (htn : c.torch = false ∨ (junctionEdges c.O c.els).length = n) (ho : LoopsListedOnce c.O)
    (flux flux' : LoopId → ℝ) (u u' : ℝ)
    (w0 : World (circPhys c eigs as)) (hw : construct (circPhys c eigs as) vals flux u = .ok w0)
    (w0' : World (circPhys (withFluxDist c fd') eigs as))
    (hw' : construct (circPhys (withFluxDist c fd') eigs as) vals flux' u' = .ok w0')
    (h h' : List Act) (hh : Orderly w0 h) (hh' : Orderly w0' h') (hnu : ∀ x ∈ h, x ≠ .update) (hnu' : ∀ x ∈ h', x ≠ .update)
    (hm : (run w0 h).circ.m ≠ []) (hu : 0 < (run w0 h).unitFreq)
    (hmm : (run w0' h').circ.m = (run w0 h).circ.m) (hng : (run w0' h').circ.ng = (run w0 h).circ.ng)
    (hv : (run w0' h').vals = (run w0 h).vals) (hf : (run w0' h').flux = (run w0 h).flux)
    (huu : (run w0' h').unitFreq = (run w0 h).unitFreq)
    (num : ℕ) (h1 : 1 ≤ num) (hnum : num + 1 < Fintype.card (Idx ((run w0 h).circ.bd.dims (run w0 h).circ.m))) :
    ∃ F F' v v', (diag (some num) (run w0 h)).1 = .ok (F, v) ∧ (diag (some num) (run w0' h')).1 = .ok (F', v') ∧
      F.length = num ∧ F'.length = num ∧
      ∀ i, i < num → |F.getD i 0 - F'.getD i 0| ≤
        ((junctionPlacements c.O c.els).map fun q => |(run w0 h).vals q.2|).sum *
          (1e-5 * ((run w0 h).circ.bd.loops.map fun l => |(run w0 h).flux l|).sum) /
            (2 * Real.pi * (run w0 h).unitFreq) := by
  have hs := hc.noSelf
  have hb : buildCirc c vals = .ok (run w0 h).circ.bd := by rw [run_bd h w0 hnu]; exact (construct_build hw).1
  have hb' : buildCirc (withFluxDist c fd') vals = .ok (run w0' h').circ.bd := by
    rw [run_bd h' w0' hnu']; exact (construct_build hw').1
  obtain ⟨hbok, -, -, hham⟩ := ham_now hs hw hh hm
  have hm' : (run w0' h').circ.m ≠ [] := by rw [hmm]; exact hm
  obtain ⟨-, -, -, hham'⟩ := ham_now (c := withFluxDist c fd') hs hw' hh' hm'
  have hplaced := juns_now hs hw hh
  obtain ⟨-, hin, hom, hJ, σ, hed, -, hwσ, -⟩ := isl_facts c vals hc hL hJ0 n hn hli hcond hsv has htn _ hb
  obtain ⟨B', y, g, hbd', hclose, hgj, -⟩ := flux_dist_gauge hs ho hsv hb hb'
  have hr := hham (run w0 h) rfl
  have hr' := hham' (run w0' h') rfl
  rw [hmm, hng, hv, hf] at hr'
  generalize (run w0' h').circ.bd = bd' at hr' hbd'
  subst hbd'
  generalize hbd : (run w0 h).circ.bd = bd at *
  -- fluxes and phases
  set phi := bd.fluxes (run w0 h).flux with hphi
  set phi' : Fin bd.nB → ℝ := Build.fluxes { bd with B := B' } (run w0 h).flux with hphi'
  let G : Fin bd.nB → ℝ := fun i => ∑ l, (run w0 h).flux (bd.loops.get l) * g i l
  let θ : Fin bd.M.keep.length → ℝ := fun j =>
    -∑ l, (run w0 h).flux (bd.loops.get l) * edgeDrop (y l) ((junctionEdges c.O c.els).get (σ.symm j))
  have hdiff : ∀ i, |phi i - G i - phi' i| ≤ 1e-5 * (bd.loops.map fun l => |(run w0 h).flux l|).sum := by
    intro i
    have e1 : phi i - G i - phi' i = ∑ l, (run w0 h).flux (bd.loops.get l) * (bd.B i l - B' i l - g i l) := by
      rw [hphi, hphi']
      unfold Build.fluxes
      rw [extFlux_sum, extFlux_sum]
      simp only [G, mul_sub, Finset.sum_sub_distrib]
      ring
    have e2 : (bd.loops.map fun l => |(run w0 h).flux l|).sum = ∑ l : Fin bd.loops.length, |(run w0 h).flux (bd.loops.get l)| := by
      rw [← List.sum_ofFn]
      congr 1
      conv_lhs => rw [← List.ofFn_get bd.loops, List.map_ofFn]
      rfl
    rw [e1, e2, Finset.mul_sum]
    refine (Finset.abs_sum_le_sum_abs _ _).trans (Finset.sum_le_sum fun l _ => ?_)
    rw [abs_mul, mul_comm]
    exact mul_le_mul_of_nonneg_right (hclose i l) (abs_nonneg _)
  have hθ : ∀ key ∈ bd.juns, phi key.bId - G key.bId = phi key.bId + ∑ j, θ j * bd.M.w key.wId j := by
    intro key hkey
    rw [sub_eq_add_neg]
    congr 1
    rw [Finset.sum_eq_single (σ (key.wId.cast hJ))]
    · rw [hwσ, if_pos rfl, mul_one]
      simp only [θ, G, Equiv.symm_apply_apply]
      rw [hed key hkey]
      congr 1
      exact Finset.sum_congr rfl fun l _ => by rw [hgj key hkey l]
    · intro j _ hj
      rw [hwσ, if_neg hj, mul_zero]
    · intro hcon; exact absurd (Finset.mem_univ _) hcon
  have hwv : ∀ key ∈ bd.juns, ∀ j, bd.M.omega j = 0 →
      bd.M.w key.wId j = 0 ∨ bd.M.w key.wId j = 1 ∨ bd.M.w key.wId j = -1 := by
    intro key _ j _
    rw [hwσ]
    split <;> simp
  obtain ⟨H, hH, hherm⟩ := C40_hermitian bd.C bd.M hbok.1 (bd.dims (run w0 h).circ.m)
    (fun i => ((run w0 h).circ.ng i).getD 0) (run w0 h).vals phi bd.inds bd.juns hbok.2
  obtain ⟨H1, hH1, -⟩ := C40_hermitian bd.C bd.M hbok.1 (bd.dims (run w0 h).circ.m)
    (fun i => ((run w0 h).circ.ng i).getD 0) (run w0 h).vals (fun i => phi i - G i) bd.inds bd.juns hbok.2
  obtain ⟨H', hH', hherm'⟩ := C40_hermitian bd.C bd.M hbok.1 (bd.dims (run w0 h).circ.m)
    (fun i => ((run w0 h).circ.ng i).getD 0) (run w0 h).vals phi' bd.inds bd.juns hbok.2
  have hg := gauge_ham bd.C bd.M hbok.1 (bd.dims (run w0 h).circ.m)
    (fun i => ((run w0 h).circ.ng i).getD 0) (run w0 h).vals phi (fun i => phi i - G i) bd.inds bd.juns hbok.2 θ
    (fun i hi => absurd (hom i) hi) (by rw [hin]; intro key hkey; cases hkey) hwv hθ hH hH1
  have hr2 := hr.trans (congrArg _ hH)
  have hr2' := hr'.trans (congrArg _ hH')
  obtain ⟨vs, ws, ev, w1, hlev, hd, -⟩ := diag_lowest he ha hm hr2 hherm num h1 hnum
  obtain ⟨vs', ws', ev', w1', hlev', hd', -⟩ := diag_lowest he ha hm' hr2' hherm' num h1 hnum
  have hlev1 := levels_gauge _ (gauge_prod (m := bd.dims (run w0 h).circ.m) (fun i => gaugePhase (θ i))
    (fun i => gaugePhase_norm (θ i))) hlev
  obtain ⟨vs1, hlev1'⟩ : ∃ vs1, Levels H1 vs1 ws := ⟨_, by rw [hg]; exact hlev1⟩
  have hl : ws.length = _ := hlev.len.trans hlev.card
  have hl' : ws'.length = Fintype.card (Idx (bd.dims (run w0 h).circ.m)) := hlev'.len.trans hlev'.card
  obtain ⟨g1, g2⟩ := getD_take_map (ws := ws) (num := num) (by omega)
    (fun f => f / (2 * Real.pi * (run w0 h).unitFreq))
  obtain ⟨g1', g2'⟩ := getD_take_map (ws := ws') (num := num) (by omega)
    (fun f => f / (2 * Real.pi * (run w0 h).unitFreq))
  refine ⟨_, _, _, _, by rw [hd], by rw [hd', huu], g1, g1', fun i hi' => ?_⟩
  rw [g2 i hi', g2' i hi', ← sub_div, abs_div]
  have hpos : 0 < 2 * Real.pi * (run w0 h).unitFreq := by positivity
  rw [abs_of_pos hpos]
  set K := 1e-5 * (bd.loops.map fun l => |(run w0 h).flux l|).sum with hK
  have hK0 : 0 ≤ K := by
    rw [hK]
    have : 0 ≤ (bd.loops.map fun l => |(run w0 h).flux l|).sum := List.sum_nonneg (by
      intro x hx
      obtain ⟨l, -, rfl⟩ := List.mem_map.1 hx
      exact abs_nonneg _)
    positivity
  have hsum : ∀ p q : Fin bd.nB → ℝ, (∀ i, |p i - q i| ≤ K) →
      (bd.juns.map fun key => |(run w0 h).vals key.el - (run w0 h).vals key.el| +
        |(run w0 h).vals key.el| * |p key.bId - q key.bId|).sum ≤
      ((junctionPlacements c.O c.els).map fun q => |(run w0 h).vals q.2|).sum * K := by
    intro p q hpq
    have hsub := List.Sublist.map (fun q : Edge × ElemId => |(run w0 h).vals q.2|) hplaced
    rw [List.map_map] at hsub
    have s1 := List.Sublist.sum_le_sum hsub (fun r hr => by
      obtain ⟨q, -, rfl⟩ := List.mem_map.1 hr
      exact abs_nonneg _)
    refine le_trans ?_ (mul_le_mul_of_nonneg_right s1 hK0)
    rw [← List.sum_map_mul_right]
    refine List.sum_le_sum fun key _ => ?_
    rw [sub_self, abs_zero, zero_add]
    exact mul_le_mul_of_nonneg_left (hpq _) (abs_nonneg _)
  have a1 := levels_weyl (ham_change _ _ hbok.1 _ _ _ _ _ _ _ _ hbok.2 (by rw [hin]; intro key hkey; cases hkey) hH1 hH')
    hlev1' hlev' (m := i) (by omega)
  have a2 := levels_weyl (ham_change _ _ hbok.1 _ _ _ _ _ _ _ _ hbok.2 (by rw [hin]; intro key hkey; cases hkey) hH' hH1)
    hlev' hlev1' (m := i) (by omega)
  have b1 := hsum (fun i => phi i - G i) phi' hdiff
  have b2 := hsum phi' (fun i => phi i - G i) (fun i => by rw [abs_sub_comm]; exact hdiff i)
  gcongr
  rw [abs_le]
  constructor <;> linarith

end

end SQ

namespace SQ
open Spec Real Matrix

theorem cond_one {q : ℕ} (hq : q = 1) (G : Matrix (Fin q) (Fin q) ℝ) (x : ℝ) (hx : 0 < x) (hb : x ≤ 1e29)
    (hG : ∀ i j, G i j = x⁻¹) : WellConditioned 1 G := by
  subst hq
  intro i
  have hinv : G⁻¹ = Matrix.of fun _ _ => x := by
    refine Matrix.inv_eq_right_inv ?_
    ext i j
    fin_cases i; fin_cases j
    simp [Matrix.mul_apply, hG, hx.ne']
  rw [hinv, hG, Matrix.of_apply, Nat.cast_one, Real.sqrt_one, one_mul, Real.sqrt_inv]
  have h4 : √x ≤ 3.2e14 := by
    apply Real.sqrt_le_iff.2
    constructor
    · norm_num
    · refine hb.trans ?_; norm_num
  have h5 : 0 < √x := Real.sqrt_pos.2 hx
  have e : 1e-6 * ((√x)⁻¹ + 1e-9) * √x = 1e-6 * (1 + 1e-9 * √x) := by field_simp
  rw [e]
  norm_num at h4 ⊢
  linarith

/-- parallel junctions meet the hypotheses of `C104_frequencies` -/
theorem oe_islands {O : Objs} {ids : List ElemId} {vals : ElemId → ℝ} (hj : OnlyJunctions O ids)
    (hv : ParallelValues O ids vals) :
    NoInductors O (oneEdge ids) ∧ (junctionEdges O (oneEdge ids)).length = 1 ∧
    IndependentJunctions O (oneEdge ids) 1 ∧
    WellConditioned 1 (junctionInvCap (O.withVals vals) (oneEdge ids) 1) := by
  have he : junctionEdges O (oneEdge ids) = [(0, 1)] := by
    unfold junctionEdges oneEdge
    have : ids.any (fun i => decide ((O.elem i).kind = .jj)) = true := by
      rw [List.any_eq_true]
      obtain ⟨i, hi, hk⟩ := hj.2
      exact ⟨i, hi, by simpa using hk⟩
    simp [this]
  have hlen : (junctionEdges O (oneEdge ids)).length = 1 := by rw [he]; rfl
  have hinc : junctionIncidence O (oneEdge ids) 1 = Matrix.of fun _ _ => 1 := by
    unfold junctionIncidence
    ext i j
    have hi : (junctionEdges O (oneEdge ids)).get i = (0, 1) := by
      have := List.get_mem (junctionEdges O (oneEdge ids)) i
      exact List.mem_singleton.1 ((congrArg (fun l => _ ∈ l) he).mp this)
    have hj0 : j = 0 := Subsingleton.elim _ _
    rw [Matrix.of_apply, hi]
    simp [hj0, incidence]
  refine ⟨?_, hlen, ?_, ?_⟩
  · intro q hq
    simp [placements, oneEdge] at hq
    obtain ⟨i, hi, rfl⟩ := hq
    exact hj.1 i hi
  · unfold IndependentJunctions
    rw [hinc]
    have : Subsingleton (Fin (junctionEdges O (oneEdge ids)).length) := by rw [hlen]; infer_instance
    rw [linearIndependent_subsingleton_index_iff]
    intro i h
    have := congrFun h 0
    simp [Matrix.row] at this
  · have hcap : capacitances (O.withVals vals) (oneEdge ids) 1 = Matrix.of fun _ _ => totalCap (O.withVals vals) ids := by
      exact oe_sum _ _
    have hpos := totalCap_pos hj hv
    have hinv : (capacitances (O.withVals vals) (oneEdge ids) 1)⁻¹ =
        Matrix.of fun _ _ => (totalCap (O.withVals vals) ids)⁻¹ := by
      rw [hcap]
      refine Matrix.inv_eq_right_inv ?_
      ext i j
      fin_cases i; fin_cases j
      simp [Matrix.mul_apply, hpos.ne']
    have key : ∀ i j, junctionInvCap (O.withVals vals) (oneEdge ids) 1 i j = (totalCap (O.withVals vals) ids)⁻¹ := ?_
    · exact cond_one hlen _ _ hpos hv.2 key
    intro i j
    unfold junctionInvCap
    have hinc' : junctionIncidence (O.withVals vals) (oneEdge ids) 1 = Matrix.of fun _ _ => 1 := hinc
    rw [hinv, hinc', Matrix.mul_apply, Fin.sum_univ_one, Matrix.mul_apply, Fin.sum_univ_one]
    show (1 : ℝ) * _ * 1 = _
    rw [one_mul, mul_one]
    rfl

/-- a SQUID under any `flux_dist`, with truncation number 4 -/
theorem squid_truncated (fd : FluxDist) (lib : ∀ n, NumLib n)
    (hlib : ∀ n, ∀ C L : Matrix (Fin n) (Fin n) ℝ, C.PosDef → L.PosSemidef → LibSpec (lib n) C L)
    (argsort : ArgsortFn) (hsrt : ArgsortSpec argsort) (argmax : ∀ k, ArgmaxFn k) (hm : ∀ k, ArgmaxSpec (argmax k))
    (eigs : EigsFn) (as : List ℂ → List ℕ) (flux : LoopId → ℝ) :
    ∃ w0 : World (circPhys (parallelSpec false fd squidObjs [4, 0, 2] (fun _ => LoopObj.init 0 0) lib exSv
        argsort argmax (fun _ _ => 0)) eigs as),
      construct (circPhys _ eigs as) (fun _ => 1) flux 1 = .ok w0 ∧ Orderly w0 [.setTruncNums (.list [4])] ∧
      w0.circ.bd.loops = [0] ∧
      (run w0 [.setTruncNums (.list [4])]).circ.bd = w0.circ.bd ∧
      (run w0 [.setTruncNums (.list [4])]).circ.m = [7] ∧
      (run w0 [.setTruncNums (.list [4])]).circ.ng = (fun i => if i = 0 then some 0 else none) ∧
      (run w0 [.setTruncNums (.list [4])]).unitFreq = 1 ∧
      (run w0 [.setTruncNums (.list [4])]).vals = (fun _ => 1) ∧
      (run w0 [.setTruncNums (.list [4])]).flux = flux ∧
      Fintype.card (Idx ((run w0 [.setTruncNums (.list [4])]).circ.bd.dims
        (run w0 [.setTruncNums (.list [4])]).circ.m)) = 7 := by
  have hj : OnlyJunctions squidObjs [4, 0, 2] := by
    refine ⟨?_, 0, by simp, rfl⟩
    intro i hi
    simp at hi
    rcases hi with rfl | rfl | rfl <;> decide
  obtain ⟨b, hb0, hk0, hl0, -⟩ := C92_squid false fd squidObjs [4, 0, 2] 0 2 0 (by decide) rfl rfl rfl rfl
    (fun _ => LoopObj.init 0 0) lib hlib exSv exSv_spec argsort hsrt argmax hm (fun _ _ => 0) _ squid_values
  have hcon : ∃ w0, construct (circPhys (parallelSpec false fd squidObjs [4, 0, 2] (fun _ => LoopObj.init 0 0) lib exSv
      argsort argmax (fun _ _ => 0)) eigs as) (fun _ => 1) flux 1 = .ok w0 := by
    unfold construct
    rw [show (circPhys (parallelSpec false fd squidObjs [4, 0, 2] (fun _ => LoopObj.init 0 0) lib exSv
      argsort argmax (fun _ _ => 0)) eigs as).build (fun _ => 1) = .ok b from hb0]
    exact ⟨_, rfl⟩
  obtain ⟨w0, hw⟩ := hcon
  have hb : buildCirc _ _ = .ok w0.circ.bd := (construct_build hw).1
  obtain rfl : b = w0.circ.bd := Except.ok.inj (hb0.symm.trans hb)
  obtain ⟨hk, -, -, hom, -⟩ := oe_facts (fd := fd) (torch := false) hj hlib exSv_spec hsrt hm squid_values hb
  have hfld : w0.unitFreq = 1 ∧ w0.vals = (fun _ => 1) ∧ w0.flux = flux ∧
      w0.circ.islands = fun i => if i < (circPhys _ eigs as).nModes w0.circ.bd ∧ (circPhys _ eigs as).isCharge w0.circ.bd i
        then some (ChargeObj.init 0 1e-4) else none := by
    have hw' := hw
    unfold construct at hw'
    split at hw'
    · cases hw'
    · injection hw' with hw'
      rw [← hw']
      exact ⟨rfl, rfl, rfl, rfl⟩
  have hok : (setTruncNums (.list [4]) w0).1 = .ok () := (C42_constructed hw [4] hk.symm (by simp)).1
  have hbd : (run w0 [.setTruncNums (.list [4])]).circ.bd = w0.circ.bd := run_bd _ w0 (by simp)
  have hst : (run w0 [.setTruncNums (.list [4])]).circ.m = dimsOf _ w0.circ.bd [4] ∧
      (run w0 [.setTruncNums (.list [4])]).unitFreq = w0.unitFreq ∧ (run w0 [.setTruncNums (.list [4])]).vals = w0.vals ∧
      (run w0 [.setTruncNums (.list [4])]).flux = w0.flux ∧ (run w0 [.setTruncNums (.list [4])]).circ.ng = w0.circ.ng := by
    show (setTruncNums (.list [4]) w0).2.circ.m = _ ∧
      (setTruncNums (.list [4]) w0).2.unitFreq = _ ∧ (setTruncNums (.list [4]) w0).2.vals = _ ∧
      (setTruncNums (.list [4]) w0).2.flux = _ ∧ (setTruncNums (.list [4]) w0).2.circ.ng = _
    rcases setTruncNums_cases (.list [4]) w0 with ⟨h1, -⟩ | ⟨nums, hn, -, ⟨e, h1, -⟩ | ⟨mem, hmem, -, h2⟩⟩
    · rw [h1] at hok; cases hok
    · rw [h1] at hok; cases hok
    injection hn with hn
    subst hn
    rw [h2]
    exact ⟨rfl, rfl, rfl, rfl, rfl⟩
  have ho : Orderly w0 [.setTruncNums (.list [4])] := ⟨fun _ => Or.inl hok, trivial⟩
  have hn1 : (circPhys _ eigs as).nModes w0.circ.bd = 1 := hk
  have hnc : (circPhys _ eigs as).isCharge w0.circ.bd 0 = true := by
    show Build.isCharge w0.circ.bd 0 = true
    unfold Build.isCharge
    rw [dif_pos (by omega)]
    simp [hom]
  have hm7 : (run w0 [.setTruncNums (.list [4])]).circ.m = [7] := by
    rw [hst.1]
    unfold dimsOf
    rw [hn1]
    simp [hnc]
  have hcard : Fintype.card (Idx ((run w0 [.setTruncNums (.list [4])]).circ.bd.dims
      (run w0 [.setTruncNums (.list [4])]).circ.m)) = 7 := by
    have h1 := card_dims (run w0 [.setTruncNums (.list [4])]) [4]
    rw [hbd] at h1
    rw [hst.1, hbd]
    refine h1.trans ?_
    unfold spaceDim dimsOf
    rw [hbd, hn1]
    simp [hnc]
  have hng : w0.circ.ng = fun i => if i = 0 then some 0 else none := by
    funext i
    unfold Circ.ng
    rw [hfld.2.2.2, hn1]
    by_cases hi : i = 0
    · subst hi
      simp [hnc, ChargeObj.init, ChargeObj.chValue]
    · have hi' : ¬ i < 1 := by omega
      simp [hi', hi]
  exact ⟨w0, hw, ho, hl0, hbd, hm7, hst.2.2.2.2.trans hng, hst.2.1.trans hfld.1, hst.2.2.1.trans hfld.2.1,
    hst.2.2.2.1.trans hfld.2.2.1, hcard⟩

/-- the hypotheses can be met: a SQUID with flux π/2 under `flux_dist` "junctions" and "inductors"; its three lowest
frequencies agree within 1e-5/2 -/
theorem C104_example : ∃ (c : CircSpec) (eigs : EigsFn) (as : List ℂ → List ℕ) (w0 : World (circPhys c eigs as))
    (w0' : World (circPhys (withFluxDist c .inductors) eigs as)), c.fd = .junctions ∧ EigsLowest eigs ∧ CArgsortSpec as ∧
    construct (circPhys c eigs as) (fun _ => 1) (fun _ => π / 2) 1 = .ok w0 ∧
    construct (circPhys (withFluxDist c .inductors) eigs as) (fun _ => 1) (fun _ => π / 2) 1 = .ok w0' ∧
    ∃ F F' v v', (diag (some 3) (run w0 [.setTruncNums (.list [4])])).1 = .ok (F, v) ∧
      (diag (some 3) (run w0' [.setTruncNums (.list [4])])).1 = .ok (F', v') ∧ F.length = 3 ∧ F'.length = 3 ∧
      ∀ i, i < 3 → |F.getD i 0 - F'.getD i 0| ≤ 1e-5 / 2 := by
  choose lib hlib using exists_lib
  choose argmax hm using exists_argmax
  obtain ⟨argsort, hsrt⟩ := exists_argsort
  obtain ⟨eigs, he⟩ := exists_eigs_lowest
  obtain ⟨as, ha⟩ := exists_cargsort
  have hj : OnlyJunctions squidObjs [4, 0, 2] := by
    refine ⟨?_, 0, by simp, rfl⟩
    intro i hi
    simp at hi
    rcases hi with rfl | rfl | rfl <;> decide
  have hlo : LoopsListedOnce squidObjs := by
    intro i
    unfold squidObjs
    simp only
    split_ifs <;> simp
  obtain ⟨w0, hw, ho, hl, hbd, hm7, hng, hu, hv, hf, hcard⟩ :=
    squid_truncated .junctions lib hlib argsort hsrt argmax hm eigs as (fun _ => π / 2)
  obtain ⟨w0', hw', ho', hl', hbd', hm7', hng', hu', hv', hf', hcard'⟩ :=
    squid_truncated .inductors lib hlib argsort hsrt argmax hm eigs as (fun _ => π / 2)
  have hgood := oe_good (vals := fun _ => 1) (torch := false) (fd := .junctions) (h := fun _ => LoopObj.init 0 0)
    (sv := exSv) (argsort := argsort) (draws := fun _ _ => 0) hj hlib hm squid_values
  obtain ⟨i1, i2, i3, i4⟩ := oe_islands hj squid_values
  refine ⟨_, eigs, as, w0, w0', rfl, he, ha, hw, hw', ?_⟩
  obtain ⟨F, F', v, v', h1, h2, h3, h4, h5⟩ := C104_frequencies (fd' := .inductors) he ha (fun _ => 1) hgood i1
    (by intro h0; rw [show junctionEdges squidObjs (oneEdge [4, 0, 2]) = [] from h0] at i2; cases i2) 1 rfl i3 i4
    exSv_spec hsrt (Or.inl rfl) hlo _ _ 1 1 w0 hw w0' hw' _ _ ho ho' (by simp) (by simp)
    (by rw [hm7]; simp) (by rw [hu]; norm_num) (hm7'.trans hm7.symm) (hng'.trans hng.symm) (hv'.trans hv.symm)
    (hf'.trans hf.symm) (hu'.trans hu.symm) 3 (by norm_num) (by rw [hcard]; norm_num)
  refine ⟨F, F', v, v', h1, h2, h3, h4, fun i hi => (h5 i hi).trans (le_of_eq ?_)⟩
  have e3 : junctionPlacements squidObjs (oneEdge [4, 0, 2]) = [((0, 1), 0), ((0, 1), 2)] := by decide
  rw [hv, hf, hu, hbd, hl]
  show ((junctionPlacements squidObjs (oneEdge [4, 0, 2])).map _).sum * _ / _ = _
  rw [e3]
  have hpi := Real.pi_pos
  have e4 : |π / 2| = π / 2 := abs_of_pos (by positivity)
  simp only [List.map_cons, List.map_nil, List.sum_cons, List.sum_nil, abs_one, e4]
  field_simp
  norm_num
  ring

end SQ
