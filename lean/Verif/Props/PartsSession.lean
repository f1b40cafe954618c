import Verif.Props.Parts
import Verif.Props.VoltageExample

/-!
# C128: parts of a circuit that share only the ground node, as `diag` reports them
-/

namespace SQ
open Matrix Spec

/-- the levels `diag` reports, all numbers of eigenvalues at once -/
theorem diag_all {c : CircSpec} {eigs : EigsFn} {as : List ℂ → List ℕ} (he : EigsLowest eigs) (ha : CArgsortSpec as)
    {w : World (circPhys c eigs as)} (hm : w.circ.m ≠ []) {k : ℕ} {d : Fin k → ℕ} {H : Op d}
    (hH : (hamiltonian w).1 = .ok ⟨k, d, H⟩) (hherm : H.IsHermitian) :
    ∃ (vs : List (Idx d → ℂ)) (ws : List ℝ), Levels H vs ws ∧
      ∀ num : ℕ, 1 ≤ num → num + 1 < ws.length →
        ∃ v, (diag (some num) w).1 = .ok ((ws.take num).map (fun f => f / (2 * Real.pi * w.unitFreq)), v) := by
  obtain ⟨vs, ws, hl⟩ := levels_exists hherm
  refine ⟨vs, ws, hl, ?_⟩
  intro num h1 hnum
  obtain ⟨vs', ws', ev, w', hl', hd, -⟩ := diag_lowest he ha hm hH hherm num h1 (by rw [← hl.card, ← hl.len]; exact hnum)
  obtain rfl := levels_unique hl hl'
  exact ⟨_, congrArg Prod.fst hd⟩

theorem part_levels {c : CircSpec} {eigs : EigsFn} {as : List ℂ → List ℕ} (he : EigsLowest eigs) (ha : CArgsortSpec as)
    (hs : NoSelfLoops c.els) {vals : ElemId → ℝ} {flux : LoopId → ℝ} {u : ℝ}
    {w0 : World (circPhys c eigs as)} (hw : construct (circPhys c eigs as) vals flux u = .ok w0)
    {h : List Act} (hh : Orderly w0 h) (hm : (run w0 h).circ.m ≠ [])
    {d : Fin (run w0 h).circ.bd.M.keep.length → ℕ} (hd : (run w0 h).circ.bd.dims (run w0 h).circ.m = d)
    {ng : Fin (run w0 h).circ.bd.M.keep.length → ℝ} (hng : (fun i : Fin (run w0 h).circ.bd.M.keep.length => ((run w0 h).circ.ng i).getD 0) = ng) :
    ∃ H : Op d, fullHamiltonian (run w0 h).circ.bd.C (run w0 h).circ.bd.M d ng (run w0 h).vals
        ((run w0 h).circ.bd.fluxes (run w0 h).flux) (run w0 h).circ.bd.inds (run w0 h).circ.bd.juns = .ok H ∧
      ∃ (vs : List (Idx d → ℂ)) (ws : List ℝ), Levels H vs ws ∧
        ∀ num : ℕ, 1 ≤ num → num + 1 < ws.length →
          ∃ v, (diag (some num) (run w0 h)).1 = .ok ((ws.take num).map (fun f => f / (2 * Real.pi * (run w0 h).unitFreq)), v) := by
  subst hd hng
  obtain ⟨-, -, -, hham⟩ := ham_now hs hw hh hm
  have hham' := hham (run w0 h) rfl
  obtain ⟨H1, e1, hherm⟩ := C40_circuit hs vals flux u _ hw h hh hm
  rw [hham'] at e1
  cases hf : fullHamiltonian (run w0 h).circ.bd.C (run w0 h).circ.bd.M ((run w0 h).circ.bd.dims (run w0 h).circ.m)
      (fun i => ((run w0 h).circ.ng i).getD 0) (run w0 h).vals
        ((run w0 h).circ.bd.fluxes (run w0 h).flux) (run w0 h).circ.bd.inds (run w0 h).circ.bd.juns with
  | error e => rw [hf] at e1; exact absurd e1 (by simp [Except.map])
  | ok X =>
    rw [hf] at e1 hham'
    simp only [Except.map] at e1 hham'
    obtain rfl := Except.ok.inj e1
    exact ⟨X, rfl, diag_all he ha hm hham' hherm⟩

/-- the flux does not enter circuits without flux loops -/
theorem isl_flux {c : CircSpec} {n : ℕ} (hi : IslandCircuit c n) (hr : RoutinesOK c) {vals : ElemId → ℝ} (hv : IslandValues c n vals)
    {b : Build} (hb : buildCirc c vals = .ok b) (flux flux' : LoopId → ℝ) (m : Fin b.M.keep.length → ℕ)
    (ng : Fin b.M.keep.length → ℝ) :
    fullHamiltonian b.C b.M m ng vals (b.fluxes flux) b.inds b.juns = fullHamiltonian b.C b.M m ng vals (b.fluxes flux') b.inds b.juns := by
  obtain ⟨-, -, σ, -, -, -, -, hH⟩ := isl_built hi hr hv hb
  rw [hH, hH]

/-- C128 for every reachable state: circuits `cs` and the one circuit that contains all of them on nodes of their own, each
after its own calls. There is a correspondence of the modes of the parts with the modes of the whole such that, with the
same dimension and offset charge on corresponding modes, the levels that `diag` reports for the whole are the sums of those
reported for the parts, one of each, in ascending order. -/
theorem C128_session {eigs : EigsFn} {as : List ℂ → List ℕ} (he : EigsLowest eigs) (ha : CArgsortSpec as)
    (spec : CircId → CircSpec) (sz : CircId → ℕ) (cs : List CircId) (hnd : cs.Nodup) (hne : cs ≠ [])
    (cM : CircSpec) (hi : ∀ c ∈ cs, IslandCircuit (spec c) (sz c)) (hr : ∀ c ∈ cs, RoutinesOK (spec c))
    (hO : ∀ c ∈ cs, (spec c).O = cM.O) (hcaps : CapsOK cM.O)
    (hels : cM.els = mergedEls sz (fun c => (spec c).els) cs []) (hrM : RoutinesOK cM) (nM : ℕ) (hnM : numNodes cM.els = .ok nM)
    (hsum : nM = (cs.map sz).sum)
    (vals : CircId → ElemId → ℝ) (hv : ∀ c ∈ cs, IslandValues (spec c) (sz c) (vals c))
    (valsM : ElemId → ℝ) (hvM : IslandValues cM nM valsM) (flux : CircId → LoopId → ℝ) (fluxM : LoopId → ℝ) (u : CircId → ℝ) (uM : ℝ)
    (w0 : ∀ c, World (circPhys (spec c) eigs as))
    (hw : ∀ c ∈ cs, construct (circPhys (spec c) eigs as) (vals c) (flux c) (u c) = .ok (w0 c))
    (wM0 : World (circPhys cM eigs as)) (hwM : construct (circPhys cM eigs as) valsM fluxM uM = .ok wM0)
    (h : CircId → List Act) (hM : List Act) (hh : ∀ c ∈ cs, Orderly (w0 c) (h c)) (hhM : Orderly wM0 hM)
    (hup : ∀ c ∈ cs, ∀ h1 h2, h c = h1 ++ .update :: h2 → IslandValues (spec c) (sz c) (run (w0 c) h1).vals)
    (hupM : ∀ h1 h2, hM = h1 ++ .update :: h2 → IslandValues cM nM (run wM0 h1).vals) :
    let w := fun c => run (w0 c) (h c)
    let wM := run wM0 hM
    (∀ c ∈ cs, ∀ i, (cM.O.elem i).kind ≠ .jj → (w c).vals i = lastBuilt (vals c) (w0 c) (h c) i) →
    (∀ i, (cM.O.elem i).kind ≠ .jj → wM.vals i = lastBuilt valsM wM0 hM i) →
    (∀ c ∈ cs, IslandValues (spec c) (sz c) wM.vals) → IslandValues cM nM wM.vals → (∀ c ∈ cs, (w c).vals = wM.vals) →
    (∀ c ∈ cs, (w c).circ.m ≠ []) → wM.circ.m ≠ [] →
    ∃ τ : ∀ c, Fin (w c).circ.bd.M.keep.length → Fin wM.circ.bd.M.keep.length,
      Function.Bijective (fun x : (Σ s : Fin cs.length, Fin (w (cs.get s)).circ.bd.M.keep.length) => τ _ x.2) ∧
      ((∀ c ∈ cs, ∀ i : Fin (w c).circ.bd.M.keep.length, ((w c).circ.m.getD i 0).toNat = (wM.circ.m.getD (τ c i) 0).toNat) →
       (∀ c ∈ cs, ∀ i : Fin (w c).circ.bd.M.keep.length, ((w c).circ.ng i).getD 0 = (wM.circ.ng (τ c i)).getD 0) →
       ∃ (ws : CircId → List ℝ) (wsM : List ℝ),
        (∀ c ∈ cs, (ws c).Pairwise (· ≤ ·) ∧ (ws c).length = ∏ i : Fin (w c).circ.bd.M.keep.length, ((w c).circ.m.getD i 0).toNat ∧
          ∀ num : ℕ, 1 ≤ num → num + 1 < (ws c).length →
            ∃ v, (diag (some num) (w c)).1 = .ok (((ws c).take num).map (fun f => f / (2 * Real.pi * (w c).unitFreq)), v)) ∧
        (∀ num : ℕ, 1 ≤ num → num + 1 < wsM.length →
            ∃ v, (diag (some num) wM).1 = .ok ((wsM.take num).map (fun f => f / (2 * Real.pi * wM.unitFreq)), v)) ∧
        wsM.Pairwise (· ≤ ·) ∧
        (wsM : Multiset ℝ) = (Finset.univ : Finset (∀ s : Fin cs.length, Fin (ws (cs.get s)).length)).val.map
              fun x => ∑ s, (ws (cs.get s)).get (x s)) := by
  intro w wM hl hlM hval hvalM hvv hm0 hm0M
  have hg : ∀ g ∈ ([] : List Coupling), ValidCoupling cM.O sz valsM g := by simp
  have hmm : ∀ g ∈ ([] : List Coupling), g.cr1 ∈ cs ∧ g.cr2 ∈ cs := by simp
  have hiM : IslandCircuit cM nM := by
    subst hsum
    exact merged_island hnd hne hi hO hels hg hmm hnM
  have hb : ∀ c ∈ cs, buildCirc (spec c) wM.vals = .ok (w c).circ.bd := by
    intro c hc
    rw [← hvv c hc]
    exact isl_now (hi c hc) (hr c hc) (by rw [hO c hc]; exact hcaps) (hv c hc) (hw c hc) (hh c hc) (hup c hc)
      (by rw [hO c hc]; exact hl c hc)
  have hbM : buildCirc cM wM.vals = .ok wM.circ.bd := isl_now hiM hrM hcaps hvM hwM hhM hupM hlM
  obtain ⟨τ, hτ, hF⟩ := C128_parts spec sz wM.vals cs hnd hne cM hi hr hval hO hels hrM nM hnM hsum hvalM.2
    (fun c => (w c).circ.bd) hb wM.circ.bd hbM
  refine ⟨τ, hτ, ?_⟩
  intro hdim hng
  obtain ⟨HM, hHM, vM, wsM, hlevM, hdM⟩ := part_levels he ha hiM.noSelf hwM hhM hm0M rfl rfl
  have hparts : ∀ c, ∃ (H : Op fun i => wM.circ.bd.dims wM.circ.m (τ c i)) (vs : List (Idx (fun i => wM.circ.bd.dims wM.circ.m (τ c i)) → ℂ))
      (ws : List ℝ), c ∈ cs →
      fullHamiltonian (w c).circ.bd.C (w c).circ.bd.M (fun i => wM.circ.bd.dims wM.circ.m (τ c i))
        (fun i => (wM.circ.ng (τ c i)).getD 0) wM.vals ((w c).circ.bd.fluxes wM.flux) (w c).circ.bd.inds (w c).circ.bd.juns = .ok H ∧
      Levels H vs ws ∧ ws.length = ∏ i : Fin (w c).circ.bd.M.keep.length, ((w c).circ.m.getD i 0).toNat ∧
      ∀ num : ℕ, 1 ≤ num → num + 1 < ws.length →
          ∃ v, (diag (some num) (w c)).1 = .ok ((ws.take num).map (fun f => f / (2 * Real.pi * (w c).unitFreq)), v) := by
    intro c
    by_cases hc : c ∈ cs
    · obtain ⟨H, hH, vs, ws, hlev, hd⟩ := part_levels he ha (hi c hc).noSelf (hw c hc) (hh c hc) (hm0 c hc)
        (d := fun i => wM.circ.bd.dims wM.circ.m (τ c i)) (funext fun i => hdim c hc i)
        (ng := fun i => (wM.circ.ng (τ c i)).getD 0) (funext fun i => hng c hc i)
      refine ⟨H, vs, ws, fun _ => ⟨?_, hlev, ?_, hd⟩⟩
      · have e := isl_flux (hi c hc) (hr c hc) (hval c hc) (hb c hc) wM.flux (w c).flux
          (fun i => wM.circ.bd.dims wM.circ.m (τ c i)) (fun i => (wM.circ.ng (τ c i)).getD 0)
        rw [e, ← hvv c hc]
        exact hH
      · rw [hlev.len, hlev.card, Fintype.card_pi]
        refine Finset.prod_congr rfl fun i _ => ?_
        rw [Fintype.card_fin]
        exact (hdim c hc i).symm
    · exact ⟨0, [], [], fun h => absurd h hc⟩
  choose H vs ws hall using hparts
  refine ⟨ws, wsM, fun c hc => ⟨(hall c hc).2.1.sorted, (hall c hc).2.2.1, (hall c hc).2.2.2⟩, hdM, hlevM.sorted, ?_⟩
  exact hF wM.flux (wM.circ.bd.dims wM.circ.m) (fun i => (wM.circ.ng i).getD 0) H HM (fun c hc => (hall c hc).1) hHM vs ws
    (fun c hc => (hall c hc).2.1) vM wsM hlevM

/-- the lowest sum is the sum of the lowest -/
theorem parts_lowest {N : ℕ} {ws : Fin N → List ℝ} (hs : ∀ s, (ws s).Pairwise (· ≤ ·)) (hne : ∀ s, 0 < (ws s).length)
    {wsM : List ℝ} (hM : wsM.Pairwise (· ≤ ·))
    (h : (wsM : Multiset ℝ) = (Finset.univ : Finset (∀ s, Fin (ws s).length)).val.map fun x => ∑ s, (ws s).get (x s)) :
    0 < wsM.length ∧ wsM.getD 0 0 = ∑ s, (ws s).getD 0 0 := by
  have hget : ∀ s, (ws s).getD 0 0 = (ws s).get ⟨0, hne s⟩ := by
    intro s
    rw [List.getD_eq_getElem?_getD, List.getElem?_eq_getElem (hne s)]
    rfl
  have hmem : ∀ y, y ∈ wsM ↔ ∃ x : ∀ s, Fin (ws s).length, ∑ s, (ws s).get (x s) = y := by
    intro y
    rw [← Multiset.mem_coe, h]
    simp
  have h1 : (∑ s, (ws s).getD 0 0) ∈ wsM := (hmem _).2 ⟨fun s => ⟨0, hne s⟩, Finset.sum_congr rfl fun s _ => (hget s).symm⟩
  have hpos : 0 < wsM.length := List.length_pos_of_mem h1
  refine ⟨hpos, le_antisymm ?_ ?_⟩
  · cases wsM with
    | nil => simp at hpos
    | cons a l =>
      rw [List.getD_cons_zero]
      rcases List.mem_cons.1 h1 with e | e
      · exact e.ge
      · exact List.rel_of_pairwise_cons hM e
  · have h0 : wsM.getD 0 0 ∈ wsM := by
      rw [List.getD_eq_getElem?_getD, List.getElem?_eq_getElem hpos]
      exact List.getElem_mem hpos
    obtain ⟨x, hx⟩ := (hmem _).1 h0
    rw [← hx]
    refine Finset.sum_le_sum fun s _ => ?_
    rw [hget]
    rcases Nat.eq_zero_or_pos (x s : ℕ) with e | e
    · exact le_of_eq (congrArg _ (Fin.ext e.symm))
    · exact List.pairwise_iff_get.1 (hs s) ⟨0, hne s⟩ (x s) e

/-- C128 for freshly constructed circuits: the same truncation number `t` for every mode of the parts and of the whole. The
levels of the whole are the sums of the levels of the parts, and the lowest frequency that `diag` reports is the sum of the
lowest frequencies of the parts. -/
theorem C128_constructed {eigs : EigsFn} {as : List ℂ → List ℕ} (he : EigsLowest eigs) (ha : CArgsortSpec as)
    (spec : CircId → CircSpec) (sz : CircId → ℕ) (cs : List CircId) (hnd : cs.Nodup) (hne : cs ≠ [])
    (cM : CircSpec) (hi : ∀ c ∈ cs, IslandCircuit (spec c) (sz c)) (hr : ∀ c ∈ cs, RoutinesOK (spec c))
    (hO : ∀ c ∈ cs, (spec c).O = cM.O) (hcaps : CapsOK cM.O)
    (hels : cM.els = mergedEls sz (fun c => (spec c).els) cs []) (hrM : RoutinesOK cM) (nM : ℕ) (hnM : numNodes cM.els = .ok nM)
    (hsum : nM = (cs.map sz).sum)
    (vals : ElemId → ℝ) (hv : ∀ c ∈ cs, IslandValues (spec c) (sz c) vals) (hvM : IslandValues cM nM vals)
    (flux : CircId → LoopId → ℝ) (fluxM : LoopId → ℝ) (u : ℝ)
    (w0 : ∀ c, World (circPhys (spec c) eigs as))
    (hw : ∀ c ∈ cs, construct (circPhys (spec c) eigs as) vals (flux c) u = .ok (w0 c))
    (wM0 : World (circPhys cM eigs as)) (hwM : construct (circPhys cM eigs as) vals fluxM u = .ok wM0) (t : ℤ) (ht : 1 ≤ t) :
    let w := fun c => run (w0 c) [.setTruncNums (.list (List.replicate (sz c) t))]
    let wM := run wM0 [.setTruncNums (.list (List.replicate nM t))]
    ∃ (ws : CircId → List ℝ) (wsM : List ℝ),
      (∀ c ∈ cs, (ws c).Pairwise (· ≤ ·) ∧ (ws c).length = (2 * t - 1).toNat ^ sz c ∧
        ∀ num : ℕ, 1 ≤ num → num + 1 < (ws c).length →
          ∃ v, (diag (some num) (w c)).1 = .ok (((ws c).take num).map (fun f => f / (2 * Real.pi * u)), v)) ∧
      wsM.Pairwise (· ≤ ·) ∧ wsM.length = (2 * t - 1).toNat ^ nM ∧
      (∀ num : ℕ, 1 ≤ num → num + 1 < wsM.length →
          ∃ v, (diag (some num) wM).1 = .ok ((wsM.take num).map (fun f => f / (2 * Real.pi * u)), v)) ∧
      (wsM : Multiset ℝ) = (Finset.univ : Finset (∀ s : Fin cs.length, Fin (ws (cs.get s)).length)).val.map
        (fun x => ∑ s, (ws (cs.get s)).get (x s)) ∧
      ((∀ c ∈ cs, 2 < (2 * t - 1).toNat ^ sz c) →
        (reported 1 wM).getD 0 0 = ((cs.map fun c => (reported 1 (w c)).getD 0 0).sum)) := by
  intro w wM
  have hnoup : ∀ (n : ℕ) (h1 h2 : List Act), [Act.setTruncNums (.list (List.replicate n t))] = h1 ++ .update :: h2 → False := by
    intro n h1 h2 he
    match h1, he with
    | [], he => simp at he
    | [_], he => simp at he
    | _ :: _ :: _, he => simp at he
  have hnz : ∀ c ∈ cs, 0 < sz c := by
    intro c hc
    rw [← (hi c hc).square]
    exact List.length_pos_iff.2 (hi c hc).some
  have hiM : IslandCircuit cM nM := by
    subst hsum
    exact merged_island (vals := vals) hnd hne hi hO hels (by simp) (by simp) hnM
  have hnMz : 0 < nM := by
    rw [← hiM.square]
    exact List.length_pos_iff.2 hiM.some
  have hrep : ∀ n : ℕ, 0 < n → List.replicate n (2 * t - 1) ≠ [] := by
    intro n hn h0
    have := congrArg List.length h0
    simp at this
    omega
  have hget : ∀ (n i : ℕ), i < n → (List.replicate n (2 * t - 1)).getD i 0 = 2 * t - 1 := by
    intro n i hin
    rw [List.getD_eq_getElem?_getD, List.getElem?_replicate, if_pos hin]
    rfl
  have hT : ∀ c ∈ cs, _ := fun c hc => isl_truncated (hi c hc) (hr c hc) (hv c hc) (hw c hc) ht
  obtain ⟨hoM, hmM, huM, hvvM, hngM⟩ := isl_truncated hiM hrM hvM hwM ht
  have hk : ∀ c ∈ cs, (w c).circ.bd.M.keep.length = sz c := by
    intro c hc
    have hb := isl_now (hi c hc) (hr c hc) (by rw [hO c hc]; exact hcaps) (hv c hc) (hw c hc) (hT c hc).1
      (fun h1 h2 e => (hnoup _ h1 h2 e).elim) (by intro i _; rw [(hT c hc).2.2.2.1]; rfl)
    rw [(hT c hc).2.2.2.1] at hb
    obtain ⟨h1, h2, -⟩ := isl_built (hi c hc) (hr c hc) (hv c hc) hb
    exact h2.trans h1
  have hkM : wM.circ.bd.M.keep.length = nM := by
    have hb := isl_now hiM hrM hcaps hvM hwM hoM (fun h1 h2 e => (hnoup _ h1 h2 e).elim) (by intro i _; rw [hvvM]; rfl)
    rw [hvvM] at hb
    obtain ⟨h1, h2, -⟩ := isl_built hiM hrM hvM hb
    exact h2.trans h1
  obtain ⟨τ, -, hF⟩ := C128_session he ha spec sz cs hnd hne cM hi hr hO hcaps hels hrM nM hnM hsum (fun _ => vals) hv vals hvM flux fluxM
    (fun _ => u) u w0 hw wM0 hwM (fun c => [.setTruncNums (.list (List.replicate (sz c) t))])
    [.setTruncNums (.list (List.replicate nM t))] (fun c hc => (hT c hc).1) hoM
    (fun c _ h1 h2 e => (hnoup _ h1 h2 e).elim) (fun h1 h2 e => (hnoup _ h1 h2 e).elim)
    (by intro c hc i _; simp only; rw [(hT c hc).2.2.2.1]; rfl) (by intro i _; rw [hvvM]; rfl)
    (by intro c hc; rw [hvvM]; exact hv c hc) (by rw [hvvM]; exact hvM)
    (by intro c hc; rw [hvvM]; exact (hT c hc).2.2.2.1)
    (by intro c hc; simp only; rw [(hT c hc).2.1]; exact hrep _ (hnz c hc)) (by rw [hmM]; exact hrep _ hnMz)
  obtain ⟨ws, wsM, h1, h2, h3, h4⟩ := hF (by
      intro c hc i
      simp only
      rw [(hT c hc).2.1, hmM, hget _ _ (lt_of_lt_of_eq i.2 (hk c hc)), hget _ _ (lt_of_lt_of_eq (τ c i).2 hkM)])
    (by
      intro c hc i
      simp only
      rw [(hT c hc).2.2.2.2, hngM])
  have hlen : ∀ c ∈ cs, (ws c).length = (2 * t - 1).toNat ^ sz c := by
    intro c hc
    rw [(h1 c hc).2.1]
    simp only
    rw [(hT c hc).2.1]
    rw [Finset.prod_congr rfl fun i _ => by rw [hget _ _ (lt_of_lt_of_eq i.2 (hk c hc))]]
    rw [Finset.prod_const, Finset.card_univ, Fintype.card_fin]
    exact congrArg _ (hk c hc)
  have hp : 0 < (2 * t - 1).toNat := by omega
  have hlenM : wsM.length = (2 * t - 1).toNat ^ nM := by
    have e := congrArg Multiset.card h4
    rw [Multiset.coe_card, Multiset.card_map, Finset.card_val, Finset.card_univ, Fintype.card_pi] at e
    rw [e, hsum]
    have e2 : ∀ s : Fin cs.length, Fintype.card (Fin (ws (cs.get s)).length) = (2 * t - 1).toNat ^ sz (cs.get s) := fun s => by
      rw [Fintype.card_fin]; exact hlen _ (List.get_mem _ _)
    rw [Finset.prod_congr rfl fun s _ => e2 s, Finset.prod_pow_eq_pow_sum]
    congr 1
    rw [← List.sum_ofFn]
    congr 1
    rw [List.ofFn_comp' cs.get sz]
    simp
  refine ⟨ws, wsM, fun c hc => ⟨(h1 c hc).1, hlen c hc, ?_⟩, h3, hlenM, ?_, h4, ?_⟩
  · have := (h1 c hc).2.2
    simp only at this
    rw [(hT c hc).2.2.1] at this
    exact this
  · rw [huM] at h2
    exact h2
  · intro hbig
    obtain ⟨hpos, hlow⟩ := parts_lowest (fun s => (h1 _ (List.get_mem cs s)).1) (fun s => by
      rw [hlen _ (List.get_mem cs s)]; exact pow_pos hp _) h3 h4
    have hrepd : ∀ c ∈ cs, (reported 1 (w c)).getD 0 0 = (ws c).getD 0 0 / (2 * Real.pi * u) := by
      intro c hc
      obtain ⟨v, hv1⟩ := (h1 c hc).2.2 1 le_rfl (by rw [hlen c hc]; exact hbig c hc)
      have hx : 0 < (ws c).length := by rw [hlen c hc]; exact pow_pos hp _
      unfold reported
      simp only [w]
      rw [hv1]
      obtain ⟨a, l, e⟩ := List.exists_cons_of_length_pos hx
      rw [e, (hT c hc).2.2.1]
      simp
    have hrepM : (reported 1 wM).getD 0 0 = wsM.getD 0 0 / (2 * Real.pi * u) := by
      obtain ⟨v, hv1⟩ := h2 1 le_rfl (by
        rw [hlenM, hsum]
        obtain ⟨c, l, rfl⟩ := List.exists_cons_of_ne_nil hne
        refine lt_of_lt_of_le (hbig c (by simp)) (Nat.pow_le_pow_right hp ?_)
        simp)
      unfold reported
      rw [hv1]
      obtain ⟨a, l, e⟩ := List.exists_cons_of_length_pos hpos
      rw [e, huM]
      simp
    rw [hrepM, hlow, List.map_congr_left hrepd, Finset.sum_div]
    rw [← List.sum_ofFn]
    congr 1
    rw [List.ofFn_comp' cs.get fun c => (ws c).getD 0 0 / (2 * Real.pi * u)]
    simp

end SQ
