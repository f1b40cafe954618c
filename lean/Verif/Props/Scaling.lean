import Verif.Lemmas.Scaling
import Verif.Props.Relabel
import Verif.Props.Fluxonium

/-!
# C125: scaling all energies scales all frequencies
-/

namespace SQ
open Matrix Spec

/-- frequencies returned by `diag` in two states one of whose Hamiltonians has the spectrum of the other, times `lam` -/
theorem diag_scaled {c c' : CircSpec} {eigs eigs' : EigsFn} {as as' : List ℂ → List ℕ}
    (he : EigsLowest eigs) (ha : CArgsortSpec as) (he' : EigsLowest eigs') (ha' : CArgsortSpec as')
    {w : World (circPhys c eigs as)} {w' : World (circPhys c' eigs' as')}
    (hm : w.circ.m ≠ []) (hm' : w'.circ.m ≠ []) (hu : w'.unitFreq = w.unitFreq) {k k' : ℕ} {d : Fin k → ℕ} {d' : Fin k' → ℕ}
    {H : Op d} {H' : Op d'}
    (hH : (hamiltonian w).1 = .ok ⟨k, d, H⟩) (hH' : (hamiltonian w').1 = .ok ⟨k', d', H'⟩)
    (hherm : H.IsHermitian) (hherm' : H'.IsHermitian) (lam : ℝ)
    (hcard : Fintype.card (Idx d') = Fintype.card (Idx d))
    (hl : ∀ vs ws, Levels H vs ws → ∃ vs', Levels H' vs' (ws.map (lam * ·)))
    (num : ℕ) (h1 : 1 ≤ num) (hnum : num + 1 < Fintype.card (Idx d)) :
    ∃ F v v', (diag (some num) w).1 = .ok (F, v) ∧ (diag (some num) w').1 = .ok (F.map (lam * ·), v') := by
  obtain ⟨vs, ws, ev, w1, hlev, hd, -⟩ := diag_lowest he ha hm hH hherm num h1 hnum
  obtain ⟨vs', ws', ev', w1', hlev', hd', -⟩ := diag_lowest he' ha' hm' hH' hherm' num h1 (by rw [hcard]; exact hnum)
  obtain ⟨vs2, hlev2⟩ := hl vs ws hlev
  have e := levels_unique hlev' hlev2
  subst e
  refine ⟨(ws.take num).map (fun f => f / (2 * Real.pi * w.unitFreq)), ev.map (fun v => ⟨k, d, v⟩),
    ev'.map (fun v => ⟨k', d', v⟩), by rw [hd], ?_⟩
  rw [hd', hu]
  refine congrArg Except.ok (Prod.ext ?_ rfl)
  simp only [← List.map_take, List.map_map]
  refine List.map_congr_left fun f _ => ?_
  simp [mul_div_assoc]

/-- C125: two circuit objects made from the same dictionary of junctions and capacitors without flux loops, in any two
reachable states in which all Josephson energies of the second are `lam` times those of the first and all capacitances are
divided by `lam`. There is a correspondence `π` of the modes (the identity if the charging energies differ), such that with the
same truncation numbers and offset charges of corresponding modes and the same unit of frequency, every frequency returned by
`diag` for the second is `lam` times the one returned for the first. -/
theorem C125_islands {c : CircSpec} {eigs eigs' : EigsFn} {as as' : List ℂ → List ℕ}
    (he : EigsLowest eigs) (ha : CArgsortSpec as) (he' : EigsLowest eigs') (ha' : CArgsortSpec as') {n : ℕ}
    (hi : IslandCircuit c n) (hr : RoutinesOK c) (hcaps : CapsOK c.O)
    (vals vals' : ElemId → ℝ) (hv : IslandValues c n vals) (hv' : IslandValues c n vals') (flux flux' : LoopId → ℝ) (u u' : ℝ)
    (w0 : World (circPhys c eigs as)) (hw : construct (circPhys c eigs as) vals flux u = .ok w0)
    (w0' : World (circPhys c eigs' as')) (hw' : construct (circPhys c eigs' as') vals' flux' u' = .ok w0')
    (h h' : List Act) (hh : Orderly w0 h) (hh' : Orderly w0' h')
    (hup : ∀ h1 h2, h = h1 ++ .update :: h2 → IslandValues c n (run w0 h1).vals)
    (hup' : ∀ h1 h2, h' = h1 ++ .update :: h2 → IslandValues c n (run w0' h1).vals) (lam : ℝ) (hlam : 0 < lam) :
    let w := run w0 h
    let w' := run w0' h'
    let charging (a : Fin n) : ℝ := junctionInvCap (c.O.withVals w.vals) c.els n (a.cast hi.square.symm) (a.cast hi.square.symm)
    (∀ i, (c.O.elem i).kind ≠ .jj → w.vals i = lastBuilt vals w0 h i) →
    (∀ i, (c.O.elem i).kind ≠ .jj → w'.vals i = lastBuilt vals' w0' h' i) →
    IslandValues c n w.vals → IslandValues c n w'.vals → ScaledEnergies c.O lam w.vals w'.vals →
    w.circ.m ≠ [] → w'.circ.m ≠ [] → w'.unitFreq = w.unitFreq →
    ∃ π : Equiv.Perm (Fin n),
      ((∀ a b, a ≠ b → charging a ≠ charging b) → π = 1) ∧
      ((∀ i : Fin n, w'.circ.m.getD (π i) 0 = w.circ.m.getD i 0) →
       (∀ i : Fin n, (w'.circ.ng (π i)).getD 0 = (w.circ.ng i).getD 0) →
       ∀ num : ℕ, 1 ≤ num → num + 1 < ∏ i : Fin n, (w.circ.m.getD i 0).toNat →
         ∃ F v v', (diag (some num) w).1 = .ok (F, v) ∧ (diag (some num) w').1 = .ok (F.map (lam * ·), v')) := by
  intro w w' ch hl hl' hval hval' hsc hm0 hm0' huu
  obtain ⟨w1, hw1, hs1⟩ := C93_session c n hi hr hcaps eigs as vals hv flux u
  obtain rfl : w1 = w0 := by rw [hw] at hw1; exact (Except.ok.inj hw1).symm
  obtain ⟨w2, hw2, hs2⟩ := C93_session c n hi hr hcaps eigs' as' vals' hv' flux' u'
  obtain rfl : w2 = w0' := by rw [hw'] at hw2; exact (Except.ok.inj hw2).symm
  obtain ⟨k, d, σ1, rfl, hd, hord, hH⟩ := hs1 h hh hup hl hval hm0
  obtain ⟨k', d', σ2, hk', hd', hord', hH'⟩ := hs2 h' hh' hup' hl' hval' hm0'
  subst hk'
  change ∀ i, d i = (w.circ.m.getD i 0).toNat at hd
  change ∀ i, d' i = (w'.circ.m.getD i 0).toNat at hd'
  change ∀ i j, junctionInvCap (c.O.withVals w.vals) c.els k' j j < junctionInvCap (c.O.withVals w.vals) c.els k' i i → σ1 i < σ1 j at hord
  change ∀ i j, junctionInvCap (c.O.withVals w'.vals) c.els k' j j < junctionInvCap (c.O.withVals w'.vals) c.els k' i i → σ2 i < σ2 j at hord'
  change (hamiltonian w).1 = .ok ⟨k', d, islandHamiltonian σ1 (junctionInvCap (c.O.withVals w.vals) c.els k')
    (fun i => edgeEJ c.O c.els w.vals ((junctionEdges c.O c.els).get i)) d (fun p => (w.circ.ng p).getD 0)⟩ at hH
  change (hamiltonian w').1 = .ok ⟨k', d', islandHamiltonian σ2 (junctionInvCap (c.O.withVals w'.vals) c.els k')
    (fun i => edgeEJ c.O c.els w'.vals ((junctionEdges c.O c.els).get i)) d' (fun p => (w'.circ.ng p).getD 0)⟩ at hH'
  obtain ⟨b1, hb1, -⟩ := C93_constructed c k' hi hr w.vals hval
  obtain ⟨-, -, -, -, hP1, -⟩ := isl_built hi hr hval hb1
  have hG := invCap_scaled hcaps hlam hsc c.els k' hP1
  have hE : (fun i => edgeEJ c.O c.els w'.vals ((junctionEdges c.O c.els).get i)) =
      fun i => lam * edgeEJ c.O c.els w.vals ((junctionEdges c.O c.els).get i) := by
    funext i
    exact edgeEJ_scaled hsc _ _
  obtain ⟨H1, e1, hherm⟩ := C40_circuit hi.noSelf vals flux u _ hw h hh hm0
  change (hamiltonian w).1 = _ at e1
  rw [hH] at e1
  obtain rfl := Except.ok.inj e1
  obtain ⟨H2, e2, hherm'⟩ := C40_circuit hi.noSelf vals' flux' u' _ hw' h' hh' hm0'
  change (hamiltonian w').1 = _ at e2
  rw [hH'] at e2
  obtain rfl := Except.ok.inj e2
  let π : Equiv.Perm (Fin k') := σ1.symm.trans σ2
  have hπ : ∀ i, π (σ1 i) = σ2 i := by
    intro i
    simp [π]
  refine ⟨π, ?_, ?_⟩
  · intro hne
    have hmono : StrictMono π := by
      intro a b hab
      obtain ⟨i, rfl⟩ := σ1.surjective a
      obtain ⟨j, rfl⟩ := σ1.surjective b
      have hij : i ≠ j := by rintro rfl; exact lt_irrefl _ hab
      rw [hπ, hπ]
      rcases lt_or_gt_of_ne (hne (i.cast hi.square) (j.cast hi.square)
        (fun e => hij (Fin.ext (by simpa using congrArg Fin.val e)))) with h1 | h1
      · exact absurd (hord j i h1) (not_lt.2 hab.le)
      · refine hord' i j ?_
        rw [hG]
        exact mul_lt_mul_of_pos_left h1 hlam
    have : (⟨π, hmono.le_iff_le⟩ : Fin k' ≃o Fin k') = OrderIso.refl _ := Subsingleton.elim _ _
    ext a
    have h2 := congrArg (fun f : Fin k' ≃o Fin k' => ((f a : Fin k') : ℕ)) this
    exact h2
  · intro hmm hng num h1 hnum
    have hdd : d = fun a => d' (π a) := by
      funext a
      rw [hd, hd', hmm a]
    subst hdd
    have hrel := relabel_islands π (fun _ => false) d' σ1 σ2 (Equiv.refl _) hπ
      (junctionInvCap (c.O.withVals w.vals) c.els k') (junctionInvCap (c.O.withVals w.vals) c.els k')
      (fun i => edgeEJ c.O c.els w.vals ((junctionEdges c.O c.els).get i))
      (fun i => edgeEJ c.O c.els w.vals ((junctionEdges c.O c.els).get i))
      (by intro i j; simp [flipSign]) (fun i => rfl)
      (fun p => (w.circ.ng p).getD 0) (fun p => (w'.circ.ng p).getD 0) (by intro a; rw [hng]; simp [flipSign])
    have hcard : Fintype.card (Idx d') = Fintype.card (Idx fun a => d' (π a)) :=
      Fintype.card_congr (relIdx π (fun _ => false) d')
    refine diag_scaled he ha he' ha' hm0 hm0' huu hH hH' hherm hherm' lam hcard ?_ num h1 ?_
    · intro vs ws hlev
      obtain ⟨vs2, hlev2⟩ := levels_reindex (relIdx π (fun _ => false) d') hlev
      rw [hrel] at hlev2
      rw [hG, hE]
      exact ⟨vs2, levels_island_scaled hlam.le hlev2⟩
    · rw [Fintype.card_pi]
      simp only [Fintype.card_fin, hd]
      exact hnum

/-- C125 for freshly constructed circuits, with the same truncation number `t` for every mode. -/
theorem C125_constructed {c : CircSpec} {eigs : EigsFn} {as : List ℂ → List ℕ}
    (he : EigsLowest eigs) (ha : CArgsortSpec as) {n : ℕ} (hn : 0 < n)
    (hi : IslandCircuit c n) (hr : RoutinesOK c) (hcaps : CapsOK c.O)
    (vals vals' : ElemId → ℝ) (hv : IslandValues c n vals) (hv' : IslandValues c n vals') (lam : ℝ) (hlam : 0 < lam)
    (hsc : ScaledEnergies c.O lam vals vals') (flux flux' : LoopId → ℝ) (u : ℝ)
    (w0 : World (circPhys c eigs as)) (hw : construct (circPhys c eigs as) vals flux u = .ok w0)
    (w0' : World (circPhys c eigs as)) (hw' : construct (circPhys c eigs as) vals' flux' u = .ok w0')
    (t : ℤ) (ht : 1 ≤ t) (num : ℕ) (h1 : 1 ≤ num) (hnum : num + 1 < (2 * t - 1).toNat ^ n) :
    ∃ F v v', (diag (some num) (run w0 [.setTruncNums (.list (List.replicate n t))])).1 = .ok (F, v) ∧
      (diag (some num) (run w0' [.setTruncNums (.list (List.replicate n t))])).1 = .ok (F.map (lam * ·), v') := by
  obtain ⟨ho, hm, hu, hvv, hng⟩ := isl_truncated hi hr hv hw ht
  obtain ⟨ho', hm', hu', hvv', hng'⟩ := isl_truncated hi hr hv' hw' ht
  have hnoup : ∀ (h1 h2 : List Act), [Act.setTruncNums (.list (List.replicate n t))] = h1 ++ .update :: h2 → False := by
    intro h1 h2 he
    match h1, he with
    | [], he => simp at he
    | [_], he => simp at he
    | _ :: _ :: _, he => simp at he
  have hne : List.replicate n (2 * t - 1) ≠ [] := by
    intro h0
    have := congrArg List.length h0
    simp at this
    omega
  obtain ⟨π, -, hF⟩ := C125_islands he ha he ha hi hr hcaps vals vals' hv hv' flux flux' u u
    w0 hw w0' hw' _ _ ho ho' (fun h1 h2 e => (hnoup h1 h2 e).elim) (fun h1 h2 e => (hnoup h1 h2 e).elim) lam hlam
    (by intro i _; rw [hvv]; rfl) (by intro i _; rw [hvv']; rfl) (by rw [hvv]; exact hv) (by rw [hvv']; exact hv')
    (by rw [hvv, hvv']; exact hsc)
    (by rw [hm]; exact hne) (by rw [hm']; exact hne) (by rw [hu, hu'])
  have hget : ∀ i : Fin n, (List.replicate n (2 * t - 1)).getD (i : ℕ) 0 = 2 * t - 1 := by
    intro i
    rw [List.getD_eq_getElem?_getD, List.getElem?_replicate, if_pos i.2]
    rfl
  refine hF ?_ ?_ num h1 ?_
  · intro i
    rw [hm, hm', hget, hget]
  · intro i
    rw [hng, hng']
  · rw [hm]
    simp only [hget]
    simpa using hnum

/-- C125, fluxonium: in any two reachable states of fluxonium objects with the same external flux, truncation number and unit,
in which the Josephson energy of the second is `lam` times that of the first and inductance and capacitances are divided by
`lam`, every frequency returned by `diag` for the second is `lam` times the one returned for the first. (The signs of the phase
that the eigensolver happened to choose may differ.) -/
theorem C125_fluxonium {eigs : EigsFn} {as : List ℂ → List ℕ} (he : EigsLowest eigs) (ha : CArgsortSpec as)
    (torch torch' : Bool) (lo lo' : LoopId → LoopObj) (lib lib' : ∀ n, NumLib n)
    (hlib : ∀ n, ∀ C L : Matrix (Fin n) (Fin n) ℝ, C.PosDef → L.PosSemidef → LibSpec (lib n) C L)
    (hlib' : ∀ n, ∀ C L : Matrix (Fin n) (Fin n) ℝ, C.PosDef → L.PosSemidef → LibSpec (lib' n) C L)
    (sv : SvdFn) (hsv : SvdSpec sv) (argsort : ArgsortFn) (argmax : ∀ k, ArgmaxFn k)
    (hm : ∀ k, ArgmaxSpec (argmax k)) (draws draws' : Draws) (vals vals' : ElemId → ℝ)
    (hv : FluxoniumValues vals) (hv' : FluxoniumValues vals') (flux flux' : LoopId → ℝ) (u u' : ℝ)
    (w0 : World (circPhys (fluxoniumSpec torch lo lib sv argsort argmax draws) eigs as))
    (hw : construct (circPhys (fluxoniumSpec torch lo lib sv argsort argmax draws) eigs as) vals flux u = .ok w0)
    (w0' : World (circPhys (fluxoniumSpec torch' lo' lib' sv argsort argmax draws') eigs as))
    (hw' : construct (circPhys (fluxoniumSpec torch' lo' lib' sv argsort argmax draws') eigs as) vals' flux' u' = .ok w0')
    (h h' : List Act) (hh : Orderly w0 h) (hh' : Orderly w0' h')
    (hup : ∀ h1 h2, h = h1 ++ .update :: h2 → FluxoniumValues (run w0 h1).vals)
    (hup' : ∀ h1 h2, h' = h1 ++ .update :: h2 → FluxoniumValues (run w0' h1).vals) (lam : ℝ) (hlam : 0 < lam) :
    let w := run w0 h
    let w' := run w0' h'
    (∀ i, i ≠ 2 → w.vals i = lastBuilt vals w0 h i) → (∀ i, i ≠ 2 → w'.vals i = lastBuilt vals' w0' h' i) →
    FluxoniumValues w.vals → FluxoniumValues w'.vals → ScaledEnergies fluxoniumObjs lam w.vals w'.vals →
    w'.flux 0 = w.flux 0 → w.circ.m ≠ [] → w'.circ.m ≠ [] → w'.circ.m.getD 0 0 = w.circ.m.getD 0 0 →
    w'.unitFreq = w.unitFreq →
    ∀ num : ℕ, 1 ≤ num → num + 1 < (w.circ.m.getD 0 0).toNat →
      ∃ F v v', (diag (some num) w).1 = .ok (F, v) ∧ (diag (some num) w').1 = .ok (F.map (lam * ·), v') := by
  intro w w' hl hl' hval hval' hsc hfl hm0 hm0' hmm huu num h1 hnum
  obtain ⟨w1, hw1, hs1⟩ := C80_session torch lo lib hlib sv hsv argsort argmax hm draws eigs as vals hv flux u
  obtain rfl : w1 = w0 := by rw [hw] at hw1; exact (Except.ok.inj hw1).symm
  obtain ⟨w2, hw2, hs2⟩ := C80_session torch' lo' lib' hlib' sv hsv argsort argmax hm draws' eigs as vals' hv' flux' u'
  obtain rfl : w2 = w0' := by rw [hw'] at hw2; exact (Except.ok.inj hw2).symm
  obtain ⟨k, d, s, rfl, hd, hs, hH⟩ := hs1 h hh hup hl hval hm0
  obtain ⟨k', d', s', rfl, hd', hs', hH'⟩ := hs2 h' hh' hup' hl' hval' hm0'
  have hH := hH 0
  have hH' := hH' 0
  change (hamiltonian w).1 = .ok ⟨1, d, fluxoniumHamiltonian d 0 (w.vals 0) (w.vals 1 + w.vals 3) (w.vals 2) s (- w.flux 0)⟩ at hH
  change (hamiltonian w').1 = .ok ⟨1, d', fluxoniumHamiltonian d' 0 (w'.vals 0) (w'.vals 1 + w'.vals 3) (w'.vals 2) s'
    (- w'.flux 0)⟩ at hH'
  have hdd : d' = d := by
    funext i
    have hi0 : i = 0 := Subsingleton.elim _ _
    subst hi0
    rw [hd, hd']
    exact congrArg Int.toNat hmm
  subst hdd
  obtain ⟨H1, e1, hherm⟩ := C40_circuit (fx_good torch lo hlib sv argsort hm draws hv.1 hv.2.1 hv.2.2.1).noSelf vals flux u _ hw h hh hm0
  change (hamiltonian w).1 = _ at e1
  rw [hH] at e1
  obtain rfl := Except.ok.inj e1
  obtain ⟨H2, e2, hherm'⟩ := C40_circuit (fx_good torch' lo' hlib' sv argsort hm draws' hv'.1 hv'.2.1 hv'.2.2.1).noSelf vals' flux' u' _ hw' h' hh' hm0'
  change (hamiltonian w').1 = _ at e2
  rw [hH'] at e2
  obtain rfl := Except.ok.inj e2
  refine diag_scaled he ha he ha hm0 hm0' huu hH hH' hherm hherm' lam rfl ?_ num h1 ?_
  · intro vs ws hlev
    obtain ⟨vs2, hlev2⟩ := fluxonium_levels d' 0 _ _ _ s s' _ hs hs' hlev
    have e0 : w'.vals 0 = w.vals 0 / lam := hsc.2 0 (by simp [fluxoniumObjs])
    have e1 : w'.vals 1 = w.vals 1 / lam := hsc.2 1 (by simp [fluxoniumObjs])
    have e3 : w'.vals 3 = w.vals 3 / lam := hsc.2 3 (by simp [fluxoniumObjs])
    have e2 : w'.vals 2 = lam * w.vals 2 := hsc.1 2 (by simp [fluxoniumObjs])
    rw [e0, e1, e2, e3, hfl, ← add_div, fluxoniumHamiltonian_scaled _ _ _ _ _ _ _ hlam]
    exact ⟨vs2, levels_scale hlev2 hlam.le⟩
  · rw [Fintype.card_pi]
    simp only [Fintype.card_fin, Finset.univ_unique, Finset.prod_singleton, hd]
    exact hnum

end SQ
