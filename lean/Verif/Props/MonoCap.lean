import Verif.Lemmas.MonoCap
import Verif.Props.Relabel

/-!
# C121: more capacitance never raises a level
-/

namespace SQ
open Matrix Spec

theorem submatrix_quad {q k : ℕ} (σ : Fin q ≃ Fin k) (G : Matrix (Fin q) (Fin q) ℝ) (p : Fin k → ℝ) :
    p ⬝ᵥ (G.submatrix σ.symm σ.symm *ᵥ p) = (p ∘ σ) ⬝ᵥ (G *ᵥ (p ∘ σ)) := by
  simp only [dotProduct, mulVec, submatrix_apply, Function.comp]
  rw [← σ.sum_comp]
  refine Finset.sum_congr rfl fun i _ => ?_
  rw [← σ.sum_comp]
  simp only [Equiv.symm_apply_apply]

/-- C121: let a circuit of junctions and capacitors without flux loops be given, and a second one with the same junctions and at
least the same capacitors, none of them smaller (capacitances were increased, or capacitors were added in parallel or on new
edges). There is a correspondence `π` of the modes (the identity if both order the modes in the same way by charging energy),
such that in any two reachable states with the same unit of frequency, the same truncation numbers and the same offset charges
of corresponding modes, no frequency returned by `diag` is higher in the second circuit. -/
theorem C121_capacitors {c c' : CircSpec} {eigs eigs' : EigsFn} {as as' : List ℂ → List ℕ}
    (he : EigsLowest eigs) (ha : CArgsortSpec as) (he' : EigsLowest eigs') (ha' : CArgsortSpec as') {n : ℕ}
    (hi : IslandCircuit c n) (hi' : IslandCircuit c' n) (hr : RoutinesOK c) (hr' : RoutinesOK c') (hO : c'.O = c.O)
    (hcaps : CapsOK c.O) (hmore : MoreCapacitors c.O c.els c'.els)
    (vals vals' : ElemId → ℝ) (hv : IslandValues c n vals) (hv' : IslandValues c' n vals') (flux flux' : LoopId → ℝ) (u u' : ℝ)
    (w0 : World (circPhys c eigs as)) (hw : construct (circPhys c eigs as) vals flux u = .ok w0)
    (w0' : World (circPhys c' eigs' as')) (hw' : construct (circPhys c' eigs' as') vals' flux' u' = .ok w0')
    (h h' : List Act) (hh : Orderly w0 h) (hh' : Orderly w0' h')
    (hup : ∀ h1 h2, h = h1 ++ .update :: h2 → IslandValues c n (run w0 h1).vals)
    (hup' : ∀ h1 h2, h' = h1 ++ .update :: h2 → IslandValues c' n (run w0' h1).vals) :
    let w := run w0 h
    let w' := run w0' h'
    let charging (a : Fin n) : ℝ := junctionInvCap (c.O.withVals w.vals) c.els n (a.cast hi.square.symm) (a.cast hi.square.symm)
    let charging' (a : Fin n) : ℝ := junctionInvCap (c'.O.withVals w'.vals) c'.els n (a.cast hi'.square.symm) (a.cast hi'.square.symm)
    (∀ i, (c.O.elem i).kind ≠ .jj → w.vals i = lastBuilt vals w0 h i) →
    (∀ i, (c.O.elem i).kind ≠ .jj → w'.vals i = lastBuilt vals' w0' h' i) →
    IslandValues c n w.vals → IslandValues c' n w'.vals → LargerCaps c.O w.vals w'.vals →
    w.circ.m ≠ [] → w'.circ.m ≠ [] → w'.unitFreq = w.unitFreq → 0 < w.unitFreq →
    ∃ π : Equiv.Perm (Fin n),
      ((∀ a b, a ≠ b → (charging a < charging b ∧ charging' a < charging' b) ∨ (charging b < charging a ∧ charging' b < charging' a)) →
        π = 1) ∧
      ((∀ i : Fin n, w'.circ.m.getD (π i) 0 = w.circ.m.getD i 0) →
       (∀ i : Fin n, (w'.circ.ng (π i)).getD 0 = (w.circ.ng i).getD 0) →
       ∀ num : ℕ, 1 ≤ num → num + 1 < ∏ i : Fin n, (w.circ.m.getD i 0).toNat →
         ∃ F F' v v', (diag (some num) w).1 = .ok (F, v) ∧ (diag (some num) w').1 = .ok (F', v') ∧
           List.Forall₂ (fun f f' => f' ≤ f) F F') := by
  intro w w' ch ch' hl hl' hval hval' hlarge hm0 hm0' huu hu0
  obtain ⟨w1, hw1, hs1⟩ := C93_session c n hi hr hcaps eigs as vals hv flux u
  obtain rfl : w1 = w0 := by rw [hw] at hw1; exact (Except.ok.inj hw1).symm
  obtain ⟨w2, hw2, hs2⟩ := C93_session c' n hi' hr' (by rw [hO]; exact hcaps) eigs' as' vals' hv' flux' u'
  obtain rfl : w2 = w0' := by rw [hw'] at hw2; exact (Except.ok.inj hw2).symm
  obtain ⟨k, d, σ1, rfl, hd, hord, hH⟩ := hs1 h hh hup hl hval hm0
  obtain ⟨k', d', σ2, hk', hd', hord', hH'⟩ := hs2 h' hh' hup' (by rw [hO]; exact hl') hval' hm0'
  subst hk'
  change ∀ i, d i = (w.circ.m.getD i 0).toNat at hd
  change ∀ i, d' i = (w'.circ.m.getD i 0).toNat at hd'
  change ∀ i j, junctionInvCap (c.O.withVals w.vals) c.els k' j j < junctionInvCap (c.O.withVals w.vals) c.els k' i i → σ1 i < σ1 j at hord
  change ∀ i j, junctionInvCap (c'.O.withVals w'.vals) c'.els k' j j < junctionInvCap (c'.O.withVals w'.vals) c'.els k' i i → σ2 i < σ2 j at hord'
  change (hamiltonian w).1 = .ok ⟨k', d, islandHamiltonian σ1 (junctionInvCap (c.O.withVals w.vals) c.els k')
    (fun i => edgeEJ c.O c.els w.vals ((junctionEdges c.O c.els).get i)) d (fun p => (w.circ.ng p).getD 0)⟩ at hH
  change (hamiltonian w').1 = .ok ⟨k', d', islandHamiltonian σ2 (junctionInvCap (c'.O.withVals w'.vals) c'.els k')
    (fun i => edgeEJ c'.O c'.els w'.vals ((junctionEdges c'.O c'.els).get i)) d' (fun p => (w'.circ.ng p).getD 0)⟩ at hH'
  -- the capacitance matrices
  obtain ⟨b1, hb1, -⟩ := C93_constructed c k' hi hr w.vals hval
  obtain ⟨b2, hb2, -⟩ := C93_constructed c' k' hi' hr' w'.vals hval'
  obtain ⟨-, -, -, -, hP1, -⟩ := isl_built hi hr hval hb1
  obtain ⟨-, -, -, -, hP2, -⟩ := isl_built hi' hr' hval' hb2
  -- the second circuit in terms of the objects of the first
  let τ : Fin (junctionEdges c.O c.els).length ≃ Fin (junctionEdges c'.O c'.els).length :=
    finCongr (by rw [hO]; exact congrArg List.length hmore.junctions.symm)
  have hτ : ∀ i, ((τ i : Fin _) : ℕ) = i := fun i => rfl
  have hE : ∀ i, edgeEJ c'.O c'.els w'.vals ((junctionEdges c'.O c'.els).get (τ i)) =
      edgeEJ c.O c.els w.vals ((junctionEdges c.O c.els).get i) := by
    intro i
    have e1 : (junctionEdges c'.O c'.els).get (τ i) = (junctionEdges c.O c.els).get i := by
      simp only [List.get_eq_getElem, hτ]
      exact List.getElem_of_eq (by rw [hO]; exact hmore.junctions) _
    rw [e1, hO]
    exact edgeEJ_more hmore hlarge _
  have hQ : ∀ p, p ⬝ᵥ (Matrix.of (fun i j => junctionInvCap (c'.O.withVals w'.vals) c'.els k' (τ i) (τ j)) *ᵥ p) ≤
      p ⬝ᵥ (junctionInvCap (c.O.withVals w.vals) c.els k' *ᵥ p) := by
    have gen : ∀ (O' : Objs) (hO' : O' = c.O) (t : Fin (junctionEdges c.O c.els).length → Fin (junctionEdges O' c'.els).length)
        (ht : ∀ i, ((t i : Fin _) : ℕ) = i) (hpos : PositiveCaps (O'.withVals w'.vals) c'.els)
        (hP : (capacitances (O'.withVals w'.vals) c'.els k').PosDef) (p : Fin (junctionEdges c.O c.els).length → ℝ),
        p ⬝ᵥ (Matrix.of (fun i j => junctionInvCap (O'.withVals w'.vals) c'.els k' (t i) (t j)) *ᵥ p) ≤
          p ⬝ᵥ (junctionInvCap (c.O.withVals w.vals) c.els k' *ᵥ p) := by
      rintro _ rfl t ht hpos hP p
      have e : t = moreEdges hmore := by
        funext i
        exact Fin.ext (ht i)
      subst e
      exact invCap_le hcaps hmore hlarge hpos k' hP1 hP p
    exact gen c'.O hO τ hτ hval'.1 hP2
  let π : Equiv.Perm (Fin k') := (σ1.symm.trans τ).trans σ2
  have hπ : ∀ i, π (σ1 i) = σ2 (τ i) := by
    intro i
    simp [π]
  refine ⟨π, ?_, ?_⟩
  · intro hne
    have hmono : StrictMono π := by
      intro a b hab
      obtain ⟨i, rfl⟩ := σ1.surjective a
      obtain ⟨j, rfl⟩ := σ1.surjective b
      have hij : i ≠ j := by rintro rfl; exact lt_irrefl _ hab
      rw [hπ, hπ]
      rcases hne (i.cast hi.square) (j.cast hi.square) (fun e => hij (Fin.ext (by simpa using congrArg Fin.val e))) with ⟨h1, -⟩ | ⟨-, h2⟩
      · exact absurd (hord j i h1) (not_lt.2 hab.le)
      · exact hord' (τ i) (τ j) h2
    have : (⟨π, hmono.le_iff_le⟩ : Fin k' ≃o Fin k') = OrderIso.refl _ := Subsingleton.elim _ _
    ext a
    have h2 := congrArg (fun f : Fin k' ≃o Fin k' => ((f a : Fin k') : ℕ)) this
    exact h2
  · intro hmm hng num h1 hnum
    have hdd : d = fun a => d' (π a) := by
      funext a
      rw [hd, hd', hmm a]
    subst hdd
    have hrel := relabel_islands π (fun _ => false) d' σ1 σ2 τ hπ
      (Matrix.of (fun i j => junctionInvCap (c'.O.withVals w'.vals) c'.els k' (τ i) (τ j)))
      (junctionInvCap (c'.O.withVals w'.vals) c'.els k')
      (fun i => edgeEJ c.O c.els w.vals ((junctionEdges c.O c.els).get i))
      (fun i => edgeEJ c'.O c'.els w'.vals ((junctionEdges c'.O c'.els).get i))
      (by intro i j; simp [flipSign]) hE
      (fun p => (w.circ.ng p).getD 0) (fun p => (w'.circ.ng p).getD 0) (by intro a; rw [hng]; simp [flipSign])
    have hcard : Fintype.card (Idx fun a => d' (π a)) = Fintype.card (Idx d') :=
      Fintype.card_congr (relIdx π (fun _ => false) d').symm
    have hnum1 : num + 1 < Fintype.card (Idx fun a => d' (π a)) := by
      rw [Fintype.card_pi]
      simp only [Fintype.card_fin, hd]
      exact hnum
    obtain ⟨H1, e1, hherm⟩ := C40_circuit hi.noSelf vals flux u _ hw h hh hm0
    change (hamiltonian w).1 = _ at e1
    rw [hH] at e1
    obtain rfl := Except.ok.inj e1
    obtain ⟨H2, e2, hherm'⟩ := C40_circuit hi'.noSelf vals' flux' u' _ hw' h' hh' hm0'
    change (hamiltonian w').1 = _ at e2
    rw [hH'] at e2
    obtain rfl := Except.ok.inj e2
    obtain ⟨vs, ws, ev, x1, hlev, hdg, -⟩ := diag_lowest he ha hm0 hH hherm num h1 hnum1
    obtain ⟨vs', ws', ev', x2, hlev', hdg', -⟩ := diag_lowest he' ha' hm0' hH' hherm' num h1 (by rw [← hcard]; exact hnum1)
    obtain ⟨vs2, hlev2⟩ := levels_reindex (relIdx π (fun _ => false) d').symm hlev'
    have hsub : (islandHamiltonian σ2 (junctionInvCap (c'.O.withVals w'.vals) c'.els k')
        (fun i => edgeEJ c'.O c'.els w'.vals ((junctionEdges c'.O c'.els).get i)) d' (fun p => (w'.circ.ng p).getD 0)).submatrix
          (relIdx π (fun _ => false) d').symm (relIdx π (fun _ => false) d').symm =
        islandHamiltonian σ1 (Matrix.of (fun i j => junctionInvCap (c'.O.withVals w'.vals) c'.els k' (τ i) (τ j)))
          (fun i => edgeEJ c.O c.els w.vals ((junctionEdges c.O c.els).get i)) (fun a => d' (π a)) (fun p => (w.circ.ng p).getD 0) := by
      rw [← hrel, submatrix_submatrix]
      simp
    rw [hsub] at hlev2
    have hle := levels_le hlev hlev2 (fun v => by
      unfold islandHamiltonian
      refine braket_pairs_le _ _ (fun p => ?_) _ v
      refine (submatrix_quad σ1 _ p).trans_le (le_of_le_of_eq (hQ (p ∘ σ1)) ?_)
      exact (submatrix_quad σ1 _ p).symm)
    refine ⟨_, _, ev.map (fun v => ⟨k', fun a => d' (π a), v⟩), ev'.map (fun v => ⟨k', d', v⟩), by rw [hdg], by rw [hdg'], ?_⟩
    have hlen1 : ws.length = Fintype.card (Idx fun a => d' (π a)) := hlev.len.trans hlev.card
    have hlen2 : ws'.length = Fintype.card (Idx fun a => d' (π a)) := hlev2.len.trans hlev2.card
    rw [List.forall₂_iff_get]
    refine ⟨by simp [hlen1, hlen2], ?_⟩
    intro i hi1 hi2
    have hj1 : i < ws.length := by
      have := hi1
      rw [List.length_map, List.length_take] at this
      omega
    have hj2 : i < ws'.length := by omega
    have h3 := hle i
    rw [List.getD_eq_getElem?_getD, List.getD_eq_getElem?_getD, List.getElem?_eq_getElem hj1, List.getElem?_eq_getElem hj2] at h3
    simp only [List.get_eq_getElem, List.getElem_map, List.getElem_take]
    have h4 : ∀ x : ℝ, x = w.unitFreq → ws'[i] / (2 * Real.pi * x) ≤ ws[i] / (2 * Real.pi * w.unitFreq) := by
      rintro _ rfl
      exact div_le_div_of_nonneg_right h3 (by have := Real.pi_pos; positivity)
    exact h4 _ huu

/-- C121 for freshly constructed circuits, with the same truncation number `t` for every mode. -/
theorem C121_constructed {c c' : CircSpec} {eigs eigs' : EigsFn} {as as' : List ℂ → List ℕ}
    (he : EigsLowest eigs) (ha : CArgsortSpec as) (he' : EigsLowest eigs') (ha' : CArgsortSpec as') {n : ℕ} (hn : 0 < n)
    (hi : IslandCircuit c n) (hi' : IslandCircuit c' n) (hr : RoutinesOK c) (hr' : RoutinesOK c') (hO : c'.O = c.O)
    (hcaps : CapsOK c.O) (hmore : MoreCapacitors c.O c.els c'.els)
    (vals vals' : ElemId → ℝ) (hv : IslandValues c n vals) (hv' : IslandValues c' n vals') (hlarge : LargerCaps c.O vals vals')
    (flux flux' : LoopId → ℝ) (u : ℝ) (hu0 : 0 < u)
    (w0 : World (circPhys c eigs as)) (hw : construct (circPhys c eigs as) vals flux u = .ok w0)
    (w0' : World (circPhys c' eigs' as')) (hw' : construct (circPhys c' eigs' as') vals' flux' u = .ok w0')
    (t : ℤ) (ht : 1 ≤ t) (num : ℕ) (h1 : 1 ≤ num) (hnum : num + 1 < (2 * t - 1).toNat ^ n) :
    ∃ F F' v v', (diag (some num) (run w0 [.setTruncNums (.list (List.replicate n t))])).1 = .ok (F, v) ∧
      (diag (some num) (run w0' [.setTruncNums (.list (List.replicate n t))])).1 = .ok (F', v') ∧
      List.Forall₂ (fun f f' => f' ≤ f) F F' := by
  obtain ⟨ho, hm, hu, hvv, hng⟩ := isl_truncated hi hr hv hw ht
  obtain ⟨ho', hm', hu', hvv', hng'⟩ := isl_truncated hi' hr' hv' hw' ht
  have hnoup : ∀ (h1 h2 : List Act), [Act.setTruncNums (.list (List.replicate n t))] = h1 ++ .update :: h2 → False := by
    intro h1 h2 he
    match h1, he with
    | [], he => simp at he
    | [_], he => simp at he
    | _ :: _ :: _, he => simp at he
  have hne : List.replicate n (2 * t - 1) ≠ [] := by
    intro h0
    have := congrArg List.length h0
    simp at this
    omega
  obtain ⟨π, -, hF⟩ := C121_capacitors he ha he' ha' hi hi' hr hr' hO hcaps hmore vals vals' hv hv' flux flux' u u
    w0 hw w0' hw' _ _ ho ho' (fun h1 h2 e => (hnoup h1 h2 e).elim) (fun h1 h2 e => (hnoup h1 h2 e).elim)
    (by intro i _; rw [hvv]; rfl) (by intro i _; rw [hvv']; rfl) (by rw [hvv]; exact hv) (by rw [hvv']; exact hv')
    (by rw [hvv, hvv']; exact hlarge)
    (by rw [hm]; exact hne) (by rw [hm']; exact hne) (by rw [hu, hu']) (by rw [hu]; exact hu0)
  have hget : ∀ i : Fin n, (List.replicate n (2 * t - 1)).getD (i : ℕ) 0 = 2 * t - 1 := by
    intro i
    rw [List.getD_eq_getElem?_getD, List.getElem?_replicate, if_pos i.2]
    rfl
  refine hF ?_ ?_ num h1 ?_
  · intro i
    rw [hm, hm', hget, hget]
  · intro i
    rw [hng, hng']
  · rw [hm]
    simp only [hget]
    simpa using hnum

/-- the hypotheses can be met: the two coupled islands of `C93_example`, and the same circuit with a shunt capacitor added on
the first island; three charge states each -/
theorem C121_example : ∃ (c c' : CircSpec) (eigs : EigsFn) (as : List ℂ → List ℕ) (w0 : World (circPhys c eigs as))
    (w0' : World (circPhys c' eigs as)), EigsLowest eigs ∧ CArgsortSpec as ∧ c'.O = c.O ∧
    c.els = [((0, 1), [0]), ((0, 2), [2]), ((1, 2), [4])] ∧ c'.els = [((0, 1), [0, 5]), ((0, 2), [2]), ((1, 2), [4])] ∧
    MoreCapacitors c.O c.els c'.els ∧
    construct (circPhys c eigs as) twoVals (fun _ => 0) 1 = .ok w0 ∧ construct (circPhys c' eigs as) twoVals (fun _ => 0) 1 = .ok w0' ∧
    ∃ F F' v v', (diag (some 4) (run w0 [.setTruncNums (.list [2, 2])])).1 = .ok (F, v) ∧
      (diag (some 4) (run w0' [.setTruncNums (.list [2, 2])])).1 = .ok (F', v') ∧ List.Forall₂ (fun f f' => f' ≤ f) F F' := by
  choose lib hlib using exists_lib
  choose argmax hm using exists_argmax
  obtain ⟨argsort, hsrt⟩ := exists_argsort
  obtain ⟨eigs, he⟩ := exists_eigs_lowest
  obtain ⟨as, ha⟩ := exists_cargsort
  have hi := two_ex_islands
  have hv := two_ex_values
  have hi2 : TwoIslands twoObjs [0, 5] [2] [4] := ⟨⟨by intro i hi; simp at hi; rcases hi with rfl | rfl <;> simp [twoObjs], 0, by simp, rfl⟩,
    hi.second, hi.coupling, by
    intro i hi
    simp at hi
    rcases hi with (rfl | rfl) | rfl | rfl <;> rfl⟩
  have hv2 : TwoValues twoObjs [0, 5] [2] [4] twoVals := by
    have e1 : totalCap (twoObjs.withVals twoVals) [0, 5] = 3 := by
      simp [totalCap, placedCap, twoObjs, Objs.withVals, twoVals]; norm_num
    obtain ⟨-, e2, e3⟩ := two_ex_total
    refine ⟨?_, ?_, ?_, ?_⟩
    · intro i hi
      simp at hi
      rcases hi with (rfl | rfl) | rfl | rfl <;> simp [placedCap, twoObjs, Objs.withVals, twoVals]
    · rw [e1, e2, e3]; norm_num
    · rw [e1, e3]; norm_num
    · rw [e2, e3]; norm_num
  have hr : ∀ a, RoutinesOK (twoSpec false .junctions twoObjs a [2] [4] (fun _ => LoopObj.init 0 0) lib exSv argsort argmax
      (fun _ _ => 0)) := fun a => ⟨hlib, exSv_spec, hsrt, hm, le_refl 3⟩
  have hI : IslandCircuit (twoSpec false .junctions twoObjs [0] [2] [4] (fun _ => LoopObj.init 0 0) lib exSv argsort argmax
      (fun _ _ => 0)) 2 := two_island hi
  have hI' : IslandCircuit (twoSpec false .junctions twoObjs [0, 5] [2] [4] (fun _ => LoopObj.init 0 0) lib exSv argsort argmax
      (fun _ _ => 0)) 2 := two_island hi2
  have hV : IslandValues (twoSpec false .junctions twoObjs [0] [2] [4] (fun _ => LoopObj.init 0 0) lib exSv argsort argmax
      (fun _ _ => 0)) 2 twoVals := two_values hi hv
  have hV' : IslandValues (twoSpec false .junctions twoObjs [0, 5] [2] [4] (fun _ => LoopObj.init 0 0) lib exSv argsort argmax
      (fun _ _ => 0)) 2 twoVals := two_values hi2 hv2
  have hcaps : CapsOK twoObjs := by
    intro i
    change (twoObjs.elem (twoObjs.elem i).cap).kind ≠ .jj
    unfold twoObjs
    simp only
    split_ifs <;> simp_all
  have hmore : MoreCapacitors twoObjs (twoEls [0] [2] [4]) (twoEls [0, 5] [2] [4]) :=
    ⟨by decide, [((0, 1), 5)], by decide, by intro q hq; simp at hq; subst hq; rfl⟩
  obtain ⟨w0, hw, -⟩ := C93_session _ 2 hI (hr _) hcaps eigs as twoVals hV (fun _ => 0) 1
  obtain ⟨w0', hw', -⟩ := C93_session _ 2 hI' (hr _) hcaps eigs as twoVals hV' (fun _ => 0) 1
  exact ⟨_, _, eigs, as, w0, w0', he, ha, rfl, rfl, rfl, hmore, hw, hw',
    C121_constructed he ha he ha (by norm_num) hI hI' (hr _) (hr _) rfl hcaps hmore twoVals twoVals hV hV'
      ⟨fun _ _ => le_refl _, fun _ _ => rfl⟩ _ _ 1 one_pos w0 hw w0' hw' 2
      (by norm_num) 4 (by norm_num) (by decide)⟩

end SQ
