import Verif.Lemmas.Relabel
import Verif.Props.Islands2
import Verif.Props.Reversal
import Verif.Props.Islands3
import Verif.Lemmas.MergeIslands
import Verif.Props.LevelsExample
import Verif.Props.Inputs

/-!
# C111: how the dictionary is written
-/

namespace SQ
open Matrix Spec

theorem flipSign_sq (b : Bool) : flipSign b * flipSign b = 1 := by
  cases b <;> simp [flipSign]

/-- two dictionaries with the same elements and corresponding junction edges, up to directions -/
def CorrDict (O : Objs) (n : ℕ) (els els' : Elements) : Prop :=
  (∀ q' ∈ placements els', ∃ q ∈ placements els, q.2 = q'.2) ∧
  ∀ vals : ElemId → ℝ, ∃ (τ : Fin (junctionEdges O els).length ≃ Fin (junctionEdges O els').length)
      (r : Fin (junctionEdges O els).length → Bool),
      (∀ i j, junctionInvCap (O.withVals vals) els' n (τ i) (τ j) =
        flipSign (r i) * flipSign (r j) * junctionInvCap (O.withVals vals) els n i j) ∧
      ∀ i, edgeEJ O els' vals ((junctionEdges O els').get (τ i)) = edgeEJ O els vals ((junctionEdges O els).get i)

theorem perm_placed {els els' : Elements} {R : Edge × ElemId → Edge × ElemId → Prop} (hR : ∀ q q', R q q' → q'.2 = q.2)
    (h : ∃ l, (placements els').Perm l ∧ List.Forall₂ R (placements els) l) :
    ∀ q' ∈ placements els', ∃ q ∈ placements els, q.2 = q'.2 := by
  obtain ⟨l, hp, hl⟩ := h
  intro q' hq'
  have hq' := hp.mem_iff.1 hq'
  obtain ⟨a, ha, rfl⟩ := List.getElem_of_mem hq'
  obtain ⟨hlen, hget⟩ := List.forall₂_iff_get.1 hl
  have h1 := hR _ _ (hget a (by omega) ha)
  exact ⟨_, List.getElem_mem (by omega), h1.symm⟩

theorem relabel_corr {c c' : CircSpec} {n : ℕ} (hi : IslandCircuit c n) (hi' : IslandCircuit c' n) (hO : c'.O = c.O)
    {σ : Equiv.Perm (Fin n)} (hren : Renumbered σ c.els c'.els) : CorrDict c.O n c.els c'.els := by
  refine ⟨perm_placed (fun _ _ h => h.1) hren, fun v => ?_⟩
  obtain ⟨τ, r, -, hG, hE⟩ := relabel_dict (O := c.O) hren hi.valid hi'.valid hi.indep (by have := hi'.indep; rwa [hO] at this)
    (hi.square.trans (by have := hi'.square; rw [hO] at this; exact this.symm)) v
  exact ⟨τ, r, hG, hE⟩

/-- values admissible for a circuit are admissible for a corresponding one -/
theorem corr_values {c c' : CircSpec} {n : ℕ} (hO : c'.O = c.O) (hren : CorrDict c.O n c.els c'.els) {v : ElemId → ℝ}
    (hv : IslandValues c n v) : IslandValues c' n v := by
  obtain ⟨τ, r, hG, -⟩ := hren.2 v
  constructor
  · intro q' hq'
    rw [hO]
    obtain ⟨q, hq, h1⟩ := hren.1 q' hq'
    rw [← h1]
    exact hv.1 q hq
  · rw [hO]
    have hv2 := hv.2
    set G : Matrix (Fin (junctionEdges c.O c.els).length) (Fin (junctionEdges c.O c.els).length) ℝ :=
      junctionInvCap (c.O.withVals v) c.els n with hGd
    set G' : Matrix (Fin (junctionEdges c.O c'.els).length) (Fin (junctionEdges c.O c'.els).length) ℝ :=
      junctionInvCap (c.O.withVals v) c'.els n with hGd'
    let S : Matrix (Fin (junctionEdges c.O c.els).length) (Fin (junctionEdges c.O c.els).length) ℝ :=
      diagonal fun i => flipSign (r i)
    have hSS : S * S = 1 := by
      rw [diagonal_mul_diagonal, ← diagonal_one]
      congr 1
      funext i
      exact flipSign_sq _
    have hSi : S⁻¹ = S := inv_eq_right_inv hSS
    have hGS : G'.submatrix τ τ = S * G * S := by
      ext i j
      rw [submatrix_apply, hG, mul_diagonal, diagonal_mul]
      ring
    have hGi : ∀ i, G'⁻¹ (τ i) (τ i) = G⁻¹ i i := by
      intro i
      have h1 : (G'⁻¹).submatrix τ τ = S * G⁻¹ * S := by
        rw [← inv_submatrix_equiv, hGS, Matrix.mul_inv_rev, Matrix.mul_inv_rev, hSi, Matrix.mul_assoc]
      have h2 := congrFun (congrFun h1 i) i
      rw [submatrix_apply, mul_diagonal, diagonal_mul] at h2
      rw [h2]
      linear_combination (G⁻¹ i i) * flipSign_sq (r i)
    show WellConditioned n G'
    intro j
    obtain ⟨i, rfl⟩ := τ.surjective j
    rw [hGi, hG]
    have h3 : flipSign (r i) * flipSign (r i) * G i i = G i i := by rw [flipSign_sq, one_mul]
    rw [h3]
    exact hv2 i

theorem corr_islands {c c' : CircSpec} {eigs eigs' : EigsFn} {as as' : List ℂ → List ℕ}
    (he : EigsLowest eigs) (ha : CArgsortSpec as) (he' : EigsLowest eigs') (ha' : CArgsortSpec as') {n : ℕ}
    (hi : IslandCircuit c n) (hi' : IslandCircuit c' n) (hr : RoutinesOK c) (hr' : RoutinesOK c') (hO : c'.O = c.O)
    (hcaps : CapsOK c.O) (hren : CorrDict c.O n c.els c'.els)
    (vals vals' : ElemId → ℝ) (hv : IslandValues c n vals) (hv' : IslandValues c n vals') (flux flux' : LoopId → ℝ) (u u' : ℝ)
    (w0 : World (circPhys c eigs as)) (hw : construct (circPhys c eigs as) vals flux u = .ok w0)
    (w0' : World (circPhys c' eigs' as')) (hw' : construct (circPhys c' eigs' as') vals' flux' u' = .ok w0')
    (h h' : List Act) (hh : Orderly w0 h) (hh' : Orderly w0' h')
    (hup : ∀ h1 h2, h = h1 ++ .update :: h2 → IslandValues c n (run w0 h1).vals)
    (hup' : ∀ h1 h2, h' = h1 ++ .update :: h2 → IslandValues c n (run w0' h1).vals) :
    let w := run w0 h
    let w' := run w0' h'
    (∀ i, (c.O.elem i).kind ≠ .jj → w.vals i = lastBuilt vals w0 h i) →
    (∀ i, (c.O.elem i).kind ≠ .jj → w'.vals i = lastBuilt vals' w0' h' i) →
    IslandValues c n w.vals → w'.vals = w.vals → w.circ.m ≠ [] → w'.circ.m ≠ [] → w'.unitFreq = w.unitFreq →
    ∃ (π : Equiv.Perm (Fin n)) (s : Fin n → ℝ), (∀ i, s i = 1 ∨ s i = -1) ∧
      ((∀ i j, i ≠ j → junctionInvCap (c.O.withVals w.vals) c.els n i i ≠ junctionInvCap (c.O.withVals w.vals) c.els n j j) → π = 1) ∧
      ((∀ i : Fin n, w'.circ.m.getD (π i) 0 = w.circ.m.getD i 0) →
       (∀ i : Fin n, (w'.circ.ng (π i)).getD 0 = s i * (w.circ.ng i).getD 0) →
       ∀ num : ℕ, 1 ≤ num → num + 1 < ∏ i : Fin n, (w.circ.m.getD i 0).toNat →
         ∃ F v v', (diag (some num) w).1 = .ok (F, v) ∧ (diag (some num) w').1 = .ok (F, v')) := by
  intro w w' hl hl' hval hvv hm0 hm0' huu
  obtain ⟨w1, hw1, hs1⟩ := C93_session c n hi hr hcaps eigs as vals hv flux u
  obtain rfl : w1 = w0 := by rw [hw] at hw1; exact (Except.ok.inj hw1).symm
  obtain ⟨w2, hw2, hs2⟩ := C93_session c' n hi' hr' (by rw [hO]; exact hcaps) eigs' as' vals'
    (corr_values hO hren hv') flux' u'
  obtain rfl : w2 = w0' := by rw [hw'] at hw2; exact (Except.ok.inj hw2).symm
  obtain ⟨k, d, σ1, rfl, hd, hord, hH⟩ := hs1 h hh hup hl hval hm0
  obtain ⟨k', d', σ2, hk', hd', hord', hH'⟩ := hs2 h' hh' (fun h1 h2 e => corr_values hO hren (hup' h1 h2 e))
    (by rw [hO]; exact hl') (by
      show IslandValues c' k w'.vals
      rw [hvv]; exact corr_values hO hren hval) hm0'
  subst hk'
  have hv1 : (run w2 h').vals = (run w1 h).vals := hvv
  rw [hv1] at hord' hH'
  change ∀ i, d i = ((run w1 h).circ.m.getD i 0).toNat at hd
  change ∀ i, d' i = ((run w2 h').circ.m.getD i 0).toNat at hd'
  obtain ⟨τ, r, hG, hE⟩ := hren.2 (run w1 h).vals
  -- the second circuit in terms of the objects of the first
  have hH'' : ∃ σ3 : Fin (junctionEdges c.O c'.els).length ≃ Fin k',
      (∀ i j, junctionInvCap (c.O.withVals (run w1 h).vals) c'.els k' j j <
        junctionInvCap (c.O.withVals (run w1 h).vals) c'.els k' i i → σ3 i < σ3 j) ∧
      (hamiltonian (run w2 h')).1 = .ok ⟨k', d', islandHamiltonian σ3 (junctionInvCap (c.O.withVals (run w1 h).vals) c'.els k')
        (fun i => edgeEJ c.O c'.els (run w1 h).vals ((junctionEdges c.O c'.els).get i)) d'
        (fun p => ((run w2 h').circ.ng p).getD 0)⟩ := by
    rw [← hO]
    exact ⟨σ2, hord', hH'⟩
  clear hH' hord'
  obtain ⟨σ3, hord', hH'⟩ := hH''
  let π : Equiv.Perm (Fin k') := (σ1.symm.trans τ).trans σ3
  have hπ : ∀ i, π (σ1 i) = σ3 (τ i) := by
    intro i
    simp [π]
  refine ⟨π, fun a => flipSign (r (σ1.symm a)), ?_, ?_, ?_⟩
  · intro i
    show flipSign (r (σ1.symm i)) = 1 ∨ flipSign (r (σ1.symm i)) = -1
    generalize r (σ1.symm i) = b
    cases b <;> simp [flipSign]
  · intro hne
    have hmono : StrictMono π := by
      intro a b hab
      obtain ⟨i, rfl⟩ := σ1.surjective a
      obtain ⟨j, rfl⟩ := σ1.surjective b
      have hij : i ≠ j := by rintro rfl; exact lt_irrefl _ hab
      have hlt : junctionInvCap (c.O.withVals (run w1 h).vals) c.els k' j j <
          junctionInvCap (c.O.withVals (run w1 h).vals) c.els k' i i := by
        rcases lt_trichotomy (junctionInvCap (c.O.withVals (run w1 h).vals) c.els k' j j)
          (junctionInvCap (c.O.withVals (run w1 h).vals) c.els k' i i) with h1 | h1 | h1
        · exact h1
        · exact absurd h1.symm (hne i j hij)
        · exact absurd (hord j i h1) (not_lt.2 hab.le)
      rw [hπ, hπ]
      apply hord'
      rw [hG, hG]
      simpa only [flipSign_sq, one_mul] using hlt
    have : (⟨π, hmono.le_iff_le⟩ : Fin k' ≃o Fin k') = OrderIso.refl _ := Subsingleton.elim _ _
    ext a
    have h2 := congrArg (fun f : Fin k' ≃o Fin k' => ((f a : Fin k') : ℕ)) this
    exact h2
  · intro hmm hng num h1 hnum
    have hdd : d = fun a => d' (π a) := by
      funext a
      rw [hd, hd', hmm a]
    subst hdd
    have hrel := relabel_islands π (fun a => r (σ1.symm a)) d' σ1 σ3 τ hπ
      (junctionInvCap (c.O.withVals (run w1 h).vals) c.els k')
      (junctionInvCap (c.O.withVals (run w1 h).vals) c'.els k')
      (fun i => edgeEJ c.O c.els (run w1 h).vals ((junctionEdges c.O c.els).get i))
      (fun i => edgeEJ c.O c'.els (run w1 h).vals ((junctionEdges c.O c'.els).get i))
      (by intro i j; simp only [Equiv.symm_apply_apply]; exact hG i j) hE
      (fun p => ((run w1 h).circ.ng p).getD 0) (fun p => ((run w2 h').circ.ng p).getD 0) hng
    have hcard : Fintype.card (Idx fun a => d' (π a)) = Fintype.card (Idx d') :=
      Fintype.card_congr (relIdx π (fun a => r (σ1.symm a)) d').symm
    have hnum1 : num + 1 < Fintype.card (Idx fun a => d' (π a)) := by
      rw [Fintype.card_pi]
      simp only [Fintype.card_fin, hd]
      exact hnum
    obtain ⟨H1, e1, hherm⟩ := C40_circuit hi.noSelf vals flux u _ hw h hh hm0
    rw [hH] at e1
    obtain rfl := Except.ok.inj e1
    obtain ⟨H2, e2, hherm'⟩ := C40_circuit hi'.noSelf vals' flux' u' _ hw' h' hh' hm0'
    rw [hH'] at e2
    obtain rfl := Except.ok.inj e2
    obtain ⟨vs, ws, ev, x1, hlev, hdg, -⟩ := diag_lowest he ha hm0 hH hherm num h1 hnum1
    obtain ⟨vs', ws', ev', x2, hlev', hdg', -⟩ := diag_lowest he' ha' hm0' hH' hherm' num h1 (by rw [← hcard]; exact hnum1)
    obtain ⟨vs2, hlev2⟩ := levels_reindex (relIdx π (fun a => r (σ1.symm a)) d') hlev
    rw [hrel] at hlev2
    obtain rfl : ws' = ws := levels_unique hlev' hlev2
    have hu2 : (run w2 h').unitFreq = (run w1 h).unitFreq := huu
    refine ⟨_, _, ev'.map (fun v => ⟨k', d', v⟩), by rw [hdg], ?_⟩
    rw [hdg', hu2]

/-- C111 for junctions and capacitors without flux loops (partial; see `C111_refuted` for circuits with several loops): let
two dictionaries hold the same elements on edges that differ by a renumbering of the nodes, by the direction in which edges
are written and by order. Then there are a correspondence `π` of the modes (the identity, if the charging energies of the
edges are all different) and signs `s` such that in any two reachable states with the same element values and unit, with the
same truncation numbers and offset charges of corresponding modes up to the signs, `diag` returns the same frequencies. -/
theorem C111_islands_partial {c c' : CircSpec} {eigs eigs' : EigsFn} {as as' : List ℂ → List ℕ}
    (he : EigsLowest eigs) (ha : CArgsortSpec as) (he' : EigsLowest eigs') (ha' : CArgsortSpec as') {n : ℕ}
    (hi : IslandCircuit c n) (hi' : IslandCircuit c' n) (hr : RoutinesOK c) (hr' : RoutinesOK c') (hO : c'.O = c.O)
    (hcaps : CapsOK c.O) (σ : Equiv.Perm (Fin n)) (hren : Renumbered σ c.els c'.els)
    (vals vals' : ElemId → ℝ) (hv : IslandValues c n vals) (hv' : IslandValues c n vals') (flux flux' : LoopId → ℝ) (u u' : ℝ)
    (w0 : World (circPhys c eigs as)) (hw : construct (circPhys c eigs as) vals flux u = .ok w0)
    (w0' : World (circPhys c' eigs' as')) (hw' : construct (circPhys c' eigs' as') vals' flux' u' = .ok w0')
    (h h' : List Act) (hh : Orderly w0 h) (hh' : Orderly w0' h')
    (hup : ∀ h1 h2, h = h1 ++ .update :: h2 → IslandValues c n (run w0 h1).vals)
    (hup' : ∀ h1 h2, h' = h1 ++ .update :: h2 → IslandValues c n (run w0' h1).vals) :
    let w := run w0 h
    let w' := run w0' h'
    (∀ i, (c.O.elem i).kind ≠ .jj → w.vals i = lastBuilt vals w0 h i) →
    (∀ i, (c.O.elem i).kind ≠ .jj → w'.vals i = lastBuilt vals' w0' h' i) →
    IslandValues c n w.vals → w'.vals = w.vals → w.circ.m ≠ [] → w'.circ.m ≠ [] → w'.unitFreq = w.unitFreq →
    ∃ (π : Equiv.Perm (Fin n)) (s : Fin n → ℝ), (∀ i, s i = 1 ∨ s i = -1) ∧
      ((∀ i j, i ≠ j → junctionInvCap (c.O.withVals w.vals) c.els n i i ≠ junctionInvCap (c.O.withVals w.vals) c.els n j j) → π = 1) ∧
      ((∀ i : Fin n, w'.circ.m.getD (π i) 0 = w.circ.m.getD i 0) →
       (∀ i : Fin n, (w'.circ.ng (π i)).getD 0 = s i * (w.circ.ng i).getD 0) →
       ∀ num : ℕ, 1 ≤ num → num + 1 < ∏ i : Fin n, (w.circ.m.getD i 0).toNat →
         ∃ F v v', (diag (some num) w).1 = .ok (F, v) ∧ (diag (some num) w').1 = .ok (F, v')) :=
  corr_islands he ha he' ha' hi hi' hr hr' hO hcaps (relabel_corr hi hi' hO hren) vals vals' hv hv' flux flux' u u' w0 hw w0' hw'
    h h' hh hh' hup hup'

/-- a freshly constructed island circuit with the truncation number `t` for every mode -/
theorem isl_truncated {c : CircSpec} {n : ℕ} (hi : IslandCircuit c n) (hr : RoutinesOK c) {vals : ElemId → ℝ}
    (hv : IslandValues c n vals) {eigs as} {flux : LoopId → ℝ} {u : ℝ} {w0 : World (circPhys c eigs as)}
    (hw : construct (circPhys c eigs as) vals flux u = .ok w0) {t : ℤ} (ht : 1 ≤ t) :
    Orderly w0 [.setTruncNums (.list (List.replicate n t))] ∧
    (run w0 [.setTruncNums (.list (List.replicate n t))]).circ.m = List.replicate n (2 * t - 1) ∧
    (run w0 [.setTruncNums (.list (List.replicate n t))]).unitFreq = u ∧
    (run w0 [.setTruncNums (.list (List.replicate n t))]).vals = vals ∧
    ∀ i, ((run w0 [.setTruncNums (.list (List.replicate n t))]).circ.ng i).getD 0 = 0 := by
  have hb : buildCirc c vals = .ok w0.circ.bd := (construct_build hw).1
  obtain ⟨hn, hk, σ, -, -, -, hom, -⟩ := isl_built hi hr hv hb
  have hkn : w0.circ.bd.M.keep.length = n := hk.trans hn
  have hfld : w0.unitFreq = u ∧ w0.vals = vals ∧ w0.flux = flux ∧
      w0.circ.islands = fun i => if i < (circPhys _ eigs as).nModes w0.circ.bd ∧ (circPhys _ eigs as).isCharge w0.circ.bd i
        then some (ChargeObj.init 0 1e-4) else none := by
    have hw' := hw
    unfold construct at hw'
    split at hw'
    · cases hw'
    · injection hw' with hw'
      rw [← hw']
      exact ⟨rfl, rfl, rfl, rfl⟩
  have hok : (setTruncNums (.list (List.replicate n t)) w0).1 = .ok () :=
    (C42_constructed hw (List.replicate n t) (by rw [List.length_replicate]; exact hkn.symm)
      (fun x hx => by rw [List.eq_of_mem_replicate hx]; exact ht)).1
  have hst : (run w0 [.setTruncNums (.list (List.replicate n t))]).circ.m = dimsOf _ w0.circ.bd (List.replicate n t) ∧
      (run w0 [.setTruncNums (.list (List.replicate n t))]).unitFreq = w0.unitFreq ∧
      (run w0 [.setTruncNums (.list (List.replicate n t))]).vals = w0.vals ∧
      (run w0 [.setTruncNums (.list (List.replicate n t))]).circ.ng = w0.circ.ng := by
    show (setTruncNums (.list (List.replicate n t)) w0).2.circ.m = _ ∧
      (setTruncNums (.list (List.replicate n t)) w0).2.unitFreq = _ ∧ (setTruncNums (.list (List.replicate n t)) w0).2.vals = _ ∧
      (setTruncNums (.list (List.replicate n t)) w0).2.circ.ng = _
    rcases setTruncNums_cases (.list (List.replicate n t)) w0 with ⟨h1, -⟩ | ⟨nums, hn, -, ⟨e, h1, -⟩ | ⟨mem, hmem, -, h2⟩⟩
    · rw [h1] at hok; cases hok
    · rw [h1] at hok; cases hok
    injection hn with hn
    subst hn
    rw [h2]
    exact ⟨rfl, rfl, rfl, rfl⟩
  have hn1 : (circPhys _ eigs as).nModes w0.circ.bd = n := hkn
  have hnc : ∀ i, i < n → (circPhys _ eigs as).isCharge w0.circ.bd i = true := by
    intro i hi
    show Build.isCharge w0.circ.bd i = true
    unfold Build.isCharge
    rw [dif_pos (by omega)]
    simp [hom]
  refine ⟨⟨fun _ => Or.inl hok, trivial⟩, ?_, hst.2.1.trans hfld.1, hst.2.2.1.trans hfld.2.1, ?_⟩
  · rw [hst.1]
    unfold dimsOf
    rw [hn1]
    refine List.ext_getElem (by simp) ?_
    intro i h1 h2
    have hi : i < n := by simpa using h1
    simp [hnc i hi, hi]
  · intro i
    rw [hst.2.2.2]
    unfold Circ.ng
    rw [hfld.2.2.2, hn1]
    by_cases hi : i < n
    · simp [hi, hnc i hi, ChargeObj.init, ChargeObj.chValue]
    · simp [hi]

theorem corr_constructed {c c' : CircSpec} {eigs eigs' : EigsFn} {as as' : List ℂ → List ℕ}
    (he : EigsLowest eigs) (ha : CArgsortSpec as) (he' : EigsLowest eigs') (ha' : CArgsortSpec as') {n : ℕ} (hn : 0 < n)
    (hi : IslandCircuit c n) (hi' : IslandCircuit c' n) (hr : RoutinesOK c) (hr' : RoutinesOK c') (hO : c'.O = c.O)
    (hcaps : CapsOK c.O) (hren : CorrDict c.O n c.els c'.els)
    (vals : ElemId → ℝ) (hv : IslandValues c n vals) (flux flux' : LoopId → ℝ) (u : ℝ)
    (w0 : World (circPhys c eigs as)) (hw : construct (circPhys c eigs as) vals flux u = .ok w0)
    (w0' : World (circPhys c' eigs' as')) (hw' : construct (circPhys c' eigs' as') vals flux' u = .ok w0')
    (t : ℤ) (ht : 1 ≤ t) (num : ℕ) (h1 : 1 ≤ num) (hnum : num + 1 < (2 * t - 1).toNat ^ n) :
    ∃ F v v', (diag (some num) (run w0 [.setTruncNums (.list (List.replicate n t))])).1 = .ok (F, v) ∧
      (diag (some num) (run w0' [.setTruncNums (.list (List.replicate n t))])).1 = .ok (F, v') := by
  obtain ⟨ho, hm, hu, hvv, hng⟩ := isl_truncated hi hr hv hw ht
  obtain ⟨ho', hm', hu', hvv', hng'⟩ := isl_truncated hi' hr' (corr_values hO hren hv) hw' ht
  have hnoup : ∀ (h1 h2 : List Act), [Act.setTruncNums (.list (List.replicate n t))] = h1 ++ .update :: h2 → False := by
    intro h1 h2 he
    match h1, he with
    | [], he => simp at he
    | [_], he => simp at he
    | _ :: _ :: _, he => simp at he
  have hne : List.replicate n (2 * t - 1) ≠ [] := by
    intro h0
    have := congrArg List.length h0
    simp at this
    omega
  obtain ⟨π, s, hs, -, hF⟩ := corr_islands he ha he' ha' hi hi' hr hr' hO hcaps hren vals vals hv hv flux flux' u u
    w0 hw w0' hw' _ _ ho ho' (fun h1 h2 e => (hnoup h1 h2 e).elim) (fun h1 h2 e => (hnoup h1 h2 e).elim)
    (by intro i _; rw [hvv]; rfl) (by intro i _; rw [hvv']; rfl) (by rw [hvv]; exact hv) (by rw [hvv, hvv'])
    (by rw [hm]; exact hne) (by rw [hm']; exact hne) (by rw [hu, hu'])
  have hget : ∀ i : Fin n, (List.replicate n (2 * t - 1)).getD (i : ℕ) 0 = 2 * t - 1 := by
    intro i
    rw [List.getD_eq_getElem?_getD, List.getElem?_replicate, if_pos i.2]
    rfl
  refine hF ?_ ?_ num h1 ?_
  · intro i
    rw [hm, hm', hget, hget]
  · intro i
    rw [hng, hng', mul_zero]
  · rw [hm]
    simp only [hget]
    simpa using hnum

/-- C111 for freshly constructed circuits (partial): junctions and capacitors without flux loops, the same truncation number
`t` for every mode. The two dictionaries give the same frequencies. -/
theorem C111_constructed_partial {c c' : CircSpec} {eigs eigs' : EigsFn} {as as' : List ℂ → List ℕ}
    (he : EigsLowest eigs) (ha : CArgsortSpec as) (he' : EigsLowest eigs') (ha' : CArgsortSpec as') {n : ℕ} (hn : 0 < n)
    (hi : IslandCircuit c n) (hi' : IslandCircuit c' n) (hr : RoutinesOK c) (hr' : RoutinesOK c') (hO : c'.O = c.O)
    (hcaps : CapsOK c.O) (σ : Equiv.Perm (Fin n)) (hren : Renumbered σ c.els c'.els)
    (vals : ElemId → ℝ) (hv : IslandValues c n vals) (flux flux' : LoopId → ℝ) (u : ℝ)
    (w0 : World (circPhys c eigs as)) (hw : construct (circPhys c eigs as) vals flux u = .ok w0)
    (w0' : World (circPhys c' eigs' as')) (hw' : construct (circPhys c' eigs' as') vals flux' u = .ok w0')
    (t : ℤ) (ht : 1 ≤ t) (num : ℕ) (h1 : 1 ≤ num) (hnum : num + 1 < (2 * t - 1).toNat ^ n) :
    ∃ F v v', (diag (some num) (run w0 [.setTruncNums (.list (List.replicate n t))])).1 = .ok (F, v) ∧
      (diag (some num) (run w0' [.setTruncNums (.list (List.replicate n t))])).1 = .ok (F, v') :=
  corr_constructed he ha he' ha' hn hi hi' hr hr' hO hcaps (relabel_corr hi hi' hO hren) vals hv flux flux' u w0 hw w0' hw' t ht num
    h1 hnum

/-- the hypotheses can be met: the two coupled islands of `C93_example` and the same circuit with the islands renumbered (which
also reverses the direction of the coupling edge); three charge states each -/
theorem C111_example : ∃ (c c' : CircSpec) (eigs : EigsFn) (as : List ℂ → List ℕ) (w0 : World (circPhys c eigs as))
    (w0' : World (circPhys c' eigs as)), EigsLowest eigs ∧ CArgsortSpec as ∧ c'.O = c.O ∧
    c.els = [((0, 1), [0]), ((0, 2), [2]), ((1, 2), [4])] ∧ c'.els = [((0, 1), [2]), ((0, 2), [0]), ((1, 2), [4])] ∧
    Renumbered (Equiv.swap (0 : Fin 2) 1) c.els c'.els ∧
    construct (circPhys c eigs as) twoVals (fun _ => 0) 1 = .ok w0 ∧ construct (circPhys c' eigs as) twoVals (fun _ => 0) 1 = .ok w0' ∧
    ∃ F v v', (diag (some 4) (run w0 [.setTruncNums (.list [2, 2])])).1 = .ok (F, v) ∧
      (diag (some 4) (run w0' [.setTruncNums (.list [2, 2])])).1 = .ok (F, v') := by
  choose lib hlib using exists_lib
  choose argmax hm using exists_argmax
  obtain ⟨argsort, hsrt⟩ := exists_argsort
  obtain ⟨eigs, he⟩ := exists_eigs_lowest
  obtain ⟨as, ha⟩ := exists_cargsort
  have hi := two_ex_islands
  have hv := two_ex_values
  have hi2 : TwoIslands twoObjs [2] [0] [4] := ⟨hi.second, hi.first, hi.coupling, by
    intro i h
    exact hi.noLoops i (by tauto)⟩
  have hr : ∀ a b, RoutinesOK (twoSpec false .junctions twoObjs a b [4] (fun _ => LoopObj.init 0 0) lib exSv argsort argmax
      (fun _ _ => 0)) := fun a b => ⟨hlib, exSv_spec, hsrt, hm, le_refl 3⟩
  have hI : IslandCircuit (twoSpec false .junctions twoObjs [0] [2] [4] (fun _ => LoopObj.init 0 0) lib exSv argsort argmax
      (fun _ _ => 0)) 2 := two_island hi
  have hI' : IslandCircuit (twoSpec false .junctions twoObjs [2] [0] [4] (fun _ => LoopObj.init 0 0) lib exSv argsort argmax
      (fun _ _ => 0)) 2 := two_island hi2
  have hV : IslandValues (twoSpec false .junctions twoObjs [0] [2] [4] (fun _ => LoopObj.init 0 0) lib exSv argsort argmax
      (fun _ _ => 0)) 2 twoVals := two_values hi hv
  have hcaps : CapsOK twoObjs := by
    intro i
    change (twoObjs.elem (twoObjs.elem i).cap).kind ≠ .jj
    unfold twoObjs
    simp only
    split_ifs <;> simp_all
  have hren : Renumbered (Equiv.swap (0 : Fin 2) 1) (twoEls [0] [2] [4]) (twoEls [2] [0] [4]) := by
    refine ⟨[((0, 2), 0), ((0, 1), 2), ((1, 2), 4)], by decide, ?_⟩
    have e : placements (twoEls [0] [2] [4]) = [((0, 1), 0), ((0, 2), 2), ((1, 2), 4)] := by decide
    rw [e]
    refine List.Forall₂.cons ⟨rfl, Or.inl (by decide)⟩ (List.Forall₂.cons ⟨rfl, Or.inl (by decide)⟩
      (List.Forall₂.cons ⟨rfl, Or.inr (by decide)⟩ List.Forall₂.nil))
  have hC := relabel_corr hI hI' rfl hren
  have hV' := corr_values (c := twoSpec false .junctions twoObjs [0] [2] [4] (fun _ => LoopObj.init 0 0) lib exSv argsort argmax
    (fun _ _ => 0)) (c' := twoSpec false .junctions twoObjs [2] [0] [4] (fun _ => LoopObj.init 0 0) lib exSv argsort argmax
    (fun _ _ => 0)) rfl hC hV
  obtain ⟨w0, hw, -⟩ := C93_session _ 2 hI (hr _ _) hcaps eigs as twoVals hV (fun _ => 0) 1
  obtain ⟨w0', hw', -⟩ := C93_session _ 2 hI' (hr _ _) hcaps eigs as twoVals hV' (fun _ => 0) 1
  exact ⟨_, _, eigs, as, w0, w0', he, ha, rfl, rfl, rfl, hren, hw, hw',
    C111_constructed_partial he ha he ha (by norm_num) hI hI' (hr _ _) (hr _ _) rfl hcaps _ hren twoVals hV _ _ 1 w0 hw w0' hw' 2
      (by norm_num) 4 (by norm_num) (by decide)⟩

end SQ
