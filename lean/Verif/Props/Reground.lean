import Verif.Lemmas.Reground
import Verif.Props.Relabel

/-!
# C119: which node is taken as ground
-/

namespace SQ
open Matrix Spec

theorem reground_corr {c c' : CircSpec} {n : ℕ} (hi : IslandCircuit c n) (hi' : IslandCircuit c' n) (hO : c'.O = c.O)
    {ρ : Equiv.Perm (Fin (n + 1))} (hren : Regrounded ρ c.els c'.els) : CorrDict c.O n c.els c'.els :=
  ⟨perm_placed (fun _ _ h => h.1) hren, fun v => reground_dict (O := c.O) hren hi.valid hi'.valid hi.indep
    (by have := hi'.indep; rwa [hO] at this) (hi.square.trans (by have := hi'.square; rw [hO] at this; exact this.symm)) v⟩

/-- C119 for every reachable state: let two dictionaries of junctions and capacitors hold the same elements on edges that
differ by a renumbering of all the nodes, so that another node may be ground, by directions and by order. Then there are a
correspondence `π` of the modes (the identity, if the charging energies of the edges are all different) and signs `s` such that
in any two reachable states with the same element values and unit, with the same truncation numbers and offset charges of
corresponding modes up to the signs, `diag` returns the same frequencies. -/
theorem C119_islands {c c' : CircSpec} {eigs eigs' : EigsFn} {as as' : List ℂ → List ℕ}
    (he : EigsLowest eigs) (ha : CArgsortSpec as) (he' : EigsLowest eigs') (ha' : CArgsortSpec as') {n : ℕ}
    (hi : IslandCircuit c n) (hi' : IslandCircuit c' n) (hr : RoutinesOK c) (hr' : RoutinesOK c') (hO : c'.O = c.O)
    (hcaps : CapsOK c.O) (ρ : Equiv.Perm (Fin (n + 1))) (hren : Regrounded ρ c.els c'.els)
    (vals vals' : ElemId → ℝ) (hv : IslandValues c n vals) (hv' : IslandValues c n vals') (flux flux' : LoopId → ℝ) (u u' : ℝ)
    (w0 : World (circPhys c eigs as)) (hw : construct (circPhys c eigs as) vals flux u = .ok w0)
    (w0' : World (circPhys c' eigs' as')) (hw' : construct (circPhys c' eigs' as') vals' flux' u' = .ok w0')
    (h h' : List Act) (hh : Orderly w0 h) (hh' : Orderly w0' h')
    (hup : ∀ h1 h2, h = h1 ++ .update :: h2 → IslandValues c n (run w0 h1).vals)
    (hup' : ∀ h1 h2, h' = h1 ++ .update :: h2 → IslandValues c n (run w0' h1).vals) :
    let w := run w0 h
    let w' := run w0' h'
    (∀ i, (c.O.elem i).kind ≠ .jj → w.vals i = lastBuilt vals w0 h i) →
    (∀ i, (c.O.elem i).kind ≠ .jj → w'.vals i = lastBuilt vals' w0' h' i) →
    IslandValues c n w.vals → w'.vals = w.vals → w.circ.m ≠ [] → w'.circ.m ≠ [] → w'.unitFreq = w.unitFreq →
    ∃ (π : Equiv.Perm (Fin n)) (s : Fin n → ℝ), (∀ i, s i = 1 ∨ s i = -1) ∧
      ((∀ i j, i ≠ j → junctionInvCap (c.O.withVals w.vals) c.els n i i ≠ junctionInvCap (c.O.withVals w.vals) c.els n j j) → π = 1) ∧
      ((∀ i : Fin n, w'.circ.m.getD (π i) 0 = w.circ.m.getD i 0) →
       (∀ i : Fin n, (w'.circ.ng (π i)).getD 0 = s i * (w.circ.ng i).getD 0) →
       ∀ num : ℕ, 1 ≤ num → num + 1 < ∏ i : Fin n, (w.circ.m.getD i 0).toNat →
         ∃ F v v', (diag (some num) w).1 = .ok (F, v) ∧ (diag (some num) w').1 = .ok (F, v')) :=
  corr_islands he ha he' ha' hi hi' hr hr' hO hcaps (reground_corr hi hi' hO hren) vals vals' hv hv' flux flux' u u' w0 hw w0' hw'
    h h' hh hh' hup hup'

/-- C119 for freshly constructed circuits: the same truncation number `t` for every mode. Both choices of ground give the same
frequencies. -/
theorem C119_constructed {c c' : CircSpec} {eigs eigs' : EigsFn} {as as' : List ℂ → List ℕ}
    (he : EigsLowest eigs) (ha : CArgsortSpec as) (he' : EigsLowest eigs') (ha' : CArgsortSpec as') {n : ℕ} (hn : 0 < n)
    (hi : IslandCircuit c n) (hi' : IslandCircuit c' n) (hr : RoutinesOK c) (hr' : RoutinesOK c') (hO : c'.O = c.O)
    (hcaps : CapsOK c.O) (ρ : Equiv.Perm (Fin (n + 1))) (hren : Regrounded ρ c.els c'.els)
    (vals : ElemId → ℝ) (hv : IslandValues c n vals) (flux flux' : LoopId → ℝ) (u : ℝ)
    (w0 : World (circPhys c eigs as)) (hw : construct (circPhys c eigs as) vals flux u = .ok w0)
    (w0' : World (circPhys c' eigs' as')) (hw' : construct (circPhys c' eigs' as') vals flux' u = .ok w0')
    (t : ℤ) (ht : 1 ≤ t) (num : ℕ) (h1 : 1 ≤ num) (hnum : num + 1 < (2 * t - 1).toNat ^ n) :
    ∃ F v v', (diag (some num) (run w0 [.setTruncNums (.list (List.replicate n t))])).1 = .ok (F, v) ∧
      (diag (some num) (run w0' [.setTruncNums (.list (List.replicate n t))])).1 = .ok (F, v') :=
  corr_constructed he ha he' ha' hn hi hi' hr hr' hO hcaps (reground_corr hi hi' hO hren) vals hv flux flux' u w0 hw w0' hw' t ht num
    h1 hnum

/-- nodes 0 and 1 of two coupled islands exchanged -/
def chainEls : Elements := [((0, 1), [0]), ((1, 2), [2]), ((0, 2), [4])]

theorem chain_edges : junctionEdges twoObjs chainEls = [(0, 1), (1, 2)] := by
  simp [junctionEdges, chainEls, twoObjs]

theorem chain_regrounded : Regrounded (Equiv.swap (0 : Fin 3) 1) (twoEls [0] [2] [4]) chainEls := by
  refine ⟨[((0, 1), 0), ((1, 2), 2), ((0, 2), 4)], by decide, ?_⟩
  have e : placements (twoEls [0] [2] [4]) = [((0, 1), 0), ((0, 2), 2), ((1, 2), 4)] := by decide
  rw [e]
  exact List.Forall₂.cons ⟨rfl, Or.inr (by decide)⟩ (List.Forall₂.cons ⟨rfl, Or.inl (by decide)⟩
    (List.Forall₂.cons ⟨rfl, Or.inl (by decide)⟩ List.Forall₂.nil))

theorem chain_island (lib : ∀ n, NumLib n) (sv : SvdFn) (argsort : ArgsortFn) (argmax : ∀ k, ArgmaxFn k) :
    IslandCircuit { twoSpec false .junctions twoObjs [0] [2] [4] (fun _ => LoopObj.init 0 0) lib sv argsort argmax (fun _ _ => 0)
      with els := chainEls } 2 where
  nodes := rfl
  valid := by
    intro p hp
    simp [chainEls] at hp
    rcases hp with rfl | rfl | rfl <;> simp [ValidEdge]
  ground := by
    intro k hk
    have j1 : Joined chainEls 1 0 := ⟨((0,1),[0]), by simp [chainEls], by simp, by simp⟩
    have j2 : Joined chainEls 2 0 := ⟨((0,2),[4]), by simp [chainEls], by simp, by simp⟩
    interval_cases k
    · exact .refl
    · exact .single j1
    · exact .single j2
  noInd := by
    intro q hq
    change q ∈ placements chainEls at hq
    simp [placements, chainEls] at hq
    rcases hq with rfl | rfl | rfl <;> simp [twoSpec, twoObjs]
  noLoops := by
    intro q hq
    change q ∈ placements chainEls at hq
    simp [placements, chainEls] at hq
    rcases hq with rfl | rfl | rfl <;> simp [twoSpec, twoObjs]
  some := by
    change junctionEdges twoObjs chainEls ≠ []
    rw [chain_edges]; simp
  indep := by
    change LinearIndependent ℝ (junctionIncidence twoObjs chainEls 2).row
    have key : ∀ (l : List Edge) (hl : l = [(0, 1), (1, 2)]),
        LinearIndependent ℝ (Matrix.of fun (i : Fin l.length) (k : Fin 2) => ((incidence (l.get i) (k + 1) : ℤ) : ℝ)).row := by
      rintro _ rfl
      have : (Matrix.of fun (i : Fin [((0 : ℕ), (1 : ℕ)), (1, 2)].length) (k : Fin 2) =>
          ((incidence ([((0 : ℕ), (1 : ℕ)), (1, 2)].get i) (k + 1) : ℤ) : ℝ)) = (!![1, 0; 1, -1] : Matrix (Fin 2) (Fin 2) ℝ) := by
        ext i j
        fin_cases i <;> fin_cases j <;> simp [incidence]
      have h1 : LinearIndependent ℝ (!![1, 0; 1, -1] : Matrix (Fin 2) (Fin 2) ℝ).row := by
        rw [Matrix.linearIndependent_rows_iff_isUnit, Matrix.isUnit_iff_isUnit_det, det_fin_two_of]
        norm_num
      rw [← this] at h1
      exact h1
    exact key _ chain_edges
  square := by
    change (junctionEdges twoObjs chainEls).length = 2
    rw [chain_edges]; rfl

/-- the hypotheses can be met: the two coupled islands of `C93_example`, each joined to ground by a junction, and the same
circuit with the first island as ground, a chain of two junctions; three charge states each -/
theorem C119_example : ∃ (c c' : CircSpec) (eigs : EigsFn) (as : List ℂ → List ℕ) (w0 : World (circPhys c eigs as))
    (w0' : World (circPhys c' eigs as)), EigsLowest eigs ∧ CArgsortSpec as ∧ c'.O = c.O ∧
    c.els = [((0, 1), [0]), ((0, 2), [2]), ((1, 2), [4])] ∧ c'.els = [((0, 1), [0]), ((1, 2), [2]), ((0, 2), [4])] ∧
    Regrounded (Equiv.swap (0 : Fin 3) 1) c.els c'.els ∧
    construct (circPhys c eigs as) twoVals (fun _ => 0) 1 = .ok w0 ∧ construct (circPhys c' eigs as) twoVals (fun _ => 0) 1 = .ok w0' ∧
    ∃ F v v', (diag (some 4) (run w0 [.setTruncNums (.list [2, 2])])).1 = .ok (F, v) ∧
      (diag (some 4) (run w0' [.setTruncNums (.list [2, 2])])).1 = .ok (F, v') := by
  choose lib hlib using exists_lib
  choose argmax hm using exists_argmax
  obtain ⟨argsort, hsrt⟩ := exists_argsort
  obtain ⟨eigs, he⟩ := exists_eigs_lowest
  obtain ⟨as, ha⟩ := exists_cargsort
  let c : CircSpec := twoSpec false .junctions twoObjs [0] [2] [4] (fun _ => LoopObj.init 0 0) lib exSv argsort argmax (fun _ _ => 0)
  let c' : CircSpec := { c with els := chainEls }
  have hr : RoutinesOK c := ⟨hlib, exSv_spec, hsrt, hm, le_refl 3⟩
  have hr' : RoutinesOK c' := ⟨hlib, exSv_spec, hsrt, hm, le_refl 3⟩
  have hI : IslandCircuit c 2 := two_island two_ex_islands
  have hI' : IslandCircuit c' 2 := chain_island _ _ _ _
  have hV : IslandValues c 2 twoVals := two_values two_ex_islands two_ex_values
  have hren : Regrounded (Equiv.swap (0 : Fin 3) 1) c.els c'.els := chain_regrounded
  have hV' : IslandValues c' 2 twoVals := corr_values (c := c) (c' := c') rfl (reground_corr hI hI' rfl hren) hV
  have hcaps : CapsOK twoObjs := by
    intro i
    change (twoObjs.elem (twoObjs.elem i).cap).kind ≠ .jj
    unfold twoObjs
    simp only
    split_ifs <;> simp_all
  obtain ⟨w0, hw, -⟩ := C93_session _ 2 hI hr hcaps eigs as twoVals hV (fun _ => 0) 1
  obtain ⟨w0', hw', -⟩ := C93_session _ 2 hI' hr' hcaps eigs as twoVals hV' (fun _ => 0) 1
  exact ⟨c, c', eigs, as, w0, w0', he, ha, rfl, rfl, rfl, hren, hw, hw',
    C119_constructed he ha he ha (by norm_num) hI hI' hr hr' rfl hcaps _ hren twoVals hV _ _ 1 w0 hw w0' hw' 2
      (by norm_num) 4 (by norm_num) (by decide)⟩

end SQ
