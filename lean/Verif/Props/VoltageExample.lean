import Verif.Props.Voltage
import Verif.Props.TransmonExample
import Verif.Props.SimpleSpectrum
import Verif.Props.MergeCircuit
import Verif.Props.DephasingSessionExample

/-!
# C127: freshly constructed circuits, and an example
-/

namespace SQ
open Matrix Spec

/-- C127 for freshly constructed circuits: the same truncation number `t` for every mode. Both dictionaries give the same
capacitive rates between non-degenerate levels. -/
theorem C127_constructed {c c' : CircSpec} {eigs eigs' : EigsFn} {as as' : List ℂ → List ℕ}
    (he : EigsLowest eigs) (ha : CArgsortSpec as) (he' : EigsLowest eigs') (ha' : CArgsortSpec as') {n : ℕ} (hn : 0 < n)
    (hi : IslandCircuit c n) (hi' : IslandCircuit c' n) (hr : RoutinesOK c) (hr' : RoutinesOK c') (hO : c'.O = c.O)
    (hcaps : CapsOK c.O) (ρ : Equiv.Perm (Fin (n + 1))) (hren : Regrounded ρ c.els c'.els)
    (vals : ElemId → ℝ) (hv : IslandValues c n vals) (flux flux' : LoopId → ℝ) (u u' : ℝ)
    (w0 : World (circPhys c eigs as)) (hw : construct (circPhys c eigs as) vals flux u = .ok w0)
    (w0' : World (circPhys c' eigs' as')) (hw' : construct (circPhys c' eigs' as') vals flux' u' = .ok w0')
    (t : ℤ) (ht : 1 ≤ t) (num p q : ℕ) (hp : p + 1 < num) (hq : q + 1 < num) (hnum : num + 1 < (2 * t - 1).toNat ^ n)
    (hpq : p ≠ q)
    (hsp : SimpleLevel (reported num (run w0 [.setTruncNums (.list (List.replicate n t))])) p)
    (hsq : SimpleLevel (reported num (run w0 [.setTruncNums (.list (List.replicate n t))])) q)
    (noise : ObjNoise) (env : NoiseEnv) (total : Bool) (hT : 0 < env.T) :
    ∃ x : ℝ, sessionRate noise env "capacitive" (p, q) total
        (diag (some num) (run w0 [.setTruncNums (.list (List.replicate n t))])).2 = some (.ok (.val x)) ∧
      sessionRate noise env "capacitive" (p, q) total
        (diag (some num) (run w0' [.setTruncNums (.list (List.replicate n t))])).2 = some (.ok (.val x)) := by
  obtain ⟨ho, hm, -, hvv, hng⟩ := isl_truncated hi hr hv hw ht
  obtain ⟨ho', hm', -, hvv', hng'⟩ := isl_truncated hi' hr' (corr_values hO (reground_corr hi hi' hO hren) hv) hw' ht
  have hnoup : ∀ (h1 h2 : List Act), [Act.setTruncNums (.list (List.replicate n t))] = h1 ++ .update :: h2 → False := by
    intro h1 h2 he
    match h1, he with
    | [], he => simp at he
    | [_], he => simp at he
    | _ :: _ :: _, he => simp at he
  have hne : List.replicate n (2 * t - 1) ≠ [] := by
    intro h0
    have := congrArg List.length h0
    simp at this
    omega
  obtain ⟨π, s, hs, -, hF⟩ := C127_islands he ha he' ha' hi hi' hr hr' hO hcaps ρ hren vals vals hv hv flux flux' u u'
    w0 hw w0' hw' _ _ ho ho' (fun h1 h2 e => (hnoup h1 h2 e).elim) (fun h1 h2 e => (hnoup h1 h2 e).elim)
    (by intro i _; rw [hvv]; rfl) (by intro i _; rw [hvv']; rfl) (by rw [hvv]; exact hv) (by rw [hvv, hvv'])
    (by rw [hm]; exact hne) (by rw [hm']; exact hne)
  have hget : ∀ i : Fin n, (List.replicate n (2 * t - 1)).getD (i : ℕ) 0 = 2 * t - 1 := by
    intro i
    rw [List.getD_eq_getElem?_getD, List.getElem?_replicate, if_pos i.2]
    rfl
  refine hF ?_ ?_ num p q hp hq ?_ hpq hsp hsq noise env total hT
  · intro i
    rw [hm, hm', hget, hget]
  · intro i
    rw [hng, hng', mul_zero]
  · rw [hm]
    simp only [hget]
    simpa using hnum

theorem flipped_island (lib : ∀ n, NumLib n) (sv : SvdFn) (argsort : ArgsortFn) (argmax : ∀ k, ArgmaxFn k) :
    IslandCircuit { parallelSpec false .junctions transmonObjs [0] (fun _ => LoopObj.init 0 0) lib sv argsort argmax (fun _ _ => 0)
      with els := [((1, 0), [0])] } 1 where
  nodes := rfl
  valid := by
    intro p hp
    simp at hp
    subst hp; simp [ValidEdge]
  ground := by
    intro k hk
    have j1 : Joined [((1, 0), [0])] 1 0 := ⟨((1,0),[0]), by simp, by simp, by simp⟩
    interval_cases k
    · exact .refl
    · exact .single j1
  noInd := by
    intro q hq
    change q ∈ placements [((1, 0), [0])] at hq
    simp [placements] at hq
    subst hq; simp [parallelSpec, transmonObjs]
  noLoops := by
    intro q hq
    change q ∈ placements [((1, 0), [0])] at hq
    simp [placements] at hq
    subst hq; simp [parallelSpec, transmonObjs]
  some := by
    change junctionEdges transmonObjs [((1, 0), [0])] ≠ []
    simp [junctionEdges, transmonObjs]
  indep := by
    change LinearIndependent ℝ (junctionIncidence transmonObjs [((1, 0), [0])] 1).row
    have key : ∀ (l : List Edge) (hl : l = [(1, 0)]),
        LinearIndependent ℝ (Matrix.of fun (i : Fin l.length) (k : Fin 1) => ((incidence (l.get i) (k + 1) : ℤ) : ℝ)).row := by
      rintro _ rfl
      have : (Matrix.of fun (i : Fin [((1 : ℕ), (0 : ℕ))].length) (k : Fin 1) =>
          ((incidence ([((1 : ℕ), (0 : ℕ))].get i) (k + 1) : ℤ) : ℝ)) = (!![1] : Matrix (Fin 1) (Fin 1) ℝ) := by
        ext i j
        fin_cases i; fin_cases j; simp [incidence]
      have h1 : LinearIndependent ℝ (!![1] : Matrix (Fin 1) (Fin 1) ℝ).row := by
        rw [Matrix.linearIndependent_rows_iff_isUnit, Matrix.isUnit_iff_isUnit_det]
        simp
      rw [← this] at h1
      exact h1
    exact key _ (by simp [junctionEdges, transmonObjs])
  square := by
    change (junctionEdges transmonObjs [((1, 0), [0])]).length = 1
    simp [junctionEdges, transmonObjs]

/-- the hypotheses can be met: a transmon, and the transmon with its island as ground; five charge states, the decay of the
first excited state, for every quality factor and temperature -/
theorem C127_example : ∃ (c c' : CircSpec) (eigs : EigsFn) (as : List ℂ → List ℕ) (w0 : World (circPhys c eigs as))
    (w0' : World (circPhys c' eigs as)), EigsLowest eigs ∧ CArgsortSpec as ∧ c'.O = c.O ∧
    c.els = [((0, 1), [0])] ∧ c'.els = [((1, 0), [0])] ∧ (∃ ρ : Equiv.Perm (Fin 2), ρ 0 = 1 ∧ Regrounded ρ c.els c'.els) ∧
    construct (circPhys c eigs as) (fun _ => 1) (fun _ => 0) 1 = .ok w0 ∧
    construct (circPhys c' eigs as) (fun _ => 1) (fun _ => 0) 1 = .ok w0' ∧
    SimpleLevel (reported 3 (run w0 [.setTruncNums (.list [3])])) 0 ∧
    SimpleLevel (reported 3 (run w0 [.setTruncNums (.list [3])])) 1 ∧
    ∀ (noise : ObjNoise) (env : NoiseEnv) (total : Bool), 0 < env.T →
      ∃ x : ℝ, sessionRate noise env "capacitive" (0, 1) total
          (diag (some 3) (run w0 [.setTruncNums (.list [3])])).2 = some (.ok (.val x)) ∧
        sessionRate noise env "capacitive" (0, 1) total
          (diag (some 3) (run w0' [.setTruncNums (.list [3])])).2 = some (.ok (.val x)) := by
  choose lib hlib using exists_lib
  choose argmax hm using exists_argmax
  obtain ⟨argsort, hsrt⟩ := exists_argsort
  obtain ⟨eigs, he⟩ := exists_eigs_lowest
  obtain ⟨as, ha⟩ := exists_cargsort
  let c : CircSpec := parallelSpec false .junctions transmonObjs [0] (fun _ => LoopObj.init 0 0) lib exSv argsort argmax (fun _ _ => 0)
  let c' : CircSpec := { c with els := [((1, 0), [0])] }
  have hr : RoutinesOK c := ⟨hlib, exSv_spec, hsrt, hm, le_refl 3⟩
  have hr' : RoutinesOK c' := ⟨hlib, exSv_spec, hsrt, hm, le_refl 3⟩
  have hj : OnlyJunctions transmonObjs [0] := ⟨by intro i hi; simp at hi; subst hi; simp [transmonObjs], 0, by simp, rfl⟩
  have hnl : ∀ i ∈ ([0] : List ElemId), (transmonObjs.elem i).loops = [] := by
    intro i hi; simp at hi; subst hi; rfl
  have hv1 : ParallelValues transmonObjs [0] (fun _ => 1) := by
    have := transmon_values 1
    simpa using this
  obtain ⟨hI, hV⟩ := oe_island_circuit (torch := false) (fd := .junctions) (h := fun _ => LoopObj.init 0 0) (lib := lib)
    (sv := exSv) (argsort := argsort) (argmax := argmax) (draws := fun _ _ => 0) hj hnl hv1
  have hI' : IslandCircuit c' 1 := flipped_island _ _ _ _
  have hren : Regrounded (Equiv.swap (0 : Fin 2) 1) c.els c'.els := by
    refine ⟨[((1, 0), 0)], List.Perm.refl _, ?_⟩
    have e : placements c.els = [((0, 1), 0)] := rfl
    rw [e]
    exact List.Forall₂.cons ⟨rfl, Or.inl (by decide)⟩ List.Forall₂.nil
  have hV' : IslandValues c' 1 (fun _ => 1) := corr_values (c := c) (c' := c') rfl (reground_corr hI hI' rfl hren) hV
  have hcaps : CapsOK transmonObjs := by
    intro i
    unfold transmonObjs
    by_cases h : i = 0 <;> simp [h]
  obtain ⟨w0, hw, hF⟩ := C97_transmon false .junctions transmonObjs [0] hj hcaps hnl (fun _ => LoopObj.init 0 0) lib hlib exSv
    exSv_spec argsort hsrt argmax hm (fun _ _ => 0) eigs as he ha (fun _ => 1) hv1 (fun _ => 0) 1
  obtain ⟨w0', hw', -⟩ := C93_session _ 1 hI' hr' hcaps eigs as (fun _ => 1) hV' (fun _ => 0) 1
  obtain ⟨ho, hmm, hu, hvv, -⟩ := isl_truncated hI hr hV hw (t := 3) (by norm_num)
  obtain ⟨F, v, hd, hlen, hsorted⟩ := hF [.setTruncNums (.list (List.replicate 1 3))] ho (by
      intro h1 h2 he
      match h1, he with
      | [], he => simp at he
      | [_], he => simp at he
      | _ :: _ :: _, he => simp at he) (by intro i _; rw [hvv]; rfl) (by rw [hvv]; exact hv1) (by
      rw [hvv]; simp [transmonObjs]) (by rw [hu]; norm_num) 5 3 (by rw [hmm]; rfl) (by norm_num) (by norm_num)
  have hrep : reported 3 (run w0 [.setTruncNums (.list (List.replicate 1 3))]) = F := by
    unfold reported
    rw [hd]
  have hs0 : SimpleLevel (reported 3 (run w0 [.setTruncNums (.list (List.replicate 1 3))])) 0 := by
    rw [hrep]; exact simple_of_sorted hsorted (by omega)
  have hs1 : SimpleLevel (reported 3 (run w0 [.setTruncNums (.list (List.replicate 1 3))])) 1 := by
    rw [hrep]; exact simple_of_sorted hsorted (by omega)
  exact ⟨c, c', eigs, as, w0, w0', he, ha, rfl, rfl, rfl, ⟨_, by decide, hren⟩, hw, hw', hs0, hs1, fun noise env total hT =>
    C127_constructed he ha he ha (by norm_num) hI hI' hr hr' rfl hcaps _ hren (fun _ => 1) hV _ _ 1 1 w0 hw w0' hw' 3
      (by norm_num) 3 0 1 (by norm_num) (by norm_num) (by decide) (by norm_num) hs0 hs1 noise env total hT⟩

end SQ
