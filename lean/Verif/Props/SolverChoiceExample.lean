import Verif.Props.SolverChoice
import Verif.Props.DephasingSessionExample

/-!
# C141: a session computed twice
-/

namespace SQ
open Spec Matrix

/-- the routine that returns the same eigenvalues with all eigenvectors turned round -/
noncomputable def flipEigs (eigs : EigsFn) : EigsFn := fun H n =>
  (eigs H n).map fun l => l.map fun p => (p.1, ⟨p.2.1, p.2.2.1, (-1 : ℂ) • p.2.2.2⟩)

theorem flipEigs_lowest {eigs : EigsFn} (he : EigsLowest eigs) : EigsLowest (flipEigs eigs) := by
  intro k d H num hH h1 hn
  obtain ⟨l, hl, hp, vs, ws, hlev, hperm⟩ := he k d H num hH h1 hn
  refine ⟨l.map fun p => (p.1, (-1 : ℂ) • p.2), ?_, ?_, vs, ws, hlev, ?_⟩
  · unfold flipEigs
    rw [hl]
    simp [Except.map]
  · intro p hpm
    obtain ⟨q, hq, rfl⟩ := List.mem_map.1 hpm
    obtain ⟨h1, h2⟩ := hp q hq
    refine ⟨?_, ?_⟩
    · refine Eq.trans ?_ h1
      simp [overlap]
    · simp only [Matrix.mulVec_smul, h2]
      rw [smul_comm]
  · rw [List.map_map]
    exact hperm

/-- A SQUID with seven charge states, one of whose junctions had its energy doubled. One program asks for three levels; another
one, with a routine that returns all eigenvectors with the other sign, diagonalises in between and asks for two levels. The
two lowest frequencies and all rates between them agree, and the capacitive rate is a number. -/
theorem C141_example (noise : ObjNoise) (env : NoiseEnv) : ∃ (c : CircSpec) (eigs : EigsFn) (as : List ℂ → List ℕ)
    (w0 : World (circPhys c eigs as)) (w0' : World (circPhys c (flipEigs eigs) as)),
    EigsLowest eigs ∧ construct (circPhys c eigs as) (fun _ => 1) (fun _ => 1) 1 = .ok w0 ∧
    construct (circPhys c (flipEigs eigs) as) (fun _ => 1) (fun _ => 1) 1 = .ok w0' ∧
    let w := run w0 [.setTruncNums (.list [4]), .setValue 2 2]
    let w' := run w0' [.setTruncNums (.list [4]), .diag (some 4), .setValue 2 2, .hamiltonian]
    (reported 3 w).length = 3 ∧ (reported 3 w)[0]? = (reported 2 w')[0]? ∧ (reported 3 w)[1]? = (reported 2 w')[1]? ∧
    (∃ r, sessionRate noise env "capacitive" (1, 0) true (diag (some 3) w).2 = some (.ok r)) ∧
    ∀ ty total, sessionRate noise env ty (1, 0) total (diag (some 3) w).2 =
      sessionRate noise env ty (1, 0) total (diag (some 2) w').2 := by
  choose lib hlib using exists_lib
  choose argmax hm using exists_argmax
  obtain ⟨argsort, hsrt⟩ := exists_argsort
  obtain ⟨eigs, he⟩ := exists_eigs_lowest
  obtain ⟨as, ha⟩ := exists_cargsort
  have hj : OnlyJunctions squidObjs [4, 0, 2] := by
    refine ⟨?_, 0, by simp, rfl⟩
    intro i hi
    simp at hi
    rcases hi with rfl | rfl | rfl <;> decide
  have hcaps : CapsOK squidObjs := by
    intro i
    unfold squidObjs
    by_cases h0 : i = 0 <;> by_cases h2 : i = 2 <;> simp [h0, h2]
  obtain ⟨w0, hw, ho, -, hbd, hm7, -, hu, hv, -, hcard⟩ := squid_truncated .junctions lib hlib argsort hsrt argmax hm
    eigs as (fun _ => 1)
  obtain ⟨w0', hw', ho', -⟩ := squid_truncated .junctions lib hlib argsort hsrt argmax hm (flipEigs eigs) as (fun _ => 1)
  obtain ⟨wx, hwx, hall⟩ := C97_squid false .junctions squidObjs [4, 0, 2] 0 2 0 (by decide) rfl rfl rfl rfl hcaps
    (fun _ => LoopObj.init 0 0) lib hlib exSv exSv_spec argsort hsrt argmax hm (fun _ _ => 0) eigs as he ha (fun _ => 1)
    squid_values (fun _ => 1) 1
  obtain rfl : w0 = wx := Except.ok.inj (hw.symm.trans hwx)
  have hgood := oe_good (vals := fun _ => 1) (torch := false) (fd := .junctions) (h := fun _ => LoopObj.init 0 0)
    (sv := exSv) (argsort := argsort) (draws := fun _ _ => 0) hj hlib hm squid_values
  have hb : buildCirc _ _ = .ok w0.circ.bd := (construct_build hw).1
  obtain ⟨hk, -, -, hom, -⟩ := oe_facts (fd := .junctions) (torch := false) hj hlib exSv_spec hsrt hm squid_values hb
  have hr : run w0 [.setTruncNums (.list [4]), .setValue 2 2] =
      ((Act.setValue 2 2).exec (run w0 [.setTruncNums (.list [4])])).2 := rfl
  have hord : Orderly w0 [.setTruncNums (.list [4]), .setValue 2 2] := ⟨ho.1, fun h => Or.inl rfl, trivial⟩
  have hvals : (run w0 [.setTruncNums (.list [4]), .setValue 2 2]).vals = fun i => if i = 2 then 2 else 1 := by
    funext i
    rw [hr]
    show Function.update (run w0 [.setTruncNums (.list [4])]).vals 2 2 i = _
    rw [hv]
    by_cases h : i = 2 <;> simp [Function.update, h]
  have hcirc : (run w0 [.setTruncNums (.list [4]), .setValue 2 2]).circ = (run w0 [.setTruncNums (.list [4])]).circ := rfl
  have hun : (run w0 [.setTruncNums (.list [4]), .setValue 2 2]).unitFreq = 1 := by rw [hr]; exact hu
  have hd := hall [.setTruncNums (.list [4]), .setValue 2 2] hord
    (by
      intro h1 h2 hx
      have : Act.update ∈ [Act.setTruncNums (.list [4]), .setValue 2 2] := by rw [hx]; simp
      simp at this)
    (by
      intro i hi
      have : i ≠ 2 := by rintro rfl; exact hi rfl
      rw [hvals]
      simp [this, lastBuilt])
    (by
      rw [hvals]
      constructor
      · intro i hi
        simp at hi
        rcases hi with rfl | rfl | rfl <;> simp [placedCap, squidObjs, Objs.withVals]
      · simp [totalCap, placedCap, squidObjs, Objs.withVals]
        norm_num)
    (by rw [hvals]; norm_num) (by rw [hun]; norm_num) 7 3 (by rw [hcirc]; exact hm7) (by norm_num) (by norm_num)
  obtain ⟨F, v, hd, hlen, hsort⟩ := hd
  have hrep : reported 3 (run w0 [.setTruncNums (.list [4]), .setValue 2 2]) = F := by
    unfold reported
    rw [hd]
  have hord' : Orderly w0' [.setTruncNums (.list [4]), .diag (some 4), .setValue 2 2, .hamiltonian] :=
    ⟨ho'.1, fun h => (by cases h), fun h => Or.inl rfl, fun h => (by cases h), trivial⟩
  have hc : Fintype.card (Idx ((run w0 [.setTruncNums (.list [4]), .setValue 2 2]).circ.bd.dims
    (run w0 [.setTruncNums (.list [4]), .setValue 2 2]).circ.m)) = 7 := hcard
  have hmne : (run w0 [.setTruncNums (.list [4]), .setValue 2 2]).circ.m ≠ [] := by
    rw [hcirc, hm7]
    simp
  obtain ⟨h1, -, h3⟩ := C141_solver he ha (flipEigs_lowest he) ha hgood.noSelf (fun _ => 1) (fun _ => 1) 1 w0 hw w0' hw'
    [.setTruncNums (.list [4]), .setValue 2 2] [.setTruncNums (.list [4]), .diag (some 4), .setValue 2 2, .hamiltonian] rfl
    hord hord' hmne 3 2 (by norm_num) (by norm_num) (by rw [hc]; norm_num) (by rw [hc]; norm_num)
  obtain ⟨-, hdef, -⟩ := C112_defined he ha hgood.noSelf (fun _ => 1) (fun _ => 1) 1 w0 hw
    [.setTruncNums (.list [4]), .setValue 2 2] hord hmne 3 (by norm_num) (by rw [hc]; norm_num) noise env true
  refine ⟨_, eigs, as, w0, w0', he, hw, hw', by rw [hrep]; exact hlen, h1 0 (by norm_num) (by norm_num),
    h1 1 (by norm_num) (by norm_num), hdef 1 0 (by norm_num) (by norm_num) _ (by simp [sweepTypes]), fun ty total => ?_⟩
  exact h3 1 0 (by norm_num) (by norm_num) (by norm_num) (by norm_num) (by rw [hrep]; exact simple_of_sorted hsort (by omega))
    (by rw [hrep]; exact simple_of_sorted hsort (by omega)) noise env ty total

end SQ
