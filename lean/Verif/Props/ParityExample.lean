import Verif.Props.Parity
import Verif.Props.DephasingSessionExample

/-!
# C126: a session that meets the hypotheses
-/

namespace SQ
open Spec

/-- A SQUID at zero flux and zero charge offset, with seven charge states, one of whose junctions had its energy doubled
by `set_value`: among its three lowest levels there are two between which capacitive and inductive loss are absent. -/
theorem C126_example : ∃ (c : CircSpec) (eigs : EigsFn) (as : List ℂ → List ℕ) (w0 : World (circPhys c eigs as)) (h : List Act),
    construct (circPhys c eigs as) (fun _ => 1) (fun _ => 0) 1 = .ok w0 ∧ Orderly w0 h ∧ (run w0 h).circ.m = [7] ∧
    (run w0 h).circ.bd.loops = [0] ∧ (∀ i : Fin 3, SimpleLevel (reported 4 (run w0 h)) i) ∧
    ∃ i j : Fin 3, i ≠ j ∧ ∀ (noise : ObjNoise) (env : NoiseEnv) (total : Bool), 0 < env.T →
      sessionRate noise env "capacitive" ((i : ℕ), (j : ℕ)) total (run w0 (h ++ [.diag (some 4)])) = some (.ok (.val 0)) ∧
      sessionRate noise env "inductive" ((i : ℕ), (j : ℕ)) total (run w0 (h ++ [.diag (some 4)])) = some (.ok (.val 0)) := by
  choose lib hlib using exists_lib
  choose argmax hm using exists_argmax
  obtain ⟨argsort, hsrt⟩ := exists_argsort
  obtain ⟨eigs, he⟩ := exists_eigs_lowest
  obtain ⟨as, ha⟩ := exists_cargsort
  have hj : OnlyJunctions squidObjs [4, 0, 2] := by
    refine ⟨?_, 0, by simp, rfl⟩
    intro i hi
    simp at hi
    rcases hi with rfl | rfl | rfl <;> decide
  have hcaps : CapsOK squidObjs := by
    intro i
    unfold squidObjs
    by_cases h0 : i = 0 <;> by_cases h2 : i = 2 <;> simp [h0, h2]
  obtain ⟨w0, hw, ho, hl, hbd, hm7, hng, hu, hv, hf, hcard⟩ := squid_truncated .junctions lib hlib argsort hsrt argmax hm
    eigs as (fun _ => 0)
  obtain ⟨w0', hw', hall⟩ := C97_squid false .junctions squidObjs [4, 0, 2] 0 2 0 (by decide) rfl rfl rfl rfl hcaps
    (fun _ => LoopObj.init 0 0) lib hlib exSv exSv_spec argsort hsrt argmax hm (fun _ _ => 0) eigs as he ha (fun _ => 1)
    squid_values (fun _ => 0) 1
  obtain rfl : w0 = w0' := Except.ok.inj (hw.symm.trans hw')
  have hgood := oe_good (vals := fun _ => 1) (torch := false) (fd := .junctions) (h := fun _ => LoopObj.init 0 0)
    (sv := exSv) (argsort := argsort) (draws := fun _ _ => 0) hj hlib hm squid_values
  have hb : buildCirc _ _ = .ok w0.circ.bd := (construct_build hw).1
  obtain ⟨hk, -, -, hom, -⟩ := oe_facts (fd := .junctions) (torch := false) hj hlib exSv_spec hsrt hm squid_values hb
  have hr : run w0 [.setTruncNums (.list [4]), .setValue 2 2] =
      ((Act.setValue 2 2).exec (run w0 [.setTruncNums (.list [4])])).2 := rfl
  have hord : Orderly w0 [.setTruncNums (.list [4]), .setValue 2 2] := ⟨ho.1, fun h => Or.inl rfl, trivial⟩
  have hvals : (run w0 [.setTruncNums (.list [4]), .setValue 2 2]).vals = fun i => if i = 2 then 2 else 1 := by
    funext i
    rw [hr]
    show Function.update (run w0 [.setTruncNums (.list [4])]).vals 2 2 i = _
    rw [hv]
    by_cases h : i = 2 <;> simp [Function.update, h]
  have hcirc : (run w0 [.setTruncNums (.list [4]), .setValue 2 2]).circ = (run w0 [.setTruncNums (.list [4])]).circ := rfl
  have hun : (run w0 [.setTruncNums (.list [4]), .setValue 2 2]).unitFreq = 1 := by rw [hr]; exact hu
  have hd := hall [.setTruncNums (.list [4]), .setValue 2 2] hord
    (by
      intro h1 h2 hx
      have : Act.update ∈ [Act.setTruncNums (.list [4]), .setValue 2 2] := by rw [hx]; simp
      simp at this)
    (by
      intro i hi
      have : i ≠ 2 := by rintro rfl; exact hi rfl
      rw [hvals]
      simp [this, lastBuilt])
    (by
      rw [hvals]
      constructor
      · intro i hi
        simp at hi
        rcases hi with rfl | rfl | rfl <;> simp [placedCap, squidObjs, Objs.withVals]
      · simp [totalCap, placedCap, squidObjs, Objs.withVals]
        norm_num)
    (by rw [hvals]; norm_num) (by rw [hun]; norm_num) 7 4 (by rw [hcirc]; exact hm7) (by norm_num) (by norm_num)
  obtain ⟨F, v, hd, hlen, hsort⟩ := hd
  have hrep : reported 4 (run w0 [.setTruncNums (.list [4]), .setValue 2 2]) = F := by
    unfold reported
    rw [hd]
  have hsim : ∀ i : Fin 3, SimpleLevel (reported 4 (run w0 [.setTruncNums (.list [4]), .setValue 2 2])) i := by
    intro i
    rw [hrep]; exact simple_of_sorted hsort (by omega)
  have hflux : (run w0 [.setTruncNums (.list [4]), .setValue 2 2]).flux = fun _ => 0 := hf
  have hng' : (run w0 [.setTruncNums (.list [4]), .setValue 2 2]).circ.ng = fun i => if i = 0 then some 0 else none := hng
  refine ⟨_, eigs, as, w0, [.setTruncNums (.list [4]), .setValue 2 2], hw, hord, by rw [hcirc]; exact hm7,
    by rw [hcirc, hbd]; exact hl, hsim, ?_⟩
  have hc : Fintype.card (Idx ((run w0 [.setTruncNums (.list [4]), .setValue 2 2]).circ.bd.dims
      (run w0 [.setTruncNums (.list [4]), .setValue 2 2]).circ.m)) = 7 := hcard
  refine C126_three he ha hgood.noSelf (fun _ => 1) (fun _ => 0) 1 w0 hw _ hord (by rw [hcirc, hm7]; simp) 4
    (by rw [hc]; norm_num) ?_ ?_ (fun i => (i : ℕ)) Fin.val_injective (fun i => by omega) hsim
  · intro l
    refine ⟨0, ?_, Or.inl rfl⟩
    rw [hflux]; simp
  · intro i _
    rw [hng']
    by_cases h : (i : ℕ) = 0 <;> simp [h]

end SQ
