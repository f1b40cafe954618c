import Verif.Props.ThermalSession
import Verif.Props.DephasingSessionExample

/-!
# C142: a SQUID at two temperatures
-/

namespace SQ
open Spec Matrix

/-- A SQUID with seven charge states, one of whose junctions had its energy doubled, with capacitors of quality factor 10^6:
its two lowest levels have different frequencies, the rates up and down obey detailed balance at any temperature, and the
rate at 1 K is at least that at 10 mK. -/
theorem C142_example : ∃ (c : CircSpec) (eigs : EigsFn) (as : List ℂ → List ℕ) (w0 : World (circPhys c eigs as))
    (noise : ObjNoise),
    construct (circPhys c eigs as) (fun _ => 1) (fun _ => 1) 1 = .ok w0 ∧ PositiveNoise noise 1 ∧
    let w := run w0 [.setTruncNums (.list [4]), .setValue 2 2]
    transition 3 1 0 w ≠ 0 ∧
    (∀ env : NoiseEnv, 0 < env.T → photonOverHeat env.T 1 (transition 3 1 0 w) ≤ 709 →
      ∃ r, sessionRate noise env "capacitive" (1, 0) false (diag (some 3) w).2 = some (.ok (.val r)) ∧
        sessionRate noise env "capacitive" (0, 1) false (diag (some 3) w).2 =
          some (.ok (.val (Real.exp (-photonOverHeat env.T 1 (transition 3 1 0 w)) * r)))) ∧
    ∃ r r', sessionRate noise ⟨1, 1, 1 / 100⟩ "capacitive" (1, 0) true (diag (some 3) w).2 = some (.ok (.val r)) ∧
      sessionRate noise ⟨1, 1, 1⟩ "capacitive" (1, 0) true (diag (some 3) w).2 = some (.ok (.val r')) ∧ 0 ≤ r ∧ r ≤ r' := by
  choose lib hlib using exists_lib
  choose argmax hm using exists_argmax
  obtain ⟨argsort, hsrt⟩ := exists_argsort
  obtain ⟨eigs, he⟩ := exists_eigs_lowest
  obtain ⟨as, ha⟩ := exists_cargsort
  have hj : OnlyJunctions squidObjs [4, 0, 2] := by
    refine ⟨?_, 0, by simp, rfl⟩
    intro i hi
    simp at hi
    rcases hi with rfl | rfl | rfl <;> decide
  have hcaps : CapsOK squidObjs := by
    intro i
    unfold squidObjs
    by_cases h0 : i = 0 <;> by_cases h2 : i = 2 <;> simp [h0, h2]
  obtain ⟨w0, hw, ho, -, hbd, hm7, -, hu, hv, -, hcard⟩ := squid_truncated .junctions lib hlib argsort hsrt argmax hm
    eigs as (fun _ => 1)
  obtain ⟨wx, hwx, hall⟩ := C97_squid false .junctions squidObjs [4, 0, 2] 0 2 0 (by decide) rfl rfl rfl rfl hcaps
    (fun _ => LoopObj.init 0 0) lib hlib exSv exSv_spec argsort hsrt argmax hm (fun _ _ => 0) eigs as he ha (fun _ => 1)
    squid_values (fun _ => 1) 1
  obtain rfl : w0 = wx := Except.ok.inj (hw.symm.trans hwx)
  have hgood := oe_good (vals := fun _ => 1) (torch := false) (fd := .junctions) (h := fun _ => LoopObj.init 0 0)
    (sv := exSv) (argsort := argsort) (draws := fun _ _ => 0) hj hlib hm squid_values
  have hb : buildCirc _ _ = .ok w0.circ.bd := (construct_build hw).1
  obtain ⟨hk, -, -, hom, -⟩ := oe_facts (fd := .junctions) (torch := false) hj hlib exSv_spec hsrt hm squid_values hb
  have hr : run w0 [.setTruncNums (.list [4]), .setValue 2 2] =
      ((Act.setValue 2 2).exec (run w0 [.setTruncNums (.list [4])])).2 := rfl
  have hord : Orderly w0 [.setTruncNums (.list [4]), .setValue 2 2] := ⟨ho.1, fun h => Or.inl rfl, trivial⟩
  have hvals : (run w0 [.setTruncNums (.list [4]), .setValue 2 2]).vals = fun i => if i = 2 then 2 else 1 := by
    funext i
    rw [hr]
    show Function.update (run w0 [.setTruncNums (.list [4])]).vals 2 2 i = _
    rw [hv]
    by_cases h : i = 2 <;> simp [Function.update, h]
  have hcirc : (run w0 [.setTruncNums (.list [4]), .setValue 2 2]).circ = (run w0 [.setTruncNums (.list [4])]).circ := rfl
  have hun : (run w0 [.setTruncNums (.list [4]), .setValue 2 2]).unitFreq = 1 := by rw [hr]; exact hu
  have hd := hall [.setTruncNums (.list [4]), .setValue 2 2] hord
    (by
      intro h1 h2 hx
      have : Act.update ∈ [Act.setTruncNums (.list [4]), .setValue 2 2] := by rw [hx]; simp
      simp at this)
    (by
      intro i hi
      have : i ≠ 2 := by rintro rfl; exact hi rfl
      rw [hvals]
      simp [this, lastBuilt])
    (by
      rw [hvals]
      constructor
      · intro i hi
        simp at hi
        rcases hi with rfl | rfl | rfl <;> simp [placedCap, squidObjs, Objs.withVals]
      · simp [totalCap, placedCap, squidObjs, Objs.withVals]
        norm_num)
    (by rw [hvals]; norm_num) (by rw [hun]; norm_num) 7 3 (by rw [hcirc]; exact hm7) (by norm_num) (by norm_num)
  obtain ⟨F, v, hd, hlen, hsort⟩ := hd
  have hrep : reported 3 (run w0 [.setTruncNums (.list [4]), .setValue 2 2]) = F := by
    unfold reported
    rw [hd]
  have hc : Fintype.card (Idx ((run w0 [.setTruncNums (.list [4]), .setValue 2 2]).circ.bd.dims
    (run w0 [.setTruncNums (.list [4]), .setValue 2 2]).circ.m)) = 7 := hcard
  have hmne : (run w0 [.setTruncNums (.list [4]), .setValue 2 2]).circ.m ≠ [] := by
    rw [hcirc, hm7]
    simp
  have hne : transition 3 1 0 (run w0 [.setTruncNums (.list [4]), .setValue 2 2]) ≠ 0 := by
    unfold transition
    rw [hrep]
    have := List.pairwise_iff_getElem.1 hsort 0 1 (by omega) (by omega) (by norm_num)
    rw [List.getD_eq_getElem _ _ (by omega), List.getD_eq_getElem _ _ (by omega)]
    exact (sub_pos.2 this).ne'
  have hup : 0 < (run w0 [.setTruncNums (.list [4]), .setValue 2 2]).unitFreq := by rw [hun]; norm_num
  have hvp : ∀ i, 0 < (run w0 [.setTruncNums (.list [4]), .setValue 2 2]).vals i := by
    intro i
    rw [hvals]
    by_cases h : i = 2 <;> simp [h]
  refine ⟨_, eigs, as, w0, ⟨fun _ => some fun _ => 1000000, fun _ _ _ => none, fun _ _ _ => none, fun _ => 0, fun _ => 0⟩, hw,
    ⟨?_, fun _ _ _ h => (by cases h), fun _ _ _ h => (by cases h)⟩, hne, ?_, ?_⟩
  · intro i Q hQ w
    cases hQ
    norm_num
  · intro env hT h709
    obtain ⟨r, h1, h2, -, -⟩ := C142_balance he ha hgood.noSelf (fun _ => 1) (fun _ => 1) 1 w0 hw
      [.setTruncNums (.list [4]), .setValue 2 2] hord hmne 3 (by norm_num) (by rw [hc]; norm_num) hup 1 0 (by norm_num)
      (by norm_num) hne
      ⟨fun _ => some fun _ => 1000000, fun _ _ _ => none, fun _ _ _ => none, fun _ => 0, fun _ => 0⟩ env hT "capacitive"
      (by simp [lossTypes])
    rw [hun, if_pos h709] at h2
    exact ⟨r, h1, h2⟩
  · exact C142_temperature he ha hgood.noSelf (fun _ => 1) (fun _ => 1) 1 w0 hw
      [.setTruncNums (.list [4]), .setValue 2 2] hord hmne 3 (by norm_num) (by rw [hc]; norm_num) hup 1 0 (by norm_num)
      (by norm_num) hne _ ⟨1, 1, 1 / 100⟩ ⟨1, 1, 1⟩ (by norm_num) (by norm_num)
      (by intro i Q hQ w; cases hQ; norm_num) hvp

end SQ
