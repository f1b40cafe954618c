import Verif.Props.ReversalRates
import Verif.Props.DephasingSessionExample

/-!
# C143: a SQUID with flux 3/10 and with flux -3/10
-/

namespace SQ
open Spec Matrix

/-- A SQUID with seven charge states, one of whose junctions had its energy doubled: with 3/10 or -3/10 of a flux quantum in
its loop its two lowest levels are simple and have the same rates of every type. -/
theorem C143_example : ∃ (c : CircSpec) (eigs : EigsFn) (as : List ℂ → List ℕ) (w0 : World (circPhys c eigs as)),
    construct (circPhys c eigs as) (fun _ => 1) (fun _ => 1) 1 = .ok w0 ∧
    let w := run w0 [.setTruncNums (.list [4]), .setValue 2 2, .setFlux 0 (3 / 10)]
    let w' := run w0 [.setTruncNums (.list [4]), .setValue 2 2, .setFlux 0 (-(3 / 10))]
    SimpleLevel (reported 3 w) 0 ∧ SimpleLevel (reported 3 w) 1 ∧ w.flux 0 ≠ w'.flux 0 ∧
    ∀ (noise : ObjNoise) (env : NoiseEnv) (ty : String) (total : Bool),
      sessionRate noise env ty (1, 0) total (diag (some 3) w').2 = sessionRate noise env ty (1, 0) total (diag (some 3) w).2 := by
  choose lib hlib using exists_lib
  choose argmax hm using exists_argmax
  obtain ⟨argsort, hsrt⟩ := exists_argsort
  obtain ⟨eigs, he⟩ := exists_eigs_lowest
  obtain ⟨as, ha⟩ := exists_cargsort
  have hj : OnlyJunctions squidObjs [4, 0, 2] := by
    refine ⟨?_, 0, by simp, rfl⟩
    intro i hi
    simp at hi
    rcases hi with rfl | rfl | rfl <;> decide
  have hcaps : CapsOK squidObjs := by
    intro i
    unfold squidObjs
    by_cases h0 : i = 0 <;> by_cases h2 : i = 2 <;> simp [h0, h2]
  obtain ⟨w0, hw, ho, hlp, hbd, hm7, -, hu, hv, -, hcard⟩ := squid_truncated .junctions lib hlib argsort hsrt argmax hm
    eigs as (fun _ => 1)
  obtain ⟨wx, hwx, hall⟩ := C97_squid false .junctions squidObjs [4, 0, 2] 0 2 0 (by decide) rfl rfl rfl rfl hcaps
    (fun _ => LoopObj.init 0 0) lib hlib exSv exSv_spec argsort hsrt argmax hm (fun _ _ => 0) eigs as he ha (fun _ => 1)
    squid_values (fun _ => 1) 1
  obtain rfl : w0 = wx := Except.ok.inj (hw.symm.trans hwx)
  have hgood := oe_good (vals := fun _ => 1) (torch := false) (fd := .junctions) (h := fun _ => LoopObj.init 0 0)
    (sv := exSv) (argsort := argsort) (draws := fun _ _ => 0) hj hlib hm squid_values
  have hr : run w0 [.setTruncNums (.list [4]), .setValue 2 2, .setFlux 0 (3 / 10)] =
      ((Act.setFlux 0 (3 / 10)).exec ((Act.setValue 2 2).exec (run w0 [.setTruncNums (.list [4])])).2).2 := rfl
  have hord : Orderly w0 [.setTruncNums (.list [4]), .setValue 2 2, .setFlux 0 (3 / 10)] :=
    ⟨ho.1, fun h => Or.inl rfl, fun h => Or.inl rfl, trivial⟩
  have hord2 : Orderly w0 [.setTruncNums (.list [4]), .setValue 2 2] := ⟨ho.1, fun h => Or.inl rfl, trivial⟩
  have hvals : (run w0 [.setTruncNums (.list [4]), .setValue 2 2, .setFlux 0 (3 / 10)]).vals =
      fun i => if i = 2 then 2 else 1 := by
    funext i
    rw [hr]
    show Function.update (run w0 [.setTruncNums (.list [4])]).vals 2 2 i = _
    rw [hv]
    by_cases h : i = 2 <;> simp [Function.update, h]
  have hcirc : (run w0 [.setTruncNums (.list [4]), .setValue 2 2, .setFlux 0 (3 / 10)]).circ =
    (run w0 [.setTruncNums (.list [4])]).circ := rfl
  have hun : (run w0 [.setTruncNums (.list [4]), .setValue 2 2, .setFlux 0 (3 / 10)]).unitFreq = 1 := by
    rw [hr]; exact hu
  have hd := hall [.setTruncNums (.list [4]), .setValue 2 2, .setFlux 0 (3 / 10)] hord
    (by
      intro h1 h2 hx
      have : Act.update ∈ [Act.setTruncNums (.list [4]), .setValue 2 2, .setFlux 0 (3 / 10)] := by rw [hx]; simp
      simp at this)
    (by
      intro i hi
      have : i ≠ 2 := by rintro rfl; exact hi rfl
      rw [hvals]
      simp [this, lastBuilt])
    (by
      rw [hvals]
      constructor
      · intro i hi
        simp at hi
        rcases hi with rfl | rfl | rfl <;> simp [placedCap, squidObjs, Objs.withVals]
      · simp [totalCap, placedCap, squidObjs, Objs.withVals]
        norm_num)
    (by rw [hvals]; norm_num) (by rw [hun]; norm_num) 7 3 (by rw [hcirc]; exact hm7) (by norm_num) (by norm_num)
  obtain ⟨F, v, hd, hlen, hsort⟩ := hd
  have hrep : reported 3 (run w0 [.setTruncNums (.list [4]), .setValue 2 2, .setFlux 0 (3 / 10)]) = F := by
    unfold reported
    rw [hd]
  have hsimple : ∀ p, p < 3 → SimpleLevel F p := by
    intro p hp
    refine ⟨by omega, fun n hn hne heq => hne ?_⟩
    rw [List.getElem?_eq_getElem hn, List.getElem?_eq_getElem (by omega)] at heq
    have hlt := List.pairwise_iff_getElem.1 hsort
    rcases lt_trichotomy n p with h | h | h
    · exact absurd (Option.some.inj heq) (hlt n p hn (by omega) h).ne
    · exact h
    · exact absurd (Option.some.inj heq) (hlt p n (by omega) hn h).ne'
  have hmne : (run w0 [.setTruncNums (.list [4]), .setValue 2 2]).circ.m ≠ [] := by
    show (run w0 [.setTruncNums (.list [4])]).circ.m ≠ []
    rw [hm7]
    simp
  have hloops : Build.loops (run w0 [.setTruncNums (.list [4]), .setValue 2 2]).circ.bd = [0] := by
    show Build.loops (run w0 [.setTruncNums (.list [4])]).circ.bd = [0]
    rw [hbd]
    exact hlp
  have key := C143_flux_reversal he ha hgood.noSelf (fun _ => 1) (fun _ => 1) 1 w0 hw
    [.setTruncNums (.list [4]), .setValue 2 2] hord2 hmne (fun _ => 3 / 10) 3 (by norm_num)
    (by
      have hc : Fintype.card (Idx ((run w0 [.setTruncNums (.list [4]), .setValue 2 2]).circ.bd.dims
        (run w0 [.setTruncNums (.list [4]), .setValue 2 2]).circ.m)) = 7 := hcard
      rw [hc]; norm_num)
  rw [hloops] at key
  refine ⟨_, eigs, as, w0, hw, by rw [hrep]; exact hsimple 0 (by norm_num), by rw [hrep]; exact hsimple 1 (by norm_num), ?_, ?_⟩
  · rw [hr]
    show Function.update (run w0 [.setTruncNums (.list [4]), .setValue 2 2]).flux 0 (3 / 10 * 2 * Real.pi) 0 ≠
      Function.update (run w0 [.setTruncNums (.list [4]), .setValue 2 2]).flux 0 (-(3 / 10) * 2 * Real.pi) 0
    rw [Function.update_self, Function.update_self]
    intro h
    have := Real.pi_pos
    linarith
  · intro noise env ty total
    exact key 1 0 (by norm_num) (by norm_num)
      ((congrArg (fun F => SimpleLevel F 1) hrep).mpr (hsimple 1 (by norm_num)))
      ((congrArg (fun F => SimpleLevel F 0) hrep).mpr (hsimple 0 (by norm_num))) noise env ty total

end SQ
