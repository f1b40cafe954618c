import Verif.Props.SweepObject
import Verif.Props.LevelsExample

/-!
# C140: sweeps of circuits
-/

namespace SQ
open Spec

variable {c : CircSpec} {eigs : EigsFn} {as : List ℂ → List ℕ}

/-- C140 on circuits: for a constructed circuit, truncated after any calls, a sweep of a loop over any grid with at least two
levels below the dimension meets the conditions of `C140_file` and `C140_returned`, with and without losses. -/
theorem C140_works (he : EigsLowest eigs) (ha : CArgsortSpec as) (hs : NoSelfLoops c.els)
    (vals : ElemId → ℝ) (flux : LoopId → ℝ) (u : ℝ)
    (w0 : World (circPhys c eigs as)) (hw : construct (circPhys c eigs as) vals flux u = .ok w0)
    (h : List Act) (hh : Orderly w0 h) (hm : (run w0 h).circ.m ≠ []) (num : ℕ) (h2 : 2 ≤ num)
    (hdim : num + 1 < Fintype.card (Idx ((run w0 h).circ.bd.dims (run w0 h).circ.m)))
    (noise : ObjNoise) (env : NoiseEnv) (l : LoopId) (loss : Bool) (g : List ℝ) :
    PointsWork (sweepRate noise env) (run w0 h) (.setFlux l) num loss g := by
  intro v hv
  obtain ⟨tab, dec, w', -, hj⟩ := C112_circuit_flux he ha hs vals flux u w0 hw h hh hm num h2 hdim noise env l [] [v]
  obtain ⟨⟨r, hr, hlen, -⟩, hrate⟩ := hj 0 (by simp)
  refine ⟨rfl, ⟨r, ?_, hlen⟩, fun _ ty ht => ⟨dec ty [0], ?_⟩⟩
  · have e : run (run w0 h) [.setFlux l v] = run w0 (h ++ [.setFlux l v]) := (run_append _ _ _).symm
    rw [e]
    simpa using hr
  · have e : run (run w0 h) [.setFlux l v, .diag (some num)] = run w0 (h ++ [.setFlux l v, .diag (some num)]) :=
      (run_append _ _ _).symm
    rw [e]
    have := hrate ty ht
    simp only [List.getD_cons_zero] at this
    unfold sweepRate
    rw [this]
    rfl

/-- A fluxonium, truncated: three levels and all rates are swept over three fluxes into a file; then the loop is set to another
flux, the list of fluxes changed in place and swept again with the same object. The file still has the first grid and its
tables. -/
theorem C140_example (noise : ObjNoise) (env : NoiseEnv) :
    ∃ (eigs : EigsFn) (as : List ℂ → List ℕ) (c : CircSpec) (vals : ElemId → ℝ)
      (w0 : World (circPhys c eigs as)) (h : List Act),
      construct (circPhys c eigs as) vals (fun _ => 0) 1 = .ok w0 ∧ Orderly w0 h ∧ (run w0 h).circ.bd.loops = [0] ∧
      let d := deskRun (sweepRate noise env) (Desk.start (run w0 h) fun _ => [[0, 1 / 2, 1]])
        [.new 0 3 true, .sweep 0 (.flux [0]) (.caller 0) (some "a") false, .act (.setFlux 0 (1 / 4)),
          .editGrid (.caller 0) [[0, 3]], .sweep 0 (.flux [0]) (.caller 0) none false, .load 1 "a"]
      ∃ o tab dec, d.sweeps 1 = some o ∧ d.contents o = ⟨3, true, some (.flux [0]), some [[0, 1 / 2, 1]], some tab, dec⟩ ∧
        PointTables (sweepRate noise env) (run w0 h) (.setFlux 0) 3 true [0, 1 / 2, 1] tab dec := by
  obtain ⟨eigs, as, c, vals, w0, h, he, ha, hs, hw, hh, hm, hcard, -, hlo, -⟩ := C90_example
  refine ⟨eigs, as, c, vals, w0, h, hw, hh, hlo, ?_⟩
  have hwork := C140_works he ha hs vals _ _ w0 hw h hh hm 3 (by norm_num) hcard noise env 0 true [0, 1 / 2, 1]
  obtain ⟨tab, dec, ht, -, hl⟩ := C140_file (sweepRate noise env) (run w0 h) (fun _ => [[0, 1 / 2, 1]]) [.new 0 3 true] 0
    ⟨3, true, none, none, none, none⟩ (.flux [0]) (.setFlux 0) (.caller 0) [0, 1 / 2, 1] false "a" rfl (.flux 0 []) rfl
    (by decide) hwork
  obtain ⟨o, -, h1, h2⟩ := hl [.act (.setFlux 0 (1 / 4)), .editGrid (.caller 0) [[0, 3]],
    .sweep 0 (.flux [0]) (.caller 0) none false] 1 (by simp [DeskOp.writes])
  exact ⟨o, tab, dec, h1, h2, ht⟩

end SQ
