import Verif.Spec.Fluxonium
import Verif.Lemmas.Constructed
import Verif.Lemmas.LibExists
import Verif.Props.Flux2
import Verif.Props.SecondTransform

/-! # Construction of the fluxonium -/

namespace SQ
open Matrix Spec

/-- a good circuit is constructed as soon as the flux distribution exists and the second transformation has
nothing to choose -/
theorem buildCirc_ok {c : CircSpec} {vals : ElemId → ℝ} (hc : GoodCircuit c vals) {n : ℕ} {a : Acc n} {B : _}
    (hn : numNodes c.els = .ok n)
    (htr : traverse c.torch c.fd (c.O.withVals vals) n c.h c.els = .ok a)
    (hB : fluxMatrix c.sv n a.st.kMat a.st.cEdge (a.st.loops.map a.st.loopHeap) = .ok B)
    (hsel : a.numJunWithoutInd = 0 ∨ (∀ j, modeFreq (c.lib n) a.cMat a.lMat j ≠ 0) ∨
      SelectionFaithful c.sv c.argsort c.draws (arrayOf n a.wMat) (matS1 (c.lib n) a.cMat a.lMat)
        (modeFreq (c.lib n) a.cMat a.lMat)) (hf : 3 ≤ c.fuel) :
    ∃ b, buildCirc c vals = .ok b := by
  obtain ⟨hv, hC, -⟩ := good_mats hc hn htr
  obtain ⟨hlib, hgap⟩ := hc.lib n a hn htr
  obtain ⟨t, ht⟩ := C30_circuit_returns_partial _ _ _ _ _ _ hv hc.caps hc.inds (hc.ground n hn) a htr
    (c.lib n) hlib hgap c.sv c.argsort (c.argmax _) c.draws hsel (c.fuel - 3)
  rw [Nat.sub_add_cancel hf] at ht
  unfold buildCirc
  rw [hn]
  simp only
  rw [buildWith_eq, htr]
  simp only
  unfold afterTraverse afterFields
  rw [hB]
  simp only
  rw [if_neg hC.det_pos.ne', ht]
  exact ⟨_, rfl⟩

/-- the fluxonium with given routines -/
noncomputable def fluxoniumSpec (torch : Bool) (h : LoopId → LoopObj) (lib : ∀ n, NumLib n) (sv : SvdFn)
    (argsort : ArgsortFn) (argmax : ∀ k, ArgmaxFn k) (draws : Draws) : CircSpec where
  torch := torch
  fd := .junctions
  O := fluxoniumObjs
  els := fluxoniumEls
  h := h
  lib := lib
  sv := sv
  argsort := argsort
  argmax := argmax
  draws := draws
  fuel := 3

theorem fx_valid : ValidElements 1 fluxoniumEls := by
  intro p hp
  simp [fluxoniumEls] at hp
  subst hp; simp [ValidEdge]

variable {vals : ElemId → ℝ}

theorem fx_traverse (torch : Bool) (h : LoopId → LoopObj) (hL : 0 < vals 0) :
    numNodes fluxoniumEls = .ok 1 ∧
    ∃ a, traverse torch .junctions (fluxoniumObjs.withVals vals) 1 h fluxoniumEls = .ok a ∧
      a.cMat = Matrix.of (fun _ _ => vals 1 + vals 3) ∧ a.lMat = Matrix.of (fun _ _ => 1 / vals 0) ∧
      a.wMat = [[1]] ∧ a.numJunWithoutInd = 0 := by
  refine ⟨by decide, ?_⟩
  obtain ⟨a, ha⟩ := buildEdges_succeeds (O := fluxoniumObjs.withVals vals) torch .junctions fx_valid (by
    intro p hp i hi hk
    simp [fluxoniumEls] at hp
    subst hp
    simp at hi
    rcases hi with rfl | rfl
    · exact hL.ne'
    · cases hk) (initAcc 1 h)
  have ha' : traverse torch .junctions (fluxoniumObjs.withVals vals) 1 h fluxoniumEls = .ok a := ha
  obtain ⟨h1, h2⟩ := traverse_mats fx_valid ha'
  have h3 := (traverse_inv fx_valid ha').2
  refine ⟨a, ha', ?_, ?_, ?_, ?_⟩
  · rw [h1]
    ext i j
    fin_cases i; fin_cases j
    simp [placements, fluxoniumEls, placedCap, fluxoniumObjs, Objs.withVals, eMat, incidence]
  · rw [h2]
    ext i j
    fin_cases i; fin_cases j
    simp [placements, fluxoniumEls, placedInvInd, fluxoniumObjs, Objs.withVals, eMat, incidence]
  · rw [h3]
    rfl
  · rw [traverse_numJ ha']
    rfl

theorem fx_posdef {x : ℝ} (hx : 0 < x) : (Matrix.of (fun _ _ => x) : Matrix (Fin 1) (Fin 1) ℝ).PosDef := by
  have : (Matrix.of (fun _ _ => x) : Matrix (Fin 1) (Fin 1) ℝ) = diagonal (fun _ => x) := by
    ext i j; fin_cases i; fin_cases j; simp
  rw [this, posDef_diagonal_iff]
  exact fun _ => hx

theorem fx_gap (lib : NumLib 1) (L : Matrix (Fin 1) (Fin 1) ℝ) : SpectralGap lib L := by
  intro i hi
  have : (⨆ k, lib.eigvals L k) = lib.eigvals L i := by
    rw [ciSup_unique]; fin_cases i; rfl
  rw [this, div_self hi]
  norm_num

/-- the fluxonium is a good circuit -/
theorem fx_good (torch : Bool) (h : LoopId → LoopObj) {lib : ∀ n, NumLib n}
    (hlib : ∀ n, ∀ C L : Matrix (Fin n) (Fin n) ℝ, C.PosDef → L.PosSemidef → LibSpec (lib n) C L)
    (sv : SvdFn) (argsort : ArgsortFn) {argmax : ∀ k, ArgmaxFn k} (hm : ∀ k, ArgmaxSpec (argmax k))
    (draws : Draws) (hL : 0 < vals 0) (h1 : 0 < vals 1) (h3 : 0 < vals 3) :
    GoodCircuit (fluxoniumSpec torch h lib sv argsort argmax draws) vals where
  noSelf := by
    intro p hp
    simp [fluxoniumSpec, fluxoniumEls] at hp
    subst hp; simp
  caps := by
    intro q hq
    simp [fluxoniumSpec, placements, fluxoniumEls] at hq
    rcases hq with rfl | rfl
    · exact h1
    · exact h3
  inds := by
    intro q hq hk
    simp [fluxoniumSpec, placements, fluxoniumEls] at hq
    rcases hq with rfl | rfl
    · exact hL
    · cases hk
  ground := by
    intro n hn k hk
    have h1 : n = 1 := by
      have h' : numNodes fluxoniumEls = .ok n := hn
      rw [(fx_traverse torch h hL).1] at h'
      exact (Except.ok.inj h').symm
    subst h1
    have j1 : Joined fluxoniumEls 1 0 := ⟨((0,1),[0,2]), by simp [fluxoniumEls], by simp, by simp⟩
    interval_cases k
    · exact .refl
    · exact .single j1
  argmax := hm
  lib := by
    intro n a hn ha
    obtain ⟨hn', a', ha', hC, hLm, -⟩ := fx_traverse torch h hL
    have hn1 : n = 1 := by
      have h' : numNodes fluxoniumEls = .ok n := hn
      rw [hn'] at h'
      exact (Except.ok.inj h').symm
    subst hn1
    have : a = a' := by
      have h' : traverse torch .junctions (fluxoniumObjs.withVals vals) 1 h fluxoniumEls = .ok a := ha
      rw [ha'] at h'
      exact (Except.ok.inj h').symm
    subst this
    refine ⟨hlib 1 _ _ ?_ ?_, fx_gap _ _⟩
    · rw [hC]; exact fx_posdef (by positivity)
    · rw [hLm]; exact (fx_posdef (by positivity)).posSemidef

theorem fx_flux (sv : SvdFn) (hsv : SvdSpec sv) (torch : Bool) (h : LoopId → LoopObj) (hL : 0 < vals 0) :
    ∃ a B, getLCWB sv torch .junctions (fluxoniumObjs.withVals vals) 1 h fluxoniumEls = .ok ⟨a, some B⟩ ∧
      a.st.kMat.length = 2 ∧ a.st.loops = [0] ∧ ∀ b l', B b l' = if (b : ℕ) = 0 then 0 else -1 := by
  obtain ⟨a, B, h1, h2, h3, h4⟩ := C23_whole_flux sv hsv torch .junctions (fluxoniumObjs.withVals vals) 1 h
    fluxoniumEls fx_valid (by
      intro p hp i hi hk
      simp [fluxoniumEls] at hp
      subst hp
      simp at hi
      rcases hi with rfl | rfl
      · exact hL.ne'
      · cases hk) (0, 1) 0 2 0 rfl rfl rfl (Or.inr ⟨rfl, rfl⟩) (by simp)
  refine ⟨a, B, h1, h2, h3, ?_⟩
  intro b l'
  rw [h4]
  by_cases hb : (b : ℕ) = 0
  · rw [if_pos hb, if_pos hb, if_neg]
    intro hk; cases hk
  · rw [if_neg hb, if_neg hb, if_pos]
    rfl

end SQ
