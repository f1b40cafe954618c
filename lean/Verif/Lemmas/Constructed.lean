import Verif.Spec.Constructed
import Verif.Lemmas.CircuitState
import Verif.Lemmas.LcBuild
import Verif.Props.FinalModes

/-! # What a successful construction went through -/

namespace SQ
open Matrix Spec

/-- the stages of a successful construction -/
theorem buildCirc_stages {c : CircSpec} {vals : ElemId → ℝ} {b : Build} (h : buildCirc c vals = .ok b) :
    ∃ (n : ℕ) (a : Acc n) (B : _) (t : Trans a.wMat.length n), numNodes c.els = .ok n ∧
      traverse c.torch c.fd (c.O.withVals vals) n c.h c.els = .ok a ∧
      fluxMatrix c.sv n a.st.kMat a.st.cEdge (a.st.loops.map a.st.loopHeap) = .ok B ∧
      transformHamil (c.lib n) c.sv c.argsort (c.argmax _) c.draws a.numJunWithoutInd a.cMat a.lMat
        (arrayOf n a.wMat) c.fuel (initTrans a.cMat a.lMat (arrayOf n a.wMat)) = some (.ok t) ∧
      b = { n := n, nJ := a.wMat.length, nB := a.st.kMat.length, C := a.cMat, loops := a.st.loops
            B := fluxTable B
            inds := indKeysOf _ a.st.indKeys
            juns := junKeysOf _ _ a.st.junKeys
            M := finishModes c.torch t } := by
  unfold buildCirc at h
  cases hn : numNodes c.els with
  | error e => rw [hn] at h; cases h
  | ok n =>
    rw [hn] at h
    simp only at h
    rw [buildWith_eq] at h
    split at h
    · cases h
    · rename_i a htr
      unfold afterTraverse afterFields at h
      split at h
      · cases h
      · rename_i B hB
        split at h
        · cases h
        · split at h
          · cases h
          · cases h
          · rename_i t ht
            injection h with h
            exact ⟨n, a, B, t, rfl, htr, hB, ht, h.symm⟩

/-- facts about the matrices of a good circuit -/
theorem good_mats {c : CircSpec} {vals : ElemId → ℝ} (hc : GoodCircuit c vals) {n : ℕ} {a : Acc n}
    (hn : numNodes c.els = .ok n) (htr : traverse c.torch c.fd (c.O.withVals vals) n c.h c.els = .ok a) :
    ValidElements n c.els ∧ a.cMat.PosDef ∧ a.lMat.PosSemidef := by
  have hv : ValidElements n c.els := by
    intro p hp
    have := buildEdges_nodes_le htr p hp
    exact ⟨hc.noSelf p hp, this.1, this.2⟩
  exact ⟨hv, (C16_cap_posdef _ _ _ _ _ _ hv hc.caps (hc.ground n hn) a htr).1,
    (traverse_graphKernel hv hc.caps hc.inds htr).1⟩

/-- the LC/junction circuit is a good circuit -/
theorem lc_good (torch : Bool) (sv : SvdFn) (argsort : ArgsortFn) {argmax : ∀ k, ArgmaxFn k}
    (hm : ∀ k, ArgmaxSpec (argmax k)) : GoodCircuit (lcSpec torch sv argsort argmax) lcVals where
  noSelf := by
    intro p hp
    simp [lcSpec, lcEls] at hp
    rcases hp with rfl | rfl <;> simp
  caps := lcEls_caps
  inds := lcEls_inds
  ground := by
    intro n hn
    obtain ⟨hn', -⟩ := lc_traverse torch .junctions (fun _ => LoopObj.init 0 0)
    have : n = 2 := by
      have h : numNodes lcEls = .ok n := hn
      rw [hn'] at h
      exact (Except.ok.inj h).symm
    subst this
    exact lcEls_ground
  argmax := hm
  lib := by
    intro n a hn ha
    obtain ⟨hn', a', ha', hC, hL, -⟩ := lc_traverse torch .junctions (fun _ => LoopObj.init 0 0)
    have : n = 2 := by
      have h : numNodes lcEls = .ok n := hn
      rw [hn'] at h
      exact (Except.ok.inj h).symm
    subst this
    have : a = a' := by
      have h : traverse torch .junctions lcObjs 2 (fun _ => LoopObj.init 0 0) lcEls = .ok a := ha
      rw [ha'] at h
      exact (Except.ok.inj h).symm
    subst this
    rw [hC, hL]
    exact ⟨lcLib_spec, lcLib_gap⟩

end SQ
