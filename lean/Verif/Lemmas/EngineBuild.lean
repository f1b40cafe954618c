import Verif.Lemmas.Engines

/-!
# What the engine changes in the construction of a circuit
-/

namespace SQ

variable {n : ℕ}

/-- a traversal state without the records for gradients -/
def BSt.core (st : BSt n) : BSt n := { st with params := [], partialMats := fun _ => 0 }

def Acc.core (a : Acc n) : Acc n := { a with st := a.st.core }

theorem addLoop_core (l : LoopId) (st : BSt n) : (addLoop l st).core = addLoop l st.core := by
  unfold addLoop
  by_cases h : st.loops.contains l = true
  · rw [if_pos h, if_pos (show st.core.loops.contains l = true from h)]
  · rw [if_neg h, if_neg (show ¬ st.core.loops.contains l = true from h)]
    rfl

theorem loopStep_core (t : Bool) (O : Objs) (w : List ℤ) (b : ℕ) (l : LoopId) (st : BSt n) :
    (loopStep t O w b l st).core = (loopStep false O w b l st.core).core := by
  have h := addLoop_core l st
  unfold loopStep
  rw [← h]
  cases t <;> rfl

theorem updateLoops_core (t : Bool) (O : Objs) (w : List ℤ) (b : ℕ) (ls : List LoopId) : ∀ (st st' : BSt n),
    st.core = st'.core → (updateLoops t O w b ls st).core = (updateLoops false O w b ls st').core := by
  induction ls with
  | nil => intro st st' h; exact h
  | cons l ls ih =>
    intro st st' h
    exact ih _ _ (by rw [loopStep_core, h, ← loopStep_core])

theorem procElem_core (t : Bool) (fd : FluxDist) (O : Objs) (e : Edge) (w : List ℤ) (m : Matrix (Fin n) (Fin n) ℝ)
    (wId : ℕ) (i : ElemId) (st st' : BSt n) (h : st.core = st'.core) :
    (procElem t fd O e w m wId st i).core = (procElem false fd O e w m wId st' i).core := by
  have hb : st.bId = st'.bId := (congrArg BSt.bId h : (st).core.bId = (st').core.bId)
  have hj : st.junKeys = st'.junKeys := (congrArg BSt.junKeys h : (st).core.junKeys = (st').core.junKeys)
  have hi : st.indKeys = st'.indKeys := (congrArg BSt.indKeys h : (st).core.indKeys = (st').core.indKeys)
  have hlast : ∀ (s s' : BSt n), s.core = s'.core →
      (let st := if (O.elem i).kind = .jj then s
        else { s with partialMats := addPartial i (partialMat (O.elem i) m) s.partialMats }
       if t then { st with params := addToParams O (.elem i) st.params } else st).core =
      (let st := if (O.elem i).kind = .jj then s'
        else { s' with partialMats := addPartial i (partialMat (O.elem i) m) s'.partialMats }
       if false then { st with params := addToParams O (.elem i) st.params } else st).core := by
    intro s s' hs
    by_cases hk : (O.elem i).kind = .jj
    · simp only [if_pos hk]
      cases t <;> exact hs
    · simp only [if_neg hk]
      cases t <;> exact hs
  refine hlast _ _ ?_
  by_cases hin : (O.elem i).inductive = true
  · rw [if_pos hin, if_pos hin]
    simp only
    let fin : BSt n → BSt n := fun z => { z with bId := z.bId + 1, kMat := z.kMat ++ [w], cEdge := z.cEdge ++ [capForFluxDist O fd (O.elem i)] }
    have hup : ∀ (s s' : BSt n), s.core = s'.core →
        (fin (updateLoops t O w s.bId (O.elem i).loops s)).core =
          (fin (updateLoops false O w s'.bId (O.elem i).loops s')).core := by
      intro s s' hs
      have hsb : s.bId = s'.bId := (congrArg BSt.bId hs : s.core.bId = s'.core.bId)
      have hu := updateLoops_core t O w s.bId (O.elem i).loops s s' hs
      rw [← hsb]
      exact congrArg fin hu
    refine hup _ _ ?_
    by_cases hk : (O.elem i).kind = .jj
    · rw [if_pos hk, if_pos hk]
      cases t
      · exact congrArg (fun z : BSt n => ({ z with junKeys := z.junKeys ++ [(e, i, z.bId, wId)] } : BSt n)) h
      · exact congrArg (fun z : BSt n => ({ z with junKeys := z.junKeys ++ [(e, i, z.bId, wId)] } : BSt n)) h
    · rw [if_neg hk, if_neg hk]
      cases t
      · exact congrArg (fun z : BSt n => ({ z with indKeys := z.indKeys ++ [(e, i, z.bId)] } : BSt n)) h
      · exact congrArg (fun z : BSt n => ({ z with indKeys := z.indKeys ++ [(e, i, z.bId)] } : BSt n)) h
  · rw [if_neg hin, if_neg hin]
    exact h

theorem procEdge_core (t : Bool) (fd : FluxDist) (O : Objs) (e : Edge) (w : List ℤ) (m : Matrix (Fin n) (Fin n) ℝ)
    (wId : ℕ) (els : List ElemId) : ∀ (st st' : BSt n), st.core = st'.core →
    (procEdge t fd O e w m wId els st).core = (procEdge false fd O e w m wId els st').core := by
  induction els with
  | nil => intro st st' h; exact h
  | cons i els ih =>
    intro st st' h
    exact ih _ _ (procElem_core t fd O e w m wId i st st' h)

theorem edgeStep_core (t : Bool) (fd : FluxDist) (O : Objs) (p : Edge × List ElemId) (a a' : Acc n) (h : a.core = a'.core) :
    (edgeStep t fd O a p).map Acc.core = (edgeStep false fd O a' p).map Acc.core := by
  have hst : a.st.core = a'.st.core := (congrArg Acc.st h : a.core.st = a'.core.st)
  have hw : a.wId = a'.wId := (congrArg Acc.wId h : a.core.wId = a'.core.wId)
  have hc : a.cMat = a'.cMat := (congrArg Acc.cMat h : a.core.cMat = a'.core.cMat)
  have hl : a.lMat = a'.lMat := (congrArg Acc.lMat h : a.core.lMat = a'.core.lMat)
  have hwm : a.wMat = a'.wMat := (congrArg Acc.wMat h : a.core.wMat = a'.core.wMat)
  have hnj : a.numJunWithoutInd = a'.numJunWithoutInd := (congrArg Acc.numJunWithoutInd h : a.core.numJunWithoutInd = a'.core.numJunWithoutInd)
  unfold edgeStep
  rcases wAtEdge n p.1 with e | w
  · rfl
  rcases matrixRep n p.1 with e | m
  · rfl
  simp only
  have hp := procEdge_core t fd O p.1 w m a.wId p.2 a.st a'.st hst
  rw [hw] at hp
  rcases effInd O p.2 with e | x
  · rfl
  simp only [hw, hc, hl, hwm, hnj]
  by_cases hJ : (edgeJuncs O p.2).length ≠ 0
  · rw [if_pos hJ, if_pos hJ]
    simp only [Except.map, Acc.core, hp]
  · rw [if_neg hJ, if_neg hJ]
    simp only [Except.map, Acc.core, hp]

theorem buildEdges_core (t : Bool) (fd : FluxDist) (O : Objs) : ∀ (els : Elements) (a a' : Acc n), a.core = a'.core →
    (buildEdges t fd O els a).map Acc.core = (buildEdges false fd O els a').map Acc.core
  | [], a, a', h => congrArg Except.ok h
  | p :: ps, a, a', h => by
    have hs := edgeStep_core t fd O p a a' h
    unfold buildEdges
    rcases h1 : edgeStep t fd O a p with e | b
    · rcases h2 : edgeStep false fd O a' p with e' | b'
      · rw [h1, h2] at hs
        simp only [Except.map] at hs ⊢
        exact hs
      · rw [h1, h2] at hs
        cases hs
    · rcases h2 : edgeStep false fd O a' p with e' | b'
      · rw [h1, h2] at hs
        cases hs
      · rw [h1, h2] at hs
        exact buildEdges_core t fd O ps b b' (Except.ok.inj hs)

theorem traverse_core (t : Bool) (fd : FluxDist) (O : Objs) (n : ℕ) (h : LoopId → LoopObj) (els : Elements) :
    (traverse t fd O n h els).map Acc.core = (traverse false fd O n h els).map Acc.core :=
  buildEdges_core t fd O els _ _ rfl

/-- what follows the traversal -/
noncomputable def afterWalk (c : CircSpec) (n : ℕ) (finish : ∀ {nJ : ℕ}, Trans nJ n → Modes nJ n) (a : Acc n) :
    Except PyErr Build :=
  open Classical in
  match fluxMatrix c.sv n a.st.kMat a.st.cEdge (a.st.loops.map a.st.loopHeap) with
  | .error e => .error e
  | .ok B =>
    if a.cMat.det = 0 then .error .linAlg
    else
      let W := arrayOf n a.wMat
      match transformHamil (c.lib n) c.sv c.argsort (c.argmax _) c.draws a.numJunWithoutInd
          a.cMat a.lMat W c.fuel (initTrans a.cMat a.lMat W) with
      | none => .error .noReturn
      | some (.error e) => .error e
      | some (.ok t) =>
        .ok { n := n, nJ := a.wMat.length, nB := a.st.kMat.length, C := a.cMat, loops := a.st.loops
              B := fluxTable B
              inds := indKeysOf _ a.st.indKeys
              juns := junKeysOf _ _ a.st.junKeys
              M := finish t }

theorem buildWith_afterWalk (c : CircSpec) (n : ℕ) (v : ElemId → ℝ) (finish : ∀ {nJ : ℕ}, Trans nJ n → Modes nJ n) :
    buildWith c n v finish = (match traverse c.torch c.fd (c.O.withVals v) n c.h c.els with
      | .error e => .error e
      | .ok a => afterWalk c n finish a) := by
  unfold buildWith getLCWB afterWalk
  rcases traverse c.torch c.fd (c.O.withVals v) n c.h c.els with e | a
  · rfl
  · simp only
    rcases fluxMatrix c.sv n a.st.kMat a.st.cEdge (a.st.loops.map a.st.loopHeap) with e | B <;> rfl

/-- apart from the removal of modes, what is built does not depend on the engine -/
theorem buildWith_engine (c : CircSpec) (t : Bool) (n : ℕ) (v : ElemId → ℝ)
    (finish : ∀ {nJ : ℕ}, Trans nJ n → Modes nJ n) :
    buildWith { c with torch := t } n v finish = buildWith { c with torch := false } n v finish := by
  rw [buildWith_afterWalk, buildWith_afterWalk]
  have h := traverse_core t c.fd (c.O.withVals v) n c.h c.els
  simp only
  rcases h1 : traverse t c.fd (c.O.withVals v) n c.h c.els with e | a
  · rcases h2 : traverse false c.fd (c.O.withVals v) n c.h c.els with e' | a'
    · rw [h1, h2] at h
      simp only [Except.map] at h
      cases h
      rfl
    · rw [h1, h2] at h
      cases h
  · rcases h2 : traverse false c.fd (c.O.withVals v) n c.h c.els with e' | a'
    · rw [h1, h2] at h
      cases h
    · rw [h1, h2] at h
      have hc : a.core = a'.core := Except.ok.inj h
      have hg : ∀ (u : Bool) (a : Acc n), afterWalk { c with torch := u } n finish a = afterWalk c n finish a.core := by
        intro u a
        unfold afterWalk
        simp only [Acc.core, BSt.core]
        rcases fluxMatrix c.sv n a.st.kMat a.st.cEdge (List.map a.st.loopHeap a.st.loops) with e | B
        · rfl
        simp only
        by_cases hd : a.cMat.det = 0
        · rw [if_pos hd]
          exact (if_pos hd).symm
        rw [if_neg hd]
        refine Eq.trans ?_ (if_neg hd).symm
        rcases transformHamil (c.lib n) c.sv c.argsort (c.argmax a.wMat.length) c.draws a.numJunWithoutInd a.cMat a.lMat
            (arrayOf n a.wMat) c.fuel (initTrans a.cMat a.lMat (arrayOf n a.wMat)) with _ | e | t
        · rfl
        · rfl
        · rfl
      simp only
      rw [hg t a, hg false a', hc]

end SQ
