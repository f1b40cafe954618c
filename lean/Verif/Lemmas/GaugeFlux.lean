import Verif.Props.Flux
import Verif.Lemmas.Constructed

/-!
# Flux distributions differ by gradients
-/

namespace SQ
open Matrix SQ.Spec

/-- two flux distributions of the same branches and loops differ by a gradient, up to rounding -/
theorem flux_gauge (sv : SvdFn) (hsv : SvdSpec sv) (n : ℕ) (kMat : List (List ℤ)) (cEdge cEdge' : List ℝ)
    (loops : List LoopObj) (hcon : LoopsConsistent kMat loops) {B B'}
    (h : fluxMatrix sv n kMat cEdge loops = .ok (some B)) (h' : fluxMatrix sv n kMat cEdge' loops = .ok (some B'))
    (l : Fin loops.length) :
    ∃ y : Fin n → ℝ, ∀ b, |B b l - B' b l - ∑ j : Fin n, nodeEntry (kMat.get b) j * y j| ≤ 1e-5 := by
  obtain ⟨G, B0, ⟨gR, hr, hG⟩, hrank, hlv, hGB, -, -, -, hcl⟩ := flux_distribution_rows sv hsv n kMat cEdge loops hcon B h
  obtain ⟨G', B0', ⟨gR', hr', hG'⟩, -, -, hGB', -, -, -, hcl'⟩ :=
    flux_distribution_rows sv hsv n kMat cEdge' loops hcon B' h'
  have hGG : G' = G := by
    rw [hr] at hr'
    obtain rfl := Except.ok.inj hr'
    funext t
    exact Option.some.inj ((hG' t).symm.trans (hG t))
  subst hGG
  -- circulation around the loops
  let Gm : Matrix (Fin loops.length) (Fin kMat.length) ℝ := Matrix.of G'
  have hsurj : LinearMap.range Gm.mulVecLin = ⊤ := by
    rw [LinearMap.range_eq_top]
    intro z
    refine ⟨B0 *ᵥ z, ?_⟩
    rw [Matrix.mulVecLin_apply, Matrix.mulVec_mulVec]
    have : Gm * B0 = 1 := by
      ext i j
      rw [Matrix.mul_apply, Matrix.one_apply]
      exact hGB i j
    rw [this, Matrix.one_mulVec]
  have hker : Module.finrank ℝ (LinearMap.ker Gm.mulVecLin) + loops.length = kMat.length := by
    have := LinearMap.finrank_range_add_finrank_ker Gm.mulVecLin
    rw [hsurj, finrank_top] at this
    simp only [Module.finrank_fintype_fun_eq_card, Fintype.card_fin] at this
    omega
  have hle : LinearMap.range (arrayOf n kMat).mulVecLin ≤ LinearMap.ker Gm.mulVecLin := by
    rintro _ ⟨y, rfl⟩
    rw [LinearMap.mem_ker, Matrix.mulVecLin_apply, Matrix.mulVecLin_apply, Matrix.mulVec_mulVec]
    have : Gm * arrayOf n kMat = 0 := by
      ext t j
      rw [Matrix.mul_apply]
      have := (hlv t).closes j j.isLt
      simpa [Gm, arrayOf, rowVec, nodeEntry] using this
    rw [this, Matrix.zero_mulVec]
  have heq : LinearMap.range (arrayOf n kMat).mulVecLin = LinearMap.ker Gm.mulVecLin := by
    refine Submodule.eq_of_le_of_finrank_le hle ?_
    have : Module.finrank ℝ (LinearMap.range (arrayOf n kMat).mulVecLin) = (arrayOf n kMat).rank := rfl
    omega
  have hmem : (fun b => B0 b l - B0' b l) ∈ LinearMap.ker Gm.mulVecLin := by
    rw [LinearMap.mem_ker, Matrix.mulVecLin_apply]
    funext t
    show ∑ b, G' t b * (B0 b l - B0' b l) = 0
    simp only [mul_sub, Finset.sum_sub_distrib]
    rw [hGB, hGB', sub_self]
  rw [← heq] at hmem
  obtain ⟨y, hy⟩ := hmem
  refine ⟨y, fun b => ?_⟩
  have hb : ∑ j : Fin n, nodeEntry (kMat.get b) j * y j = B0 b l - B0' b l := by
    rw [← congrFun hy b]
    rfl
  rw [hb]
  have h1 := abs_le.1 (hcl b l)
  have h2 := abs_le.1 (hcl' b l)
  rw [abs_le]
  constructor <;> linarith [h1.1, h1.2, h2.1, h2.2]

/-! ### the traversal uses `flux_dist` only for the capacitances of the branches -/

variable {n : ℕ}

/-- traversal state without the branch capacitances -/
def dropC (st : BSt n) : BSt n := { st with cEdge := [] }

theorem dropC_loopStep (torch : Bool) (O : Objs) (w : List ℤ) (b : ℕ) (l : LoopId) (st : BSt n) :
    dropC (loopStep torch O w b l st) = loopStep torch O w b l (dropC st) := by
  unfold loopStep addLoop dropC
  by_cases h : l ∈ st.loops <;> cases torch <;> simp [h]

theorem dropC_updateLoops (torch : Bool) (O : Objs) (w : List ℤ) (b : ℕ) (ls : List LoopId)
    (st : BSt n) : dropC (updateLoops torch O w b ls st) = updateLoops torch O w b ls (dropC st) := by
  unfold updateLoops
  induction ls generalizing st with
  | nil => rfl
  | cons l ls ih => simp only [List.foldl_cons]; rw [ih, dropC_loopStep]

theorem dropC_procElem (torch : Bool) (fd fd' : FluxDist) (O : Objs) (e : Edge) (w : List ℤ)
    (m : Matrix (Fin n) (Fin n) ℝ) (wId : ℕ) {st st' : BSt n} (hst : dropC st = dropC st') (i : ElemId) :
    dropC (procElem torch fd O e w m wId st i) = dropC (procElem torch fd' O e w m wId st' i) := by
  have hfin : ∀ s s' : BSt n, dropC s = dropC s' →
      dropC (if torch then { (if (O.elem i).kind = .jj then s else
          { s with partialMats := addPartial i (partialMat (O.elem i) m) s.partialMats }) with
          params := addToParams O (.elem i) (if (O.elem i).kind = .jj then s else
          { s with partialMats := addPartial i (partialMat (O.elem i) m) s.partialMats }).params }
        else (if (O.elem i).kind = .jj then s else
          { s with partialMats := addPartial i (partialMat (O.elem i) m) s.partialMats })) =
      dropC (if torch then { (if (O.elem i).kind = .jj then s' else
          { s' with partialMats := addPartial i (partialMat (O.elem i) m) s'.partialMats }) with
          params := addToParams O (.elem i) (if (O.elem i).kind = .jj then s' else
          { s' with partialMats := addPartial i (partialMat (O.elem i) m) s'.partialMats }).params }
        else (if (O.elem i).kind = .jj then s' else
          { s' with partialMats := addPartial i (partialMat (O.elem i) m) s'.partialMats })) := by
    intro s s' h
    unfold dropC at h ⊢
    simp only [BSt.mk.injEq] at h
    obtain ⟨a1, a2, a3, a4, a5, a6, a7, a8, -⟩ := h
    cases torch <;> by_cases hk : (O.elem i).kind = .jj <;> simp [*]
  have hfields : st.loopHeap = st'.loopHeap ∧ st.loops = st'.loops ∧ st.indKeys = st'.indKeys ∧
      st.junKeys = st'.junKeys ∧ st.params = st'.params ∧ st.partialMats = st'.partialMats ∧ st.bId = st'.bId ∧
      st.kMat = st'.kMat := by
    unfold dropC at hst
    simp only [BSt.mk.injEq] at hst
    tauto
  obtain ⟨f1, f2, f3, f4, f5, f6, f7, f8⟩ := hfields
  have hup : ∀ s s' : BSt n, dropC s = dropC s' → s.bId = s'.bId →
      dropC (updateLoops torch O w s.bId (O.elem i).loops s) =
        dropC (updateLoops torch O w s'.bId (O.elem i).loops s') := by
    intro s s' h1 h2
    rw [dropC_updateLoops, dropC_updateLoops, h1, h2]
  have hmid : ∀ s s' : BSt n, dropC s = dropC s' →
      dropC ({ s with bId := s.bId + 1, kMat := s.kMat ++ [w], cEdge := s.cEdge ++ [capForFluxDist O fd (O.elem i)] }) =
      dropC ({ s' with bId := s'.bId + 1, kMat := s'.kMat ++ [w], cEdge := s'.cEdge ++ [capForFluxDist O fd' (O.elem i)] }) := by
    intro s s' h
    unfold dropC at h ⊢
    simp only [BSt.mk.injEq] at h ⊢
    obtain ⟨a1, a2, a3, a4, a5, a6, a7, a8, -⟩ := h
    exact ⟨a1, a2, a3, a4, a5, a6, by rw [a7], by rw [a8], trivial⟩
  unfold procElem
  refine hfin _ _ ?_
  by_cases hi : (O.elem i).inductive = true
  · simp only [hi, if_true]
    refine hmid _ _ ?_
    refine hup _ _ ?_ ?_
    · unfold dropC
      cases torch <;> by_cases hk : (O.elem i).kind = .jj <;> simp [*]
    · cases torch <;> by_cases hk : (O.elem i).kind = .jj <;> simp [*]
  · simp only [hi]
    exact hst

theorem dropC_procEdge (torch : Bool) (fd fd' : FluxDist) (O : Objs) (e : Edge) (w : List ℤ)
    (m : Matrix (Fin n) (Fin n) ℝ) (wId : ℕ) : ∀ (els : List ElemId) {st st' : BSt n}, dropC st = dropC st' →
    dropC (procEdge torch fd O e w m wId els st) = dropC (procEdge torch fd' O e w m wId els st')
  | [], _, _, h => h
  | i :: els, _, _, h => dropC_procEdge torch fd fd' O e w m wId els (dropC_procElem torch fd fd' O e w m wId h i)

/-- results of the traversal without the branch capacitances -/
def dropA (a : Acc n) : Acc n := { a with st := dropC a.st }

theorem dropA_edgeStep (torch : Bool) (fd fd' : FluxDist) (O : Objs) (p : Edge × List ElemId) {a a' : Acc n}
    (h : dropA a = dropA a') :
    (edgeStep torch fd O a p).map dropA = (edgeStep torch fd' O a' p).map dropA := by
  have hf : dropC a.st = dropC a'.st ∧ a.cMat = a'.cMat ∧ a.lMat = a'.lMat ∧ a.wMat = a'.wMat ∧ a.wId = a'.wId ∧
      a.numJunWithoutInd = a'.numJunWithoutInd := by
    unfold dropA at h
    simp only [Acc.mk.injEq] at h
    exact h
  obtain ⟨h1, h2, h3, h4, h5, h6⟩ := hf
  unfold edgeStep
  cases wAtEdge n p.1 with
  | error e => rfl
  | ok w =>
    cases matrixRep n p.1 with
    | error e => rfl
    | ok m =>
      simp only
      cases effInd O p.2 with
      | error e => rfl
      | ok x =>
        have hp := dropC_procEdge torch fd fd' O p.1 w m a'.wId p.2 h1
        simp only [h2, h3, h4, h5, h6]
        split
        · simp only [Except.map, dropA, hp]
        · simp only [Except.map, dropA, hp]

theorem dropA_buildEdges (torch : Bool) (fd fd' : FluxDist) (O : Objs) : ∀ (els : Elements) {a a' : Acc n},
    dropA a = dropA a' → (buildEdges torch fd O els a).map dropA = (buildEdges torch fd' O els a').map dropA
  | [], _, _, h => by simp only [buildEdges, Except.map, h]
  | p :: ps, a, a', h => by
    have h1 := dropA_edgeStep torch fd fd' O p h
    unfold buildEdges
    cases e1 : edgeStep torch fd O a p with
    | error e =>
      rw [e1] at h1
      cases e2 : edgeStep torch fd' O a' p with
      | error e' => rw [e2] at h1; exact h1
      | ok b' => rw [e2] at h1; cases h1
    | ok b =>
      rw [e1] at h1
      cases e2 : edgeStep torch fd' O a' p with
      | error e' => rw [e2] at h1; cases h1
      | ok b' =>
        rw [e2] at h1
        simp only
        exact dropA_buildEdges torch fd fd' O ps (Except.ok.inj h1)

theorem traverse_fd {torch : Bool} {fd fd' : FluxDist} {O : Objs} {h : LoopId → LoopObj} {els : Elements} {a a' : Acc n}
    (ha : traverse torch fd O n h els = .ok a) (ha' : traverse torch fd' O n h els = .ok a') :
    ∃ cE, a' = { a with st := { a.st with cEdge := cE } } := by
  have := dropA_buildEdges torch fd fd' O els (rfl : dropA (initAcc n h) = dropA (initAcc n h))
  unfold traverse at ha ha'
  rw [ha, ha'] at this
  have h1 := Except.ok.inj this
  refine ⟨a'.st.cEdge, ?_⟩
  unfold dropA dropC at h1
  cases a with
  | mk st c l w i k =>
    cases a' with
    | mk st' c' l' w' i' k' =>
      cases st; cases st'
      simp only [Acc.mk.injEq, BSt.mk.injEq] at h1 ⊢
      tauto

end SQ
