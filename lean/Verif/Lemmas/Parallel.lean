import Verif.Lemmas.CircuitPhys
import Verif.Spec.Parallel

/-! # Lemmas for C108: elements in parallel -/

namespace SQ
open Matrix Spec

variable {n : ℕ}

/-- traversal state without parameter dictionary and derivative matrices -/
def stripQ (st : BSt n) : BSt n := { st with params := [], partialMats := fun _ => 0 }

theorem stripQ_fields {st st' : BSt n} (h : stripQ st = stripQ st') :
    st.loopHeap = st'.loopHeap ∧ st.loops = st'.loops ∧ st.indKeys = st'.indKeys ∧
      st.junKeys = st'.junKeys ∧ st.bId = st'.bId ∧ st.kMat = st'.kMat ∧ st.cEdge = st'.cEdge := by
  unfold stripQ at h
  simp only [BSt.mk.injEq] at h
  tauto

theorem stripQ_of {st st' : BSt n} (h1 : st.loopHeap = st'.loopHeap) (h2 : st.loops = st'.loops)
    (h3 : st.indKeys = st'.indKeys) (h4 : st.junKeys = st'.junKeys) (h5 : st.bId = st'.bId)
    (h6 : st.kMat = st'.kMat) (h7 : st.cEdge = st'.cEdge) : stripQ st = stripQ st' := by
  unfold stripQ
  simp only [h1, h2, h3, h4, h5, h6, h7]

theorem stripQ_loopStep (torch : Bool) (O O' : Objs) (w : List ℤ) (b : ℕ) (l : LoopId) (st : BSt n) :
    stripQ (loopStep torch O w b l st) = loopStep false O' w b l (stripQ st) := by
  unfold loopStep addLoop stripQ
  by_cases h : l ∈ st.loops <;> cases torch <;> simp [h]

theorem stripQ_updateLoops (torch : Bool) (O O' : Objs) (w : List ℤ) (b : ℕ) (ls : List LoopId)
    (st : BSt n) : stripQ (updateLoops torch O w b ls st) = updateLoops false O' w b ls (stripQ st) := by
  unfold updateLoops
  induction ls generalizing st with
  | nil => rfl
  | cons l ls ih => simp only [List.foldl_cons]; rw [ih, stripQ_loopStep torch O O']

theorem stripQ_tail (torch : Bool) (O : Objs) (i : ElemId) (m : Matrix (Fin n) (Fin n) ℝ) (s : BSt n) :
    stripQ (if torch then { (if (O.elem i).kind = .jj then s else
          { s with partialMats := addPartial i (partialMat (O.elem i) m) s.partialMats }) with
          params := addToParams O (.elem i) (if (O.elem i).kind = .jj then s else
          { s with partialMats := addPartial i (partialMat (O.elem i) m) s.partialMats }).params }
        else (if (O.elem i).kind = .jj then s else
          { s with partialMats := addPartial i (partialMat (O.elem i) m) s.partialMats })) = stripQ s := by
  unfold stripQ
  cases torch <;> by_cases hk : (O.elem i).kind = .jj <;> simp [hk]

theorem stripQ_procElem_cap (torch : Bool) (fd : FluxDist) (O : Objs) (e : Edge) (w : List ℤ)
    (m : Matrix (Fin n) (Fin n) ℝ) (wId : ℕ) (st : BSt n) (i : ElemId)
    (hi : (O.elem i).kind = .cap) : stripQ (procElem torch fd O e w m wId st i) = stripQ st := by
  unfold procElem
  have h : ¬ (O.elem i).inductive = true := by simp [ElemObj.inductive, hi]
  refine (stripQ_tail torch O i m _).trans ?_
  rw [if_neg h]

theorem stripQ_procElem_ind (torch : Bool) (fd : FluxDist) {O O' : Objs} (e : Edge) (w : List ℤ)
    (m m' : Matrix (Fin n) (Fin n) ℝ) (wId : ℕ) {st st' : BSt n} (hst : stripQ st = stripQ st') (i : ElemId)
    (hi : (O.elem i).kind ≠ .cap) (hk : (O'.elem i).kind = (O.elem i).kind)
    (hl : (O'.elem i).loops = (O.elem i).loops)
    (hfd : capForFluxDist O' fd (O'.elem i) = capForFluxDist O fd (O.elem i)) :
    stripQ (procElem torch fd O e w m wId st i) = stripQ (procElem torch fd O' e w m' wId st' i) := by
  obtain ⟨f1, f2, f3, f4, f5, f6, f7⟩ := stripQ_fields hst
  have h : (O.elem i).inductive = true := by simpa [ElemObj.inductive] using hi
  have h' : (O'.elem i).inductive = true := by simpa [ElemObj.inductive, hk] using hi
  have hup : ∀ s s' : BSt n, stripQ s = stripQ s' →
      stripQ (updateLoops torch O w s.bId (O.elem i).loops s) =
        stripQ (updateLoops torch O' w s'.bId (O'.elem i).loops s') := by
    intro s s' h1
    rw [stripQ_updateLoops torch O O, stripQ_updateLoops torch O' O, h1, (stripQ_fields h1).2.2.2.2.1, hl]
  have hmid : ∀ s s' : BSt n, stripQ s = stripQ s' →
      stripQ ({ s with bId := s.bId + 1, kMat := s.kMat ++ [w], cEdge := s.cEdge ++ [capForFluxDist O fd (O.elem i)] }) =
      stripQ ({ s' with bId := s'.bId + 1, kMat := s'.kMat ++ [w], cEdge := s'.cEdge ++ [capForFluxDist O fd (O.elem i)] }) := by
    intro s s' h
    obtain ⟨a1, a2, a3, a4, a5, a6, a7⟩ := stripQ_fields h
    refine stripQ_of a1 a2 a3 a4 ?_ ?_ ?_ <;> simp only [a5, a6, a7]
  unfold procElem
  refine (stripQ_tail torch O i m _).trans (Eq.trans ?_ (stripQ_tail torch O' i m' _).symm)
  simp only [h, h', if_true]
  rw [hfd]
  refine hmid _ _ (hup _ _ ?_)
  rw [hk]
  unfold stripQ
  cases torch <;> by_cases hj : (O.elem i).kind = .jj <;> simp [*]

theorem stripQ_procElem_congr (torch : Bool) (fd : FluxDist) (O : Objs) (e : Edge) (w : List ℤ)
    (m : Matrix (Fin n) (Fin n) ℝ) (wId : ℕ) {st st' : BSt n} (hst : stripQ st = stripQ st') (i : ElemId) :
    stripQ (procElem torch fd O e w m wId st i) = stripQ (procElem torch fd O e w m wId st' i) := by
  by_cases hi : (O.elem i).kind = .cap
  · rw [stripQ_procElem_cap _ _ _ _ _ _ _ _ _ hi, stripQ_procElem_cap _ _ _ _ _ _ _ _ _ hi, hst]
  · exact stripQ_procElem_ind torch fd e w m m wId hst i hi rfl rfl rfl

theorem stripQ_procEdge_filter (torch : Bool) (fd : FluxDist) (O : Objs) (e : Edge) (w : List ℤ)
    (m : Matrix (Fin n) (Fin n) ℝ) (wId : ℕ) (ids : List ElemId) {st st' : BSt n} (hst : stripQ st = stripQ st') :
    stripQ (procEdge torch fd O e w m wId ids st) =
      stripQ (procEdge torch fd O e w m wId (branchesOf O ids) st') := by
  unfold procEdge branchesOf
  induction ids generalizing st st' with
  | nil => exact hst
  | cons i ids ih =>
    by_cases hi : (O.elem i).kind = .cap
    · rw [List.filter_cons_of_neg (by simp [hi])]
      exact ih ((stripQ_procElem_cap _ _ _ _ _ _ _ _ _ hi).trans hst)
    · rw [List.filter_cons_of_pos (by simp [hi])]
      exact ih (stripQ_procElem_congr torch fd O e w m wId hst i)

theorem stripQ_procEdge_congr (torch : Bool) (fd : FluxDist) {O O' : Objs} (e : Edge) (w : List ℤ)
    (m m' : Matrix (Fin n) (Fin n) ℝ) (wId : ℕ) (ids : List ElemId) {st st' : BSt n} (hst : stripQ st = stripQ st')
    (hi : ∀ i ∈ ids, (O.elem i).kind ≠ .cap ∧ (O'.elem i).kind = (O.elem i).kind ∧
      (O'.elem i).loops = (O.elem i).loops ∧
      capForFluxDist O' fd (O'.elem i) = capForFluxDist O fd (O.elem i)) :
    stripQ (procEdge torch fd O e w m wId ids st) = stripQ (procEdge torch fd O' e w m' wId ids st') := by
  unfold procEdge
  induction ids generalizing st st' with
  | nil => exact hst
  | cons i ids ih =>
    obtain ⟨h1, h2, h3, h4⟩ := hi i (by simp)
    exact ih (stripQ_procElem_ind torch fd e w m m' wId hst i h1 h2 h3 h4) (fun j hj => hi j (by simp [hj]))

theorem edgeJuncs_branches (O : Objs) (ids : List ElemId) : edgeJuncs O ids = edgeJuncs O (branchesOf O ids) := by
  unfold edgeJuncs branchesOf
  rw [List.filter_filter]
  apply List.filter_congr
  intro i _
  cases h : (O.elem i).kind <;> simp

theorem edgeInds_branches (O : Objs) (ids : List ElemId) : edgeInds O ids = edgeInds O (branchesOf O ids) := by
  unfold edgeInds branchesOf
  rw [List.filter_filter]
  apply List.filter_congr
  intro i _
  cases h : (O.elem i).kind <;> simp

def stripB (a : Acc n) : Acc n := { a with st := stripQ a.st }

theorem stripB_edgeStep {O O' : Objs} (torch : Bool) (fd : FluxDist) {p q : Edge × List ElemId}
    (he : q.1 = p.1) (hb : branchesOf O' q.2 = branchesOf O p.2)
    (hi : ∀ i ∈ branchesOf O p.2, (O'.elem i).kind = (O.elem i).kind ∧
      (O'.elem i).loops = (O.elem i).loops ∧ (O'.elem i).value = (O.elem i).value ∧
      capForFluxDist O' fd (O'.elem i) = capForFluxDist O fd (O.elem i))
    (hc : effCap O' q.2 = effCap O p.2) {a a' : Acc n} (hst : stripB a = stripB a') :
    (edgeStep torch fd O a p).map stripB = (edgeStep torch fd O' a' q).map stripB := by
  have hf : stripQ a.st = stripQ a'.st ∧ a.cMat = a'.cMat ∧ a.lMat = a'.lMat ∧ a.wMat = a'.wMat ∧
      a.wId = a'.wId ∧ a.numJunWithoutInd = a'.numJunWithoutInd := by
    unfold stripB at hst
    simpa only [Acc.mk.injEq] using hst
  obtain ⟨h1, h2, h3, h4, h5, h6⟩ := hf
  have hj : edgeJuncs O' q.2 = edgeJuncs O p.2 := by
    rw [edgeJuncs_branches, hb, edgeJuncs_branches O p.2]
    unfold edgeJuncs
    exact List.filter_congr fun i h => by rw [(hi i h).1]
  have hl : edgeInds O' q.2 = edgeInds O p.2 := by
    rw [edgeInds_branches, hb, edgeInds_branches O p.2]
    unfold edgeInds
    exact List.filter_congr fun i h => by rw [(hi i h).1]
  have hinds : effInd O' q.2 = effInd O p.2 := by
    unfold effInd
    rw [hl]
    have hv : ∀ i ∈ edgeInds O p.2, (O'.elem i).value = (O.elem i).value := by
      intro i h
      rw [edgeInds_branches] at h
      exact (hi i (List.mem_filter.1 h).1).2.2.1
    have e1 : (edgeInds O p.2).any (fun i => decide ((O'.elem i).value = 0)) =
        (edgeInds O p.2).any (fun i => decide ((O.elem i).value = 0)) := by
      rw [Bool.eq_iff_iff, List.any_eq_true, List.any_eq_true]
      constructor
      · rintro ⟨i, hi, h⟩; exact ⟨i, hi, by rwa [hv i hi] at h⟩
      · rintro ⟨i, hi, h⟩; exact ⟨i, hi, by rwa [hv i hi]⟩
    have e2 : (edgeInds O p.2).map (fun i => 1 / (O'.elem i).value) =
        (edgeInds O p.2).map (fun i => 1 / (O.elem i).value) :=
      List.map_congr_left (fun i hi => by rw [hv i hi])
    rw [e1, e2]
  unfold edgeStep
  rw [he]
  cases wAtEdge n p.1 with
  | error e => rfl
  | ok w =>
    cases matrixRep n p.1 with
    | error e => rfl
    | ok m =>
      simp only
      rw [hj, hl, hc, hinds]
      have hp : stripQ (procEdge torch fd O p.1 w m a.wId p.2 a.st) =
          stripQ (procEdge torch fd O' p.1 w m a'.wId q.2 a'.st) := by
        rw [stripQ_procEdge_filter torch fd O p.1 w m a.wId p.2 rfl,
          stripQ_procEdge_filter torch fd O' p.1 w m a'.wId q.2 rfl, hb, h5]
        refine stripQ_procEdge_congr torch fd p.1 w m m a'.wId _ h1 fun i h => ?_
        have hk := (List.mem_filter.1 h).2
        exact ⟨by simpa using hk, (hi i h).1, (hi i h).2.1, (hi i h).2.2.2⟩
      cases effInd O p.2 with
      | error e => rfl
      | ok x =>
        simp only
        by_cases hJ : (edgeJuncs O p.2).length ≠ 0
        · rw [if_pos hJ, if_pos hJ]
          simp only [Except.map, stripB]
          rw [h2, h3, h4, h5, h6]
          rw [h5] at hp
          rw [hp]
        · rw [if_neg hJ, if_neg hJ]
          simp only [Except.map, stripB]
          rw [h2, h3, h4, h5, h6]
          rw [h5] at hp
          rw [hp]

theorem stripB_buildEdges {O O' : Objs} (torch : Bool) (fd : FluxDist) {els els' : Elements}
    (h : List.Forall₂ (fun p q : Edge × List ElemId => q.1 = p.1 ∧ branchesOf O' q.2 = branchesOf O p.2 ∧
      (∀ i ∈ branchesOf O p.2, (O'.elem i).kind = (O.elem i).kind ∧
        (O'.elem i).loops = (O.elem i).loops ∧ (O'.elem i).value = (O.elem i).value ∧
        capForFluxDist O' fd (O'.elem i) = capForFluxDist O fd (O.elem i)) ∧
      effCap O' q.2 = effCap O p.2) els els') {a a' : Acc n} (hst : stripB a = stripB a') :
    (buildEdges torch fd O els a).map stripB = (buildEdges torch fd O' els' a').map stripB := by
  induction h generalizing a a' with
  | nil => simp only [buildEdges, Except.map, hst]
  | @cons p q ps qs hpq _ ih =>
    have := stripB_edgeStep (n := n) torch fd hpq.1 hpq.2.1 hpq.2.2.1 hpq.2.2.2 hst
    unfold buildEdges
    cases h1 : edgeStep torch fd O a p with
    | error e =>
      cases h2 : edgeStep torch fd O' a' q with
      | error e' => rw [h1, h2] at this; simpa [Except.map] using this
      | ok b' => rw [h1, h2] at this; simp [Except.map] at this
    | ok b =>
      cases h2 : edgeStep torch fd O' a' q with
      | error e' => rw [h1, h2] at this; simp [Except.map] at this
      | ok b' =>
        rw [h1, h2] at this
        simp only [Except.map, Except.ok.injEq] at this
        exact ih this

theorem afterTraverse_stripB (c : CircSpec) (n : ℕ)
    (finish : ∀ {nJ : ℕ}, Trans nJ n → Modes nJ n) (a : Acc n) :
    afterTraverse c n finish (stripB a) = afterTraverse c n finish a := by
  unfold afterTraverse stripB stripQ
  simp only

theorem buildWith_parallel (c : CircSpec) (O' : Objs) (els' : Elements) (n : ℕ) (v v' : ElemId → ℝ)
    (h : List.Forall₂ (fun p q : Edge × List ElemId => q.1 = p.1 ∧
      branchesOf (O'.withVals v') q.2 = branchesOf (c.O.withVals v) p.2 ∧
      (∀ i ∈ branchesOf (c.O.withVals v) p.2, ((O'.withVals v').elem i).kind = ((c.O.withVals v).elem i).kind ∧
        ((O'.withVals v').elem i).loops = ((c.O.withVals v).elem i).loops ∧
        ((O'.withVals v').elem i).value = ((c.O.withVals v).elem i).value ∧
        capForFluxDist (O'.withVals v') c.fd ((O'.withVals v').elem i) =
          capForFluxDist (c.O.withVals v) c.fd ((c.O.withVals v).elem i)) ∧
      effCap (O'.withVals v') q.2 = effCap (c.O.withVals v) p.2) c.els els')
    (finish : ∀ {nJ : ℕ}, Trans nJ n → Modes nJ n) :
    buildWith { c with O := O', els := els' } n v' finish = buildWith c n v finish := by
  rw [buildWith_eq, buildWith_eq]
  have := stripB_buildEdges (n := n) c.torch c.fd h (a := initAcc n c.h) (a' := initAcc n c.h) rfl
  change (traverse _ _ _ _ _ _).map stripB = (traverse _ _ _ _ _ _).map stripB at this
  change (match traverse c.torch c.fd (O'.withVals v') n c.h els' with
    | .error e => Except.error e
    | .ok a => afterTraverse c n finish a) = _
  cases h1 : traverse c.torch c.fd (c.O.withVals v) n c.h c.els with
  | error e =>
    cases h2 : traverse c.torch c.fd (O'.withVals v') n c.h els' with
    | error e' => rw [h1, h2] at this; simp [Except.map] at this; rw [this]
    | ok b' => rw [h1, h2] at this; simp [Except.map] at this
  | ok b =>
    cases h2 : traverse c.torch c.fd (O'.withVals v') n c.h els' with
    | error e' => rw [h1, h2] at this; simp [Except.map] at this
    | ok b' =>
      rw [h1, h2] at this
      simp only [Except.map, Except.ok.injEq] at this
      simp only
      rw [← afterTraverse_stripB, ← this, afterTraverse_stripB]

end SQ
