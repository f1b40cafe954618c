import Verif.Lemmas.Parallel
import Verif.Lemmas.CircuitState
import Verif.Props.Traverse
import Verif.Lemmas.Grad

/-! # Lemmas for C108: circuits without loops -/

namespace SQ
open Matrix Spec

variable {n : ℕ} {V : Type*} [AddCommGroup V] [Module ℂ V]

/-- sum over junction keys -/
def junSum (v : ElemId → ℝ) (f : ℕ → V) (l : List (Edge × ElemId × ℕ × ℕ)) : V :=
  (l.map (fun k => (v k.2.1 : ℂ) • f k.2.2.2)).sum

theorem updateLoops_nil (torch : Bool) (O : Objs) (w : List ℤ) (b : ℕ) (st : BSt n) :
    updateLoops torch O w b [] st = st := rfl

theorem procElem_loopless (torch : Bool) (fd : FluxDist) (O : Objs) (e : Edge) (w : List ℤ)
    (m : Matrix (Fin n) (Fin n) ℝ) (wId : ℕ) (st : BSt n) (i : ElemId)
    (hl : (O.elem i).kind ≠ .cap → (O.elem i).loops = []) (f : ℕ → V) :
    (procElem torch fd O e w m wId st i).loops = st.loops ∧
    junSum (fun i => (O.elem i).value) f (procElem torch fd O e w m wId st i).junKeys =
      junSum (fun i => (O.elem i).value) f st.junKeys + (placedEJ O i : ℂ) • f wId := by
  unfold procElem placedEJ junSum
  cases hk : (O.elem i).kind <;> cases torch <;>
    simp [ElemObj.inductive, hk, updateLoops_nil, hl]

theorem procEdge_loopless (torch : Bool) (fd : FluxDist) (O : Objs) (e : Edge) (w : List ℤ)
    (m : Matrix (Fin n) (Fin n) ℝ) (wId : ℕ) (ids : List ElemId) (st : BSt n)
    (hl : ∀ i ∈ ids, (O.elem i).kind ≠ .cap → (O.elem i).loops = []) (f : ℕ → V) :
    (procEdge torch fd O e w m wId ids st).loops = st.loops ∧
    junSum (fun i => (O.elem i).value) f (procEdge torch fd O e w m wId ids st).junKeys =
      junSum (fun i => (O.elem i).value) f st.junKeys + (((ids.map (placedEJ O)).sum : ℝ) : ℂ) • f wId := by
  unfold procEdge
  induction ids generalizing st with
  | nil => simp
  | cons i ids ih =>
    obtain ⟨h1, h2⟩ := procElem_loopless torch fd O e w m wId st i (hl i (by simp)) f
    obtain ⟨h3, h4⟩ := ih (procElem torch fd O e w m wId st i) (fun j hj => hl j (by simp [hj]))
    refine ⟨h3.trans h1, ?_⟩
    rw [List.foldl_cons, h4, h2, List.map_cons, List.sum_cons, Complex.ofReal_add, add_smul, add_assoc]

theorem effInd_ok {O : Objs} {ids : List ElemId} (h : ∀ i ∈ ids, (O.elem i).kind = .ind → (O.elem i).value ≠ 0) :
    effInd O ids = .ok ((ids.map (placedInvInd O)).sum) := by
  unfold effInd
  rw [if_neg]
  · congr 1
    unfold edgeInds
    clear h
    induction ids with
    | nil => rfl
    | cons i ids ih =>
      by_cases hk : (O.elem i).kind = .ind
      · rw [List.filter_cons_of_pos (by simp [hk]), List.map_cons, List.sum_cons, List.map_cons, List.sum_cons, ih]
        simp [placedInvInd, hk]
      · rw [List.filter_cons_of_neg (by simp [hk]), List.map_cons, List.sum_cons, ih]
        cases hk' : (O.elem i).kind <;> simp_all [placedInvInd]
  · simp only [List.any_eq_true, not_exists, not_and, decide_eq_true_eq]
    intro i hi
    obtain ⟨h1, h2⟩ := List.mem_filter.1 hi
    exact h i h1 (by simpa using h2)

theorem filter_len {O : Objs} {ids : List ElemId} (k : Kind) :
    (ids.filter (fun i => (O.elem i).kind == k)).length ≠ 0 ↔ ∃ i ∈ ids, (O.elem i).kind = k := by
  rw [Ne, List.length_eq_zero_iff, List.filter_eq_nil_iff]
  push Not
  simp

/-- two traversals of loop-free dictionaries with the same totals -/
structure LoopFreeRel (v v' : ElemId → ℝ) (f : ℕ → V) (a a' : Acc n) : Prop where
  c : a'.cMat = a.cMat
  l : a'.lMat = a.lMat
  w : a'.wMat = a.wMat
  wId : a'.wId = a.wId
  num : a'.numJunWithoutInd = a.numJunWithoutInd
  loops : a.st.loops = []
  loops' : a'.st.loops = []
  jun : junSum v' f a'.st.junKeys = junSum v f a.st.junKeys

theorem edgeStep_loopfree (torch : Bool) (fd : FluxDist) {O O' : Objs} {v v' : ElemId → ℝ} {p q : Edge × List ElemId}
    (h : SameTotals O O' v v' p q) (f : ℕ → V) {a a' : Acc n} (hr : LoopFreeRel v v' f a a') :
    (∃ e, edgeStep torch fd (O.withVals v) a p = .error e ∧ edgeStep torch fd (O'.withVals v') a' q = .error e) ∨
    ∃ b b', edgeStep torch fd (O.withVals v) a p = .ok b ∧ edgeStep torch fd (O'.withVals v') a' q = .ok b' ∧
      LoopFreeRel v v' f b b' := by
  have hI := effInd_ok (O := O.withVals v) (ids := p.2) h.nonzero
  have hI' := effInd_ok (O := O'.withVals v') (ids := q.2) h.nonzero'
  rw [h.ind] at hI'
  have hJ : (edgeJuncs (O'.withVals v') q.2).length ≠ 0 ↔ (edgeJuncs (O.withVals v) p.2).length ≠ 0 := by
    unfold edgeJuncs
    rw [filter_len, filter_len]
    exact h.hasJun
  have hL : (edgeInds (O'.withVals v') q.2).length ≠ 0 ↔ (edgeInds (O.withVals v) p.2).length ≠ 0 := by
    unfold edgeInds
    rw [filter_len, filter_len]
    exact h.hasInd
  have hC : effCap (O'.withVals v') q.2 = effCap (O.withVals v) p.2 := by
    rw [effCap_eq, effCap_eq]; exact h.cap
  unfold edgeStep
  rw [h.edge]
  cases wAtEdge n p.1 with
  | error e => exact Or.inl ⟨e, rfl, rfl⟩
  | ok w =>
    cases matrixRep n p.1 with
    | error e => exact Or.inl ⟨e, rfl, rfl⟩
    | ok m =>
      simp only [hI, hI']
      obtain ⟨g1, g2⟩ := procEdge_loopless torch fd (O.withVals v) p.1 w m a.wId p.2 a.st h.loops f
      obtain ⟨g1', g2'⟩ := procEdge_loopless torch fd (O'.withVals v') p.1 w m a'.wId q.2 a'.st h.loops' f
      have hN : (if (edgeJuncs (O'.withVals v') q.2).length ≠ 0 ∧ (edgeInds (O'.withVals v') q.2).length = 0 then
            a'.numJunWithoutInd + 1 else a'.numJunWithoutInd) =
          if (edgeJuncs (O.withVals v) p.2).length ≠ 0 ∧ (edgeInds (O.withVals v) p.2).length = 0 then
            a.numJunWithoutInd + 1 else a.numJunWithoutInd := by
        have hL' := not_iff_not.2 hL
        simp only [not_not] at hL'
        simp only [hJ, hL', hr.num]
      have hS : junSum v' f (procEdge torch fd (O'.withVals v') p.1 w m a'.wId q.2 a'.st).junKeys =
          junSum v f (procEdge torch fd (O.withVals v) p.1 w m a.wId p.2 a.st).junKeys := by
        refine g2'.trans (Eq.trans ?_ g2.symm)
        rw [h.jun, hr.wId]
        exact congrArg (· + _) hr.jun
      right
      by_cases hJp : (edgeJuncs (O.withVals v) p.2).length ≠ 0
      · rw [if_pos hJp, if_pos (hJ.2 hJp)]
        exact ⟨_, _, rfl, rfl, ⟨by simp only [hr.c, hC], by simp only [hr.l], by simp only [hr.w],
          by simp only [hr.wId], hN, g1.trans hr.loops, g1'.trans hr.loops', hS⟩⟩
      · rw [if_neg hJp, if_neg (fun h => hJp (hJ.1 h))]
        exact ⟨_, _, rfl, rfl, ⟨by simp only [hr.c, hC], by simp only [hr.l], by simp only [hr.w],
          by simp only [hr.wId], hN, g1.trans hr.loops, g1'.trans hr.loops', hS⟩⟩

theorem buildEdges_loopfree (torch : Bool) (fd : FluxDist) {O O' : Objs} {v v' : ElemId → ℝ} {els els' : Elements}
    (h : List.Forall₂ (SameTotals O O' v v') els els') (f : ℕ → V) {a a' : Acc n} (hr : LoopFreeRel v v' f a a') :
    (∃ e, buildEdges torch fd (O.withVals v) els a = .error e ∧ buildEdges torch fd (O'.withVals v') els' a' = .error e) ∨
    ∃ b b', buildEdges torch fd (O.withVals v) els a = .ok b ∧ buildEdges torch fd (O'.withVals v') els' a' = .ok b' ∧
      LoopFreeRel v v' f b b' := by
  induction h generalizing a a' with
  | nil => exact Or.inr ⟨a, a', rfl, rfl, hr⟩
  | cons hpq _ ih =>
    unfold buildEdges
    rcases edgeStep_loopfree torch fd hpq f hr with ⟨e, h1, h2⟩ | ⟨b, b', h1, h2, hr'⟩
    · exact Or.inl ⟨e, by rw [h1], by rw [h2]⟩
    · rw [h1, h2]
      exact ih hr'

theorem junKeys_lt {torch : Bool} {fd : FluxDist} {O : Objs} {h : LoopId → LoopObj} {els : Elements}
    (hv : ValidElements n els) {a : Acc n} (ha : traverse torch fd O n h els = .ok a) :
    ∀ k ∈ a.st.junKeys, k.2.2.1 < a.st.kMat.length ∧ k.2.2.2 < a.wMat.length := by
  obtain ⟨h1, h2, h3, h4, h5, h6⟩ := C18_branch_numbering _ _ _ _ _ _ hv a ha
  have hlen : a.st.kMat.length = (inductivePlacements O els).length := by
    rw [h6, List.length_map]
  intro k hk
  constructor
  · have hm : (k.1, k.2.1, k.2.2.1) ∈ a.st.junKeys.map (fun k => (k.1, k.2.1, k.2.2.1)) :=
      List.mem_map.2 ⟨k, hk, rfl⟩
    rw [h2] at hm
    obtain ⟨q, hq, he⟩ := List.mem_map.1 hm
    have := List.mem_zipIdx (List.mem_filter.1 hq).1
    rw [hlen]
    have h8 : q.2 = k.2.2.1 := (Prod.ext_iff.1 (Prod.ext_iff.1 he).2).2
    omega
  · exact (List.getElem?_eq_some_iff.1 (h4 k hk).2).1

theorem junKeysOf_sum (nB nJ : ℕ) (l : List (Edge × ElemId × ℕ × ℕ)) (h : ∀ k ∈ l, k.2.2.1 < nB ∧ k.2.2.2 < nJ)
    (v : ElemId → ℝ) (f : ℕ → V) :
    ((junKeysOf nB nJ l).map (fun k => (v k.el : ℂ) • f k.wId)).sum = junSum v f l := by
  induction l with
  | nil => rfl
  | cons a l ih =>
    have ha := h a (by simp)
    have := ih (fun k hk => h k (by simp [hk]))
    unfold junKeysOf junSum at this ⊢
    rw [List.filterMap_cons, dif_pos ha, List.map_cons, List.map_cons, List.sum_cons, List.sum_cons, this]

theorem fluxMatrix_nil (sv : SvdFn) (n : ℕ) (kMat : List (List ℤ)) (cEdge : List ℝ) :
    fluxMatrix sv n kMat cEdge [] = .ok none := by
  unfold fluxMatrix
  simp [loopRows]

open Classical in
theorem afterFields_nil (c : CircSpec) (n : ℕ) (finish : ∀ {nJ : ℕ}, Trans nJ n → Modes nJ n) (kMat : List (List ℤ))
    (cEdge : List ℝ) (heap : LoopId → LoopObj) (C L : Matrix (Fin n) (Fin n) ℝ) (wMat : List (List ℤ)) (numJ : ℕ)
    (ik : List (Edge × ElemId × ℕ)) (jk : List (Edge × ElemId × ℕ × ℕ)) :
    afterFields c n finish kMat cEdge [] heap C L wMat numJ ik jk =
      if C.det = 0 then .error .linAlg
      else
        match transformHamil (c.lib n) c.sv c.argsort (c.argmax _) c.draws numJ
            C L (arrayOf n wMat) c.fuel (initTrans C L (arrayOf n wMat)) with
        | none => .error .noReturn
        | some (.error e) => .error e
        | some (.ok t) =>
          .ok { n := n, nJ := wMat.length, nB := kMat.length, C := C, loops := []
                B := 0
                inds := indKeysOf _ ik
                juns := junKeysOf _ _ jk
                M := finish t } := by
  unfold afterFields
  have h : fluxMatrix c.sv n kMat cEdge (([] : List LoopId).map heap) = .ok none := fluxMatrix_nil c.sv n kMat cEdge
  rw [h]
  simp only [fluxTable]
  by_cases hd : C.det = 0
  · rw [if_pos hd, if_pos hd]
  · rw [if_neg hd, if_neg hd]
    cases transformHamil (c.lib n) c.sv c.argsort (c.argmax wMat.length) c.draws numJ C L (arrayOf n wMat) c.fuel
        (initTrans C L (arrayOf n wMat)) with
    | none => rfl
    | some r => cases r <;> rfl

end SQ
