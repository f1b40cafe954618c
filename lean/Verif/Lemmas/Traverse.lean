import Verif.Lemmas.Graph

/-!
# The traversal as a fold over placements, and its invariant
-/

namespace SQ
open SQ.Spec

/-! ### firstUses -/

theorem mem_firstUses {α : Type*} [DecidableEq α] (xs : List α) (x : α) :
    x ∈ firstUses xs ↔ x ∈ xs := by
  induction xs with
  | nil => simp [firstUses]
  | cons y ys ih =>
    simp only [firstUses, List.mem_cons, List.mem_filter, ih, decide_eq_true_eq]
    by_cases h : x = y <;> simp [h]

theorem firstUses_snoc {α : Type*} [DecidableEq α] (xs : List α) (x : α) :
    firstUses (xs ++ [x]) = if x ∈ xs then firstUses xs else firstUses xs ++ [x] := by
  induction xs with
  | nil => simp [firstUses]
  | cons y ys ih =>
    simp only [List.cons_append, firstUses, ih]
    by_cases hy : x = y
    · subst hy
      simp only [List.mem_cons, true_or, if_true]
      split
      · rfl
      · simp [List.filter_append]
    · by_cases hm : x ∈ ys
      · simp [hm]
      · simp [hm, hy, List.filter_append]

theorem nodup_firstUses {α : Type*} [DecidableEq α] (xs : List α) : (firstUses xs).Nodup := by
  induction xs with
  | nil => simp [firstUses]
  | cons y ys ih =>
    simp only [firstUses, List.nodup_cons, List.mem_filter]
    exact ⟨by simp, ih.filter _⟩

/-! ### loops -/

/-- bookkeeping of the loops of a state, relative to a trace of uses (loop, branch, vector) -/
structure LoopInv (h : LoopId → LoopObj) (tr : List (LoopId × ℕ × List ℤ))
    (loops : List LoopId) (heap : LoopId → LoopObj) : Prop where
  loops_eq : loops = firstUses (tr.map Prod.fst)
  used : ∀ l ∈ tr.map Prod.fst, heap l =
    { value := (h l).value, A := (h l).A,
      indices := (tr.filter (fun u => decide (u.1 = l))).map (fun u => u.2.1),
      kMat := (tr.filter (fun u => decide (u.1 = l))).map (fun u => u.2.2) }
  unused : ∀ l, l ∉ tr.map Prod.fst → heap l = h l

theorem loopStep_inv {n : ℕ} (torch : Bool) (O : Objs) (h : LoopId → LoopObj) (w : List ℤ) (b : ℕ)
    (l : LoopId) (st : BSt n) (tr) (hi : LoopInv h tr st.loops st.loopHeap) :
    LoopInv h (tr ++ [(l, b, w)]) (loopStep torch O w b l st).loops
      (loopStep torch O w b l st).loopHeap := by
  have key : (loopStep torch O w b l st).loops = (addLoop l st).loops ∧
      (loopStep torch O w b l st).loopHeap = Function.update (addLoop l st).loopHeap l
        ((((addLoop l st).loopHeap l).addIndex b).addToKMat w) := by
    unfold loopStep
    cases torch <;> simp
  obtain ⟨k1, k2⟩ := key
  rw [k1, k2]
  have hmem : st.loops.contains l = true ↔ l ∈ tr.map Prod.fst := by
    rw [hi.loops_eq, List.contains_iff_mem, mem_firstUses]
  by_cases hl : l ∈ tr.map Prod.fst
  · have hc := hmem.2 hl
    have ha : addLoop l st = st := by unfold addLoop; rw [if_pos hc]
    rw [ha]
    constructor
    · simp only [List.map_append, List.map_cons, List.map_nil]
      rw [firstUses_snoc, if_pos hl, hi.loops_eq]
    · intro l' hl'
      by_cases e : l' = l
      · subst e
        rw [Function.update_self, hi.used l' hl]
        simp [LoopObj.addIndex, LoopObj.addToKMat, List.filter_append]
      · rw [Function.update_of_ne e]
        have hl2 : l' ∈ tr.map Prod.fst := by simpa [e] using hl'
        rw [hi.used l' hl2]
        have : ¬ l = l' := fun h => e h.symm
        simp [List.filter_append, this]
    · intro l' hl'
      have e : l' ≠ l := by rintro rfl; simp at hl'
      rw [Function.update_of_ne e]
      exact hi.unused l' (by simp at hl'; simp; tauto)
  · have hc : ¬ st.loops.contains l = true := fun hh => hl (hmem.1 hh)
    have ha1 : (addLoop l st).loops = st.loops ++ [l] := by unfold addLoop; rw [if_neg hc]
    have ha2 : (addLoop l st).loopHeap
        = Function.update st.loopHeap l (st.loopHeap l).reset := by
      unfold addLoop; rw [if_neg hc]
    rw [ha1, ha2]
    have hfil : tr.filter (fun u => decide (u.1 = l)) = [] := by
      rw [List.filter_eq_nil_iff]
      intro u hu hd
      exact hl (List.mem_map.2 ⟨u, hu, by simpa using hd⟩)
    constructor
    · simp only [List.map_append, List.map_cons, List.map_nil]
      rw [firstUses_snoc, if_neg hl, hi.loops_eq]
    · intro l' hl'
      by_cases e : l' = l
      · subst e
        rw [Function.update_self, Function.update_self, hi.unused l' hl]
        simp [LoopObj.addIndex, LoopObj.addToKMat, LoopObj.reset, List.filter_append, hfil]
      · rw [Function.update_of_ne e, Function.update_of_ne e]
        have hl2 : l' ∈ tr.map Prod.fst := by simpa [e] using hl'
        rw [hi.used l' hl2]
        have : ¬ l = l' := fun h => e h.symm
        simp [List.filter_append, this]
    · intro l' hl'
      have e : l' ≠ l := by rintro rfl; simp at hl'
      rw [Function.update_of_ne e, Function.update_of_ne e]
      exact hi.unused l' (by simp at hl'; simp; tauto)

/-! ### parameters -/

/-- parameters after a trace of candidates -/
def paramsOf (O : Objs) (tr : List Comp) : List (Comp × ℝ) :=
  ((firstUses tr).filter (fun c => compTracked O c)).map (fun c => (c, compValue O c))

theorem addToParams_snoc (O : Objs) (tr : List Comp) (c : Comp) :
    addToParams O c (paramsOf O tr) = paramsOf O (tr ++ [c]) := by
  have hm : ((paramsOf O tr).map Prod.fst) = (firstUses tr).filter (fun c => compTracked O c) := by
    simp [paramsOf, List.map_map, Function.comp_def]
  unfold addToParams
  rw [hm]
  by_cases ht : compTracked O c = true
  · by_cases hc : c ∈ tr
    · have : ((firstUses tr).filter (fun c => compTracked O c)).contains c = true := by
        rw [List.contains_iff_mem, List.mem_filter, mem_firstUses]; exact ⟨hc, ht⟩
      simp only [this, Bool.not_true, Bool.and_false, Bool.false_eq_true, if_false]
      simp only [paramsOf, firstUses_snoc, if_pos hc]
    · have : ((firstUses tr).filter (fun c => compTracked O c)).contains c = false := by
        rw [Bool.eq_false_iff]
        intro h
        rw [List.contains_iff_mem, List.mem_filter, mem_firstUses] at h
        exact hc h.1
      simp only [this, ht, Bool.not_false, Bool.and_true, if_true]
      simp [paramsOf, firstUses_snoc, if_neg hc, List.filter_append, ht]
  · simp only [ht, Bool.false_and, Bool.false_eq_true, if_false]
    simp only [paramsOf, firstUses_snoc]
    split
    · rfl
    · simp [List.filter_append, ht]

/-! ### the invariant over placements -/

/-- annotated placement: edge, element, index of the junction edge -/
abbrev APl := Edge × ElemId × ℕ

/-- inductive part of a list of placements -/
def indOf (O : Objs) (ps : List APl) : List APl :=
  ps.filter (fun q => decide ((O.elem q.2.1).kind ≠ .cap))

/-- loop trace of a list of placements -/
def loopTr (n : ℕ) (O : Objs) (ps : List APl) : List (LoopId × ℕ × List ℤ) :=
  (indOf O ps).zipIdx.flatMap
    (fun q => (O.elem q.1.2.1).loops.map (fun l => (l, q.2, incVec n q.1.1)))

/-- contribution of one placement to the sensitivity of object `i` -/
noncomputable def sensOf {n : ℕ} (torch : Bool) (O : Objs) (i : ElemId) (q : APl) :
    Matrix (Fin n) (Fin n) ℝ :=
  (if torch = true ∧ (O.elem q.2.1).kind ≠ .cap ∧ (O.elem q.2.1).cap = i then
      partialMat (O.elem i) (eMat n q.1) else 0)
  + (if (O.elem q.2.1).kind ≠ .jj ∧ q.2.1 = i then partialMat (O.elem i) (eMat n q.1) else 0)

structure Inv {n : ℕ} (torch : Bool) (fd : FluxDist) (O : Objs) (h : LoopId → LoopObj)
    (ps : List APl) (st : BSt n) : Prop where
  bId : st.bId = (indOf O ps).length
  kMat : st.kMat = (indOf O ps).map (fun q => incVec n q.1)
  cEdge : st.cEdge = (indOf O ps).map (fun q => capForFluxDist O fd (O.elem q.2.1))
  indKeys : st.indKeys = (((indOf O ps).zipIdx.filter
    (fun q => decide ((O.elem q.1.2.1).kind = .ind))).map (fun q => (q.1.1, q.1.2.1, q.2)))
  junKeys : st.junKeys = (((indOf O ps).zipIdx.filter
    (fun q => decide ((O.elem q.1.2.1).kind = .jj))).map (fun q => (q.1.1, q.1.2.1, q.2, q.1.2.2)))
  loops : LoopInv h (loopTr n O ps) st.loops st.loopHeap
  params : st.params = if torch then paramsOf O (ps.flatMap (fun q => brings O q.2.1)) else []
  partials : ∀ i, st.partialMats i = (ps.map (sensOf torch O i)).sum

/-- one iteration on an annotated placement -/
noncomputable def stepPl {n : ℕ} (torch : Bool) (fd : FluxDist) (O : Objs) (st : BSt n) (q : APl) :
    BSt n :=
  procElem torch fd O q.1 (incVec n q.1) (eMat n q.1) q.2.2 st q.2.1

/-- fields left alone by `updateLoops` -/
theorem updateLoops_frame {n : ℕ} (torch : Bool) (O : Objs) (w : List ℤ) (b : ℕ)
    (ls : List LoopId) (st : BSt n) :
    let st' := updateLoops torch O w b ls st
    st'.indKeys = st.indKeys ∧ st'.junKeys = st.junKeys ∧ st'.partialMats = st.partialMats ∧
    st'.bId = st.bId ∧ st'.kMat = st.kMat ∧ st'.cEdge = st.cEdge := by
  induction ls generalizing st with
  | nil => simp [updateLoops]
  | cons l ls ih =>
    simp only [updateLoops, List.foldl_cons] at ih ⊢
    have := ih (loopStep torch O w b l st)
    obtain ⟨a1, a2, a3, a4, a5, a6⟩ := this
    have hs : (loopStep torch O w b l st).indKeys = st.indKeys ∧
        (loopStep torch O w b l st).junKeys = st.junKeys ∧
        (loopStep torch O w b l st).partialMats = st.partialMats ∧
        (loopStep torch O w b l st).bId = st.bId ∧ (loopStep torch O w b l st).kMat = st.kMat ∧
        (loopStep torch O w b l st).cEdge = st.cEdge := by
      unfold loopStep addLoop
      cases torch <;> simp <;> split <;> simp
    obtain ⟨b1, b2, b3, b4, b5, b6⟩ := hs
    exact ⟨a1.trans b1, a2.trans b2, a3.trans b3, a4.trans b4, a5.trans b5, a6.trans b6⟩

theorem updateLoops_loops {n : ℕ} (torch : Bool) (O : Objs) (h : LoopId → LoopObj) (w : List ℤ)
    (b : ℕ) (ls : List LoopId) (st : BSt n) (tr) (hi : LoopInv h tr st.loops st.loopHeap) :
    LoopInv h (tr ++ ls.map (fun l => (l, b, w))) (updateLoops torch O w b ls st).loops
      (updateLoops torch O w b ls st).loopHeap := by
  induction ls generalizing st tr with
  | nil => simpa [updateLoops] using hi
  | cons l ls ih =>
    simp only [updateLoops, List.foldl_cons] at ih ⊢
    have := ih (loopStep torch O w b l st) _ (loopStep_inv torch O h w b l st tr hi)
    simpa [List.append_assoc] using this

theorem updateLoops_params {n : ℕ} (torch : Bool) (O : Objs) (w : List ℤ)
    (b : ℕ) (ls : List LoopId) (st : BSt n) (tr : List Comp)
    (hi : st.params = if torch then paramsOf O tr else []) :
    (updateLoops torch O w b ls st).params
      = if torch then paramsOf O (tr ++ ls.map Comp.loop) else [] := by
  induction ls generalizing st tr with
  | nil => simpa [updateLoops] using hi
  | cons l ls ih =>
    simp only [updateLoops, List.foldl_cons] at ih ⊢
    have hs : (loopStep torch O w b l st).params
        = if torch then paramsOf O (tr ++ [Comp.loop l]) else [] := by
      have hap : (addLoop l st).params = st.params := by unfold addLoop; split <;> rfl
      unfold loopStep
      cases torch
      · simpa [hap] using hi
      · simp only [if_true] at hi ⊢
        rw [← addToParams_snoc, ← hi, hap]
    have := ih _ _ hs
    simpa [List.append_assoc] using this

theorem kind_cases (o : ElemObj) : o.kind = .cap ∨ o.kind = .ind ∨ o.kind = .jj := by
  cases o.kind <;> simp

theorem indOf_snoc_cap {O : Objs} {ps : List APl} {q : APl} (hk : (O.elem q.2.1).kind = .cap) :
    indOf O (ps ++ [q]) = indOf O ps := by
  simp [indOf, List.filter_append, hk]

theorem indOf_snoc_ind {O : Objs} {ps : List APl} {q : APl} (hk : (O.elem q.2.1).kind ≠ .cap) :
    indOf O (ps ++ [q]) = indOf O ps ++ [q] := by
  simp [indOf, List.filter_append, hk]

theorem inv_init {n : ℕ} (torch fd) (O : Objs) (h : LoopId → LoopObj) :
    Inv torch fd O h [] (initAcc n h).st := by
  constructor <;> simp [initAcc, indOf]
  · constructor <;> simp [loopTr, indOf, firstUses]
  · simp [paramsOf, firstUses]

theorem zipIdx_snoc {α : Type*} (l : List α) (x : α) :
    (l ++ [x]).zipIdx = l.zipIdx ++ [(x, l.length)] := by
  simp [List.zipIdx_append]

theorem addPartial_apply {n : ℕ} (j i : ElemId) (x : Matrix (Fin n) (Fin n) ℝ)
    (p : ElemId → Matrix (Fin n) (Fin n) ℝ) :
    addPartial j x p i = p i + if j = i then x else 0 := by
  unfold addPartial
  by_cases h : i = j
  · subst h; simp
  · rw [Function.update_of_ne h, if_neg (fun h' => h h'.symm), add_zero]

theorem inv_step {n : ℕ} (torch fd) (O : Objs) (h : LoopId → LoopObj) (ps : List APl) (q : APl)
    (st : BSt n) (hi : Inv torch fd O h ps st) :
    Inv torch fd O h (ps ++ [q]) (stepPl torch fd O st q) := by
  obtain ⟨e, i, wid⟩ := q
  have hfm : (ps ++ [(e, i, wid)]).flatMap (fun q => brings O q.2.1)
      = ps.flatMap (fun q => brings O q.2.1) ++ brings O i := by simp
  by_cases hk : (O.elem i).kind = .cap
  · -- capacitor
    have hcap := indOf_snoc_cap (O := O) (ps := ps) (q := (e, i, wid)) hk
    have hstep : stepPl torch fd O st (e, i, wid) =
        { st with
          partialMats := addPartial i (partialMat (O.elem i) (eMat n e)) st.partialMats
          params := if torch then addToParams O (.elem i) st.params else st.params } := by
      unfold stepPl procElem
      cases torch <;> simp [hk, ElemObj.inductive]
    rw [hstep]
    constructor
    · simp only [hcap]; exact hi.bId
    · simp only [hcap]; exact hi.kMat
    · simp only [hcap]; exact hi.cEdge
    · simp only [hcap]; exact hi.indKeys
    · simp only [hcap]; exact hi.junKeys
    · simp only [loopTr, hcap]; exact hi.loops
    · have hb : brings O i = [.elem i] := by simp [brings, hk]
      simp only [hfm, hi.params, hb]
      cases torch
      · simp
      · simp only [if_true]; rw [addToParams_snoc]
    · intro j
      simp only [addPartial_apply, hi.partials, List.map_append, List.sum_append, List.map_cons,
        List.map_nil, List.sum_cons, List.sum_nil, add_zero, sensOf, hk]
      by_cases hij : i = j
      · subst hij; simp
      · simp [hij]
  · -- inductive element
    have hind := indOf_snoc_ind (O := O) (ps := ps) (q := (e, i, wid)) hk
    have hin : (O.elem i).inductive = true := by simp [ElemObj.inductive, hk]
    -- state before the loops are updated
    let st1 : BSt n := { st with
      params := if torch then addToParams O (.elem (O.elem i).cap) st.params else st.params
      partialMats := if torch then addPartial (O.elem i).cap
        (partialMat (O.elem (O.elem i).cap) (eMat n e)) st.partialMats else st.partialMats
      junKeys := if (O.elem i).kind = .jj then st.junKeys ++ [(e, i, st.bId, wid)] else st.junKeys
      indKeys := if (O.elem i).kind = .jj then st.indKeys else st.indKeys ++ [(e, i, st.bId)] }
    let st2 : BSt n := updateLoops torch O (incVec n e) st.bId (O.elem i).loops st1
    have hstep : stepPl torch fd O st (e, i, wid) =
        { st2 with
          bId := st2.bId + 1
          kMat := st2.kMat ++ [incVec n e]
          cEdge := st2.cEdge ++ [capForFluxDist O fd (O.elem i)]
          partialMats := if (O.elem i).kind = .jj then st2.partialMats
            else addPartial i (partialMat (O.elem i) (eMat n e)) st2.partialMats
          params := if torch then addToParams O (.elem i) st2.params else st2.params } := by
      unfold stepPl procElem
      by_cases hj : (O.elem i).kind = .jj <;> cases torch <;> simp [hin, hj, st2, st1]
    obtain ⟨f1, f2, f3, f4, f5, f6⟩ :=
      updateLoops_frame torch O (incVec n e) st.bId (O.elem i).loops st1
    have hp1 : st1.params = if torch then
        paramsOf O (ps.flatMap (fun q => brings O q.2.1) ++ [.elem (O.elem i).cap]) else [] := by
      simp only [st1, hi.params]
      cases torch
      · simp
      · simp only [if_true]; rw [addToParams_snoc]
    have hp2 := updateLoops_params torch O (incVec n e) st.bId (O.elem i).loops st1 _ hp1
    have hl2 := updateLoops_loops torch O h (incVec n e) st.bId (O.elem i).loops st1
      (loopTr n O ps) hi.loops
    have g1 : st2.indKeys
      = if (O.elem i).kind = .jj then st.indKeys else st.indKeys ++ [(e, i, st.bId)] := f1
    have g2 : st2.junKeys
      = if (O.elem i).kind = .jj then st.junKeys ++ [(e, i, st.bId, wid)] else st.junKeys := f2
    have g3 : st2.partialMats = if torch then addPartial (O.elem i).cap
        (partialMat (O.elem (O.elem i).cap) (eMat n e)) st.partialMats else st.partialMats := f3
    have g4 : st2.bId = st.bId := f4
    have g5 : st2.kMat = st.kMat := f5
    have g6 : st2.cEdge = st.cEdge := f6
    change st2.params = _ at hp2
    change LoopInv h _ st2.loops st2.loopHeap at hl2
    rw [hstep]
    clear f1 f2 f3 f4 f5 f6 hstep hp1
    clear_value st2
    constructor
    · simp only [hind, List.length_append, List.length_cons, List.length_nil, g4, hi.bId]
    · simp only [hind, g5, hi.kMat, List.map_append, List.map_cons, List.map_nil]
    · simp only [hind, g6, hi.cEdge, List.map_append, List.map_cons, List.map_nil]
    · simp only [hind, zipIdx_snoc, List.filter_append, List.map_append, g1, hi.indKeys,
        hi.bId]
      by_cases hj : (O.elem i).kind = .jj
      · simp [hj]
      · have : (O.elem i).kind = .ind := by
          rcases kind_cases (O.elem i) with h | h | h
          · exact absurd h hk
          · exact h
          · exact absurd h hj
        simp [this]
    · simp only [hind, zipIdx_snoc, List.filter_append, List.map_append, g2, hi.junKeys,
        hi.bId]
      by_cases hj : (O.elem i).kind = .jj
      · simp [hj]
      · simp [hj]
    · have : loopTr n O (ps ++ [(e, i, wid)])
          = loopTr n O ps ++ (O.elem i).loops.map (fun l => (l, st.bId, incVec n e)) := by
        simp [loopTr, hind, zipIdx_snoc, hi.bId]
      rw [this]
      exact hl2
    · have hb : brings O i
          = .elem (O.elem i).cap :: ((O.elem i).loops.map Comp.loop ++ [.elem i]) := by
        simp [brings, hk]
      simp only [hp2, hfm, hb]
      cases torch
      · simp
      · simp only [if_true]; rw [addToParams_snoc]; simp [List.append_assoc]
    · intro j
      simp only [List.map_append, List.sum_append, List.map_cons, List.map_nil, List.sum_cons,
        List.sum_nil, add_zero, sensOf]
      have h1 : st2.partialMats j = st.partialMats j +
          (if torch = true ∧ (O.elem i).kind ≠ .cap ∧ (O.elem i).cap = j then
            partialMat (O.elem j) (eMat n e) else 0) := by
        rw [g3]
        cases torch
        · simp
        · simp only [if_true, addPartial_apply, true_and, ne_eq, hk, not_false_eq_true]
          by_cases hc : (O.elem i).cap = j
          · simp [hc]
          · simp [hc]
      rw [hi.partials] at h1
      by_cases hj : (O.elem i).kind = .jj
      · rw [if_pos hj, h1]; simp [hj]
      · rw [if_neg hj, addPartial_apply, h1]
        by_cases hij : i = j
        · subst hij; simp [hj, add_assoc]
        · simp [hij]

theorem inv_fold {n : ℕ} (torch fd) (O : Objs) (h : LoopId → LoopObj) (ps qs : List APl)
    (st : BSt n) (hi : Inv torch fd O h ps st) :
    Inv torch fd O h (ps ++ qs) (qs.foldl (stepPl torch fd O) st) := by
  induction qs generalizing ps st with
  | nil => simpa using hi
  | cons q qs ih =>
    have := ih (ps ++ [q]) _ (inv_step torch fd O h ps q st hi)
    simpa [List.append_assoc] using this

/-! ### annotation of the placements of a dictionary -/

/-- does the edge carry a junction -/
def hasJJ (O : Objs) (is : List ElemId) : Bool := is.any (fun i => decide ((O.elem i).kind = .jj))

/-- placements annotated with the index of the junction edge, counting from `k` -/
def annotate (O : Objs) : ℕ → Elements → List APl
  | _, [] => []
  | k, p :: ps => p.2.map (fun i => (p.1, i, k)) ++ annotate O (if hasJJ O p.2 then k + 1 else k) ps

theorem annotate_forget (O : Objs) (k : ℕ) (els : Elements) :
    (annotate O k els).map (fun q => (q.1, q.2.1)) = placements els := by
  induction els generalizing k with
  | nil => rfl
  | cons p ps ih =>
    simp only [annotate, List.map_append, ih, List.map_map, Function.comp_def]
    simp [placements]

theorem edgeJuncs_ne (O : Objs) (is : List ElemId) :
    (edgeJuncs O is).length ≠ 0 ↔ hasJJ O is = true := by
  simp only [edgeJuncs, hasJJ, ne_eq, List.length_eq_zero_iff, List.filter_eq_nil_iff,
    List.any_eq_true, decide_eq_true_eq, beq_iff_eq]
  push Not
  rfl

theorem junctionEdges_cons (O : Objs) (p : Edge × List ElemId) (ps : Elements) :
    junctionEdges O (p :: ps) = (if hasJJ O p.2 then [p.1] else []) ++ junctionEdges O ps := by
  by_cases h : hasJJ O p.2 = true
  · have h' := h
    unfold hasJJ at h'
    simp only [junctionEdges, List.filter_cons, h', h, if_true]
    simp
  · have h' := h
    unfold hasJJ at h'
    simp only [junctionEdges, List.filter_cons, h', h]
    simp

/-- the junction-edge index of every junction placement points at its edge -/
theorem annotate_wid (O : Objs) (k : ℕ) (els : Elements) :
    ∀ q ∈ annotate O k els, (O.elem q.2.1).kind = .jj →
      k ≤ q.2.2 ∧ (junctionEdges O els)[q.2.2 - k]? = some q.1 := by
  induction els generalizing k with
  | nil => simp [annotate]
  | cons p ps ih =>
    intro q hq hk
    simp only [annotate, List.mem_append, List.mem_map] at hq
    rw [junctionEdges_cons]
    rcases hq with ⟨i, hi, rfl⟩ | hq
    · have : hasJJ O p.2 = true := by
        simp only [hasJJ, List.any_eq_true, decide_eq_true_eq]; exact ⟨i, hi, hk⟩
      simp [this]
    · obtain ⟨h1, h2⟩ := ih _ q hq hk
      by_cases hj : hasJJ O p.2 = true
      · simp only [hj, if_true] at h1 h2 ⊢
        refine ⟨by omega, ?_⟩
        rw [show q.2.2 - k = (q.2.2 - (k + 1)) + 1 by omega]
        simpa using h2
      · simp only [hj] at h1 h2 ⊢
        exact ⟨h1, by simpa using h2⟩

theorem wAtEdge_eq {n : ℕ} {e : Edge} (h : ValidEdge n e) : wAtEdge n e = .ok (incVec n e) := by
  obtain ⟨w, hw, hlen, hval⟩ := wAtEdge_ok h
  rw [hw]
  congr 1
  apply List.ext_getElem?
  intro k
  by_cases hk : k < n
  · have := hval k
    rw [List.getD_eq_getElem?_getD, List.getElem?_eq_getElem (by omega)] at this
    rw [List.getElem?_eq_getElem (by omega)]
    simp [incVec, hk] at this ⊢
    exact this
  · rw [List.getElem?_eq_none (by omega), List.getElem?_eq_none (by simp [incVec]; omega)]

theorem buildEdges_st {n : ℕ} {torch fd} {O : Objs} {els : Elements}
    (hv : ValidElements n els) {a a' : Acc n} (h : buildEdges torch fd O els a = .ok a') :
    a'.st = (annotate O a.wId els).foldl (stepPl torch fd O) a.st ∧
    a'.wMat = a.wMat ++ (junctionEdges O els).map (incVec n) := by
  induction els generalizing a with
  | nil => simp [buildEdges] at h; subst h; simp [annotate, junctionEdges]
  | cons p ps ih =>
    obtain ⟨b, hb, hrest⟩ := buildEdges_cons_ok h
    obtain ⟨w, m, hw, hm, -, hst, -, -, hwm, hwi⟩ := edgeStep_ok hb
    rw [matrixRep_eq (hv p (by simp))] at hm
    rw [wAtEdge_eq (hv p (by simp))] at hw
    simp only [Except.ok.injEq] at hm hw
    subst hm; subst hw
    obtain ⟨h1, h2⟩ := ih (fun q hq => hv q (by simp [hq])) hrest
    simp only [edgeJuncs_ne] at hwm hwi
    constructor
    · rw [h1, hwi, hst]
      simp only [annotate, List.foldl_append, procEdge, List.foldl_map]
      rfl
    · rw [h2, hwm, junctionEdges_cons]
      split <;> simp

theorem traverse_inv {n : ℕ} {torch fd} {O : Objs} {h els} (hv : ValidElements n els)
    {a : Acc n} (ha : traverse torch fd O n h els = .ok a) :
    Inv torch fd O h (annotate O 0 els) a.st ∧ a.wMat = (junctionEdges O els).map (incVec n) := by
  obtain ⟨h1, h2⟩ := buildEdges_st hv ha
  refine ⟨?_, by simpa [initAcc] using h2⟩
  rw [h1]
  have := inv_fold torch fd O h [] (annotate O 0 els) _ (inv_init (n := n) torch fd O h)
  exact this

theorem indOf_annotate (O : Objs) (els : Elements) (k : ℕ) :
    (indOf O (annotate O k els)).map (fun q => (q.1, q.2.1)) = inductivePlacements O els := by
  rw [inductivePlacements, ← annotate_forget O k els, indOf, List.filter_map]
  rfl

theorem zipIdx_map_fst {α β : Type*} (l : List α) (f : α → β) :
    (l.map f).zipIdx = l.zipIdx.map (fun q => (f q.1, q.2)) := by
  rw [List.zipIdx_map]; rfl

theorem numbered_eq (O : Objs) (els : Elements) (k : ℕ) :
    numbered O els = (indOf O (annotate O k els)).zipIdx.map (fun q => ((q.1.1, q.1.2.1), q.2)) := by
  rw [numbered, ← indOf_annotate O els k, zipIdx_map_fst]

theorem loopTr_eq (n : ℕ) (O : Objs) (els : Elements) (k : ℕ) :
    loopTr n O (annotate O k els)
      = (loopUses O els).map (fun u => (u.1, u.2.1, incVec n u.2.2)) := by
  rw [loopUses, numbered_eq O els k, loopTr, List.map_flatMap, List.flatMap_map]
  simp [Function.comp_def]

end SQ
