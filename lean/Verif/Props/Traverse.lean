import Verif.Lemmas.Traverse
import Verif.Props.Graph
import Mathlib.Analysis.Calculus.Deriv.Mul
import Mathlib.Analysis.Calculus.Deriv.Add
import Mathlib.Analysis.Calculus.Deriv.Inv

/-!
# C18–C20, C50: branch numbering, loop membership, sensitivities, parameters
-/

namespace SQ
open SQ.Spec

/-! ## C18 -/

/-- Branch numbering and W rows: the keys of inductors and junctions are the inductive placements
with their running number; W has one row (the incidence vector) per junction edge; the W index
recorded for a junction points at the row of its own edge. -/
theorem C18_branch_numbering (torch : Bool) (fd : FluxDist) (O : Objs) (n : ℕ)
    (h : LoopId → LoopObj) (els : Elements) (hv : ValidElements n els) (a : Acc n)
    (ha : traverse torch fd O n h els = .ok a) :
    a.st.indKeys = ((numbered O els).filter (fun q => decide ((O.elem q.1.2).kind = .ind))).map
      (fun q => (q.1.1, q.1.2, q.2)) ∧
    a.st.junKeys.map (fun k => (k.1, k.2.1, k.2.2.1)) =
      ((numbered O els).filter (fun q => decide ((O.elem q.1.2).kind = .jj))).map
        (fun q => (q.1.1, q.1.2, q.2)) ∧
    a.wMat = (junctionEdges O els).map (incVec n) ∧
    (∀ k ∈ a.st.junKeys, (junctionEdges O els)[k.2.2.2]? = some k.1 ∧
      a.wMat[k.2.2.2]? = some (incVec n k.1)) ∧
    a.st.bId = (inductivePlacements O els).length ∧
    a.st.kMat = (inductivePlacements O els).map (fun q => incVec n q.1) := by
  obtain ⟨hi, hw⟩ := traverse_inv hv ha
  have hJ : ∀ k ∈ a.st.junKeys, (junctionEdges O els)[k.2.2.2]? = some k.1 := by
    intro k hk
    rw [hi.junKeys] at hk
    obtain ⟨q, hq, rfl⟩ := List.mem_map.1 hk
    obtain ⟨hq, hkind⟩ := List.mem_filter.1 hq
    obtain ⟨⟨e, i, w⟩, b⟩ := q
    have hmem : (e, i, w) ∈ indOf O (annotate O 0 els) := by
      rw [List.mem_zipIdx_iff_getElem?] at hq
      exact List.mem_of_getElem? hq
    have := annotate_wid O 0 els (e, i, w) (List.mem_of_mem_filter hmem) (by simpa using hkind)
    simpa using this.2
  refine ⟨?_, ?_, hw, ?_, ?_, ?_⟩
  · rw [hi.indKeys, numbered_eq O els 0, List.filter_map, List.map_map]; rfl
  · rw [hi.junKeys, numbered_eq O els 0, List.filter_map, List.map_map, List.map_map]; rfl
  · intro k hk
    refine ⟨hJ k hk, ?_⟩
    rw [hw, List.getElem?_map, hJ k hk]; rfl
  · rw [hi.bId, ← indOf_annotate O els 0, List.length_map]
  · rw [hi.kMat, ← indOf_annotate O els 0, List.map_map]; rfl

example (h : LoopId → LoopObj) : ∃ a, traverse false .junctions exObjs 2 h exEls = .ok a ∧
    a.st.indKeys = [((0, 1), 0, 0)] ∧ a.wMat = [[1, -1]] := by
  obtain ⟨a, ha⟩ := buildEdges_succeeds false .junctions exEls_valid exEls_ind (initAcc 2 h)
  obtain ⟨h1, -, h2, -⟩ := C18_branch_numbering _ _ _ _ _ _ exEls_valid a ha
  refine ⟨a, ha, ?_, ?_⟩
  · rw [h1]; simp [numbered, inductivePlacements, placements, exEls, exObjs]
  · rw [h2]; simp [junctionEdges, exEls, exObjs]; decide

/-! ## C19 -/

/-- Whatever the loops' bookkeeping contained before, after the traversal the circuit's loop list
is the list of loops in order of first use, without repetition, and each of them records exactly
the branch numbers and incidence vectors of its uses; flux value and noise amplitude are
untouched, and so are loops the circuit does not use. -/
theorem C19_loop_membership (torch : Bool) (fd : FluxDist) (O : Objs) (n : ℕ)
    (h : LoopId → LoopObj) (els : Elements) (hv : ValidElements n els) (a : Acc n)
    (ha : traverse torch fd O n h els = .ok a) :
    a.st.loops = firstUses ((loopUses O els).map Prod.fst) ∧ a.st.loops.Nodup ∧
    (∀ l ∈ a.st.loops, (a.st.loopHeap l).indices = (usesOf O els l).map Prod.fst ∧
      (a.st.loopHeap l).kMat = (usesOf O els l).map (fun u => incVec n u.2)) ∧
    (∀ l, (a.st.loopHeap l).value = (h l).value ∧ (a.st.loopHeap l).A = (h l).A) ∧
    (∀ l, l ∉ a.st.loops → a.st.loopHeap l = h l) := by
  obtain ⟨hi, -⟩ := traverse_inv hv ha
  have hl := hi.loops
  rw [loopTr_eq] at hl
  have hfst : ((loopUses O els).map (fun u => (u.1, u.2.1, incVec n u.2.2))).map Prod.fst
      = (loopUses O els).map Prod.fst := by simp [List.map_map, Function.comp_def]
  have h1 : a.st.loops = firstUses ((loopUses O els).map Prod.fst) := by
    rw [hl.loops_eq, hfst]
  have hmem : ∀ l, l ∈ a.st.loops ↔ l ∈ (loopUses O els).map Prod.fst := by
    intro l; rw [h1, mem_firstUses]
  refine ⟨h1, by rw [h1]; exact nodup_firstUses _, ?_, ?_, ?_⟩
  · intro l hlm
    have hu := hl.used l (by rw [hfst]; exact (hmem l).1 hlm)
    rw [hu, usesOf]
    simp only [List.filter_map, List.map_map]
    exact ⟨rfl, rfl⟩
  · intro l
    by_cases hlm : l ∈ (loopUses O els).map Prod.fst
    · rw [hl.used l (by rw [hfst]; exact hlm)]; exact ⟨rfl, rfl⟩
    · rw [hl.unused l (by rw [hfst]; exact hlm)]; exact ⟨rfl, rfl⟩
  · intro l hlm
    exact hl.unused l (by rw [hfst]; exact fun hc => hlm ((hmem l).2 hc))

theorem edgeStep_heap {n : ℕ} {torch fd} {O : Objs} {a a' : Acc n} {p} (st : BSt n)
    (h : edgeStep torch fd O a p = .ok a') :
    ∃ st', edgeStep torch fd O { a with st := st } p = .ok { a' with st := st' } := by
  unfold edgeStep at h ⊢
  cases hw : wAtEdge n p.1 with
  | error e => simp [hw] at h
  | ok w =>
    cases hm : matrixRep n p.1 with
    | error e => simp [hw, hm] at h
    | ok m =>
      cases hx : effInd O p.2 with
      | error e => simp [hw, hm, hx] at h
      | ok x =>
        simp only [hw, hm, hx] at h ⊢
        split at h <;> rename_i hj
        · simp only [Except.ok.injEq] at h; subst h
          rw [if_pos hj]; exact ⟨_, rfl⟩
        · simp only [Except.ok.injEq] at h; subst h
          rw [if_neg hj]; exact ⟨_, rfl⟩

theorem buildEdges_heap {n : ℕ} {torch fd} {O : Objs} {els : Elements} {a a' : Acc n} (st : BSt n)
    (h : buildEdges torch fd O els a = .ok a') :
    ∃ st', buildEdges torch fd O els { a with st := st } = .ok { a' with st := st' } := by
  induction els generalizing a st with
  | nil => simp [buildEdges] at h; subst h; exact ⟨st, rfl⟩
  | cons p ps ih =>
    obtain ⟨b, hb, hrest⟩ := buildEdges_cons_ok h
    obtain ⟨st1, h1⟩ := edgeStep_heap st hb
    obtain ⟨st2, h2⟩ := ih st1 hrest
    exact ⟨st2, by simp [buildEdges, h1, h2]⟩

/-- Rebuilding accumulates nothing: traversing again, starting from the loop objects as the
previous traversal left them, gives exactly the same result. -/
theorem C19_rebuild_idempotent (torch : Bool) (fd : FluxDist) (O : Objs) (n : ℕ)
    (h : LoopId → LoopObj) (els : Elements) (hv : ValidElements n els) (a : Acc n)
    (ha : traverse torch fd O n h els = .ok a) :
    traverse torch fd O n a.st.loopHeap els = .ok a := by
  obtain ⟨st', h'⟩ := buildEdges_heap (initAcc n a.st.loopHeap).st ha
  have h'' : traverse torch fd O n a.st.loopHeap els = .ok { a with st := st' } := h'
  rw [h'']
  obtain ⟨hi, -⟩ := traverse_inv hv ha
  obtain ⟨hi', -⟩ := traverse_inv hv h''
  simp only at hi'
  have hst : st' = a.st := by
    have e1 := hi'.indKeys.trans hi.indKeys.symm
    have e2 := hi'.junKeys.trans hi.junKeys.symm
    have e3 := hi'.params.trans hi.params.symm
    have e4 : st'.partialMats = a.st.partialMats := by
      funext i; exact (hi'.partials i).trans (hi.partials i).symm
    have e5 := hi'.bId.trans hi.bId.symm
    have e6 := hi'.kMat.trans hi.kMat.symm
    have e7 := hi'.cEdge.trans hi.cEdge.symm
    have e8 := hi'.loops.loops_eq.trans hi.loops.loops_eq.symm
    have e9 : st'.loopHeap = a.st.loopHeap := by
      funext l
      by_cases hl : l ∈ (loopTr n O (annotate O 0 els)).map Prod.fst
      · rw [hi'.loops.used l hl, hi.loops.used l hl]
      · rw [hi'.loops.unused l hl]
    cases st'
    cases hx : a.st
    simp only [hx] at e1 e2 e3 e4 e5 e6 e7 e8 e9
    subst e1 e2 e3 e4 e5 e6 e7 e8 e9
    rfl
  rw [hst]

/-- the loop of the example circuit holds branches 0 and 1, even if it was full of stale entries -/
example : ∃ a, traverse false .junctions exObjs 2 (fun _ => ⟨7, 1, [4, 4, 4], [[9]]⟩) exEls = .ok a ∧
    a.st.loops = [0] ∧ (a.st.loopHeap 0).indices = [0, 1] ∧
    (a.st.loopHeap 0).kMat = [[1, 0], [1, -1]] := by
  obtain ⟨a, ha⟩ := buildEdges_succeeds false .junctions exEls_valid exEls_ind
    (initAcc 2 (fun _ => ⟨7, 1, [4, 4, 4], [[9]]⟩))
  obtain ⟨h1, -, h2, -⟩ := C19_loop_membership _ _ _ _ _ _ exEls_valid a ha
  have hl : a.st.loops = [0] := by
    rw [h1]
    simp [loopUses, numbered, inductivePlacements, placements, exEls, exObjs, firstUses]
  obtain ⟨h3, h4⟩ := h2 0 (by rw [hl]; simp)
  refine ⟨a, ha, hl, ?_, ?_⟩
  · rw [h3]; simp [usesOf, loopUses, numbered, inductivePlacements, placements, exEls, exObjs]
  · rw [h4]
    simp [usesOf, loopUses, numbered, inductivePlacements, placements, exEls, exObjs]
    decide

/-! ## C20 -/

theorem sum_annotate {M : Type*} [AddCommMonoid M] (O : Objs) (els : Elements)
    (f : Edge × ElemId → M) :
    ((annotate O 0 els).map (fun q => f (q.1, q.2.1))).sum = ((placements els).map f).sum := by
  rw [← annotate_forget O 0 els, List.map_map]; rfl

theorem eMat_eq_edgeMat (n : ℕ) (e : Edge) : eMat n e = edgeMat n e := rfl

theorem partialMat_ind {n : ℕ} {o : ElemObj} (hk : o.kind = .ind) (m : Matrix (Fin n) (Fin n) ℝ) :
    partialMat o m = (1 / o.value ^ 2) • m := by
  unfold partialMat
  rw [hk]
  ext a b
  simp [div_eq_inv_mul]

theorem partialMat_cap {n : ℕ} {o : ElemObj} (hk : o.kind = .cap) (m : Matrix (Fin n) (Fin n) ℝ) :
    partialMat o m = m := by
  unfold partialMat
  rw [hk]

/-- The recorded sensitivities: for a capacitor object the sum of the edge matrices of all
placements that carry it (as element or as attached capacitor), for an inductor object the sum of
the edge matrices of its placements over the squared inductance. (PyTorch engine.) -/
theorem C20_sensitivity (fd : FluxDist) (O : Objs) (n : ℕ)
    (h : LoopId → LoopObj) (els : Elements) (hv : ValidElements n els) (hwt : WellTyped O)
    (a : Acc n) (ha : traverse true fd O n h els = .ok a) (i : ElemId) :
    ((O.elem i).kind = .cap → a.st.partialMats i =
      ((placements els).map (fun q => if carries O i q.2 then edgeMat n q.1 else 0)).sum) ∧
    ((O.elem i).kind = .ind → a.st.partialMats i = (1 / (O.elem i).value ^ 2) •
      ((placements els).map (fun q => if q.2 = i then edgeMat n q.1 else 0)).sum) := by
  obtain ⟨hi, -⟩ := traverse_inv hv ha
  constructor
  · intro hk
    rw [hi.partials i, ← sum_annotate O els (fun q => if carries O i q.2 then edgeMat n q.1 else 0)]
    congr 1
    refine List.map_congr_left fun q _ => ?_
    simp only [sensOf, partialMat_cap hk, carries, eMat_eq_edgeMat]
    by_cases hq : (O.elem q.2.1).kind = .cap
    · by_cases he : q.2.1 = i
      · simp [he, hk]
      · simp [hq, he]
    · have hne : ¬ ((O.elem q.2.1).kind ≠ .jj ∧ q.2.1 = i) := by
        rintro ⟨-, rfl⟩; exact hq hk
      rw [if_neg hne]
      by_cases he : (O.elem q.2.1).cap = i <;> simp [hq, he]
  · intro hk
    have hs : ∀ q : APl, sensOf (n := n) true O i q
        = (1 / (O.elem i).value ^ 2) • (if q.2.1 = i then edgeMat n q.1 else 0) := by
      intro q
      simp only [sensOf, partialMat_ind hk, eMat_eq_edgeMat]
      have h1 : ¬ (True ∧ (O.elem q.2.1).kind ≠ .cap ∧ (O.elem q.2.1).cap = i) := by
        rintro ⟨-, hc, rfl⟩
        rw [hwt _ hc] at hk; cases hk
      rw [if_neg h1]
      by_cases he : q.2.1 = i
      · have : (O.elem q.2.1).kind ≠ .jj := by rw [he, hk]; decide
        rw [if_pos ⟨this, he⟩, if_pos he, zero_add]
      · rw [if_neg (fun hh => he hh.2), if_neg he]; simp
    rw [hi.partials i, ← sum_annotate O els (fun q => if q.2 = i then edgeMat n q.1 else 0)]
    rw [List.map_congr_left (g := fun q => (1 / (O.elem i).value ^ 2) •
      (if q.2.1 = i then edgeMat n q.1 else 0)) (fun q _ => hs q)]
    rw [List.smul_sum, List.map_map]; rfl

/-- In NumPy mode an inductor's sensitivity is the same, but a capacitor object only collects the
edges on which it is placed itself (attached capacitors are skipped). -/
theorem C20_sensitivity_numpy (fd : FluxDist) (O : Objs) (n : ℕ)
    (h : LoopId → LoopObj) (els : Elements) (hv : ValidElements n els)
    (a : Acc n) (ha : traverse false fd O n h els = .ok a) (i : ElemId) :
    ((O.elem i).kind = .cap → a.st.partialMats i =
      ((placements els).map (fun q => if q.2 = i then edgeMat n q.1 else 0)).sum) ∧
    ((O.elem i).kind = .ind → a.st.partialMats i = (1 / (O.elem i).value ^ 2) •
      ((placements els).map (fun q => if q.2 = i then edgeMat n q.1 else 0)).sum) := by
  obtain ⟨hi, -⟩ := traverse_inv hv ha
  have hs : ∀ q : APl, (O.elem i).kind ≠ .jj → sensOf (n := n) false O i q
      = (if q.2.1 = i then partialMat (O.elem i) (edgeMat n q.1) else 0) := by
    intro q hk
    simp only [sensOf, eMat_eq_edgeMat, Bool.false_eq_true, false_and, if_false, zero_add]
    by_cases he : q.2.1 = i
    · rw [if_pos ⟨by rw [he]; exact hk, he⟩, if_pos he]
    · rw [if_neg (fun hh => he hh.2), if_neg he]
  constructor
  · intro hk
    rw [hi.partials i, ← sum_annotate O els (fun q => if q.2 = i then edgeMat n q.1 else 0)]
    congr 1
    refine List.map_congr_left fun q _ => ?_
    rw [hs q (by rw [hk]; decide), partialMat_cap hk]
  · intro hk
    rw [hi.partials i, ← sum_annotate O els (fun q => if q.2 = i then edgeMat n q.1 else 0)]
    rw [List.map_congr_left (g := fun q => (1 / (O.elem i).value ^ 2) •
      (if q.2.1 = i then edgeMat n q.1 else 0))]
    · rw [List.smul_sum, List.map_map]; rfl
    · intro q _
      rw [hs q (by rw [hk]; decide), partialMat_ind hk]
      split <;> simp

theorem setVal_kind (O : Objs) (i j : ElemId) (v : ℝ) :
    ((setVal O i v).elem j).kind = (O.elem j).kind ∧ ((setVal O i v).elem j).cap = (O.elem j).cap := by
  by_cases h : j = i
  · subst h; simp [setVal]
  · simp [setVal, Function.update_of_ne h]

theorem setVal_value (O : Objs) (i j : ElemId) (v : ℝ) :
    ((setVal O i v).elem j).value = if j = i then v else (O.elem j).value := by
  by_cases h : j = i
  · subst h; simp [setVal]
  · simp [setVal, Function.update_of_ne h, h]

theorem placedCap_setVal (O : Objs) (i j : ElemId) (v : ℝ) (hk : (O.elem i).kind = .cap) :
    placedCap (setVal O i v) j
      = placedCap O j + (if carries O i j then v - (O.elem i).value else 0) := by
  unfold placedCap carries
  rw [(setVal_kind O i j v).1, (setVal_kind O i j v).2, setVal_value, setVal_value]
  rcases kind_cases (O.elem j) with h | h | h
  · simp only [h]
    by_cases he : j = i
    · subst he; simp
    · simp [he]
  all_goals
    simp only [h]
    by_cases he : (O.elem j).cap = i
    · simp [he]
    · simp [he]

theorem list_sum_apply {n : ℕ} (l : List (Matrix (Fin n) (Fin n) ℝ)) (a b : Fin n) :
    l.sum a b = (l.map (fun M => M a b)).sum := by
  induction l with
  | nil => simp
  | cons M l ih => simp [ih]

/-- The sensitivity of a capacitor object is the derivative of the capacitance matrix with
respect to its value, and minus the sensitivity of an inductor object is the derivative of the
susceptance matrix — the value of the one object being changed wherever it is placed.
`A v` is the outcome of the construction with the value of object `i` set to `v`. -/
theorem C20_sensitivity_is_derivative (fd : FluxDist) (O : Objs) (n : ℕ)
    (h : LoopId → LoopObj) (els : Elements) (hv : ValidElements n els) (hwt : WellTyped O)
    (i : ElemId) (A : ℝ → Acc n)
    (hA : ∀ v, v ≠ 0 → traverse true fd (setVal O i v) n h els = .ok (A v))
    (v : ℝ) (hv0 : v ≠ 0) (r c : Fin n) :
    ((O.elem i).kind = .cap →
      HasDerivAt (fun x => (A x).cMat r c) ((A v).st.partialMats i r c) v) ∧
    ((O.elem i).kind = .ind →
      HasDerivAt (fun x => (A x).lMat r c) (- (A v).st.partialMats i r c) v) := by
  have hwt' : ∀ x, WellTyped (setVal O i x) := by
    intro x j hj
    rw [(setVal_kind O i j x).1] at hj
    rw [(setVal_kind O i _ x).1, (setVal_kind O i j x).2]
    exact hwt j hj
  have hne : ∀ᶠ x in nhds v, x ≠ 0 := isOpen_ne.mem_nhds hv0
  constructor
  · intro hk
    rw [(C20_sensitivity fd _ n h els hv (hwt' v) (A v) (hA v hv0) i).1
      ((setVal_kind O i i v).1.trans hk)]
    have hC : ∀ x, x ≠ 0 → (A x).cMat r c =
        ((placements els).map (fun q => placedCap O q.2 * eMat n q.1 r c)).sum +
        (x - (O.elem i).value) *
          ((placements els).map (fun q => if carries O i q.2 then edgeMat n q.1 else 0)).sum r c := by
      intro x hx
      rw [(traverse_mats hv (hA x hx)).1, list_sum_apply, list_sum_apply, List.map_map,
        List.map_map]
      generalize placements els = l
      induction l with
      | nil => simp
      | cons q l ih =>
        simp only [List.map_cons, List.sum_cons, ih, Function.comp, Matrix.smul_apply, smul_eq_mul]
        rw [placedCap_setVal O i q.2 x hk]
        split
        · rw [eMat_eq_edgeMat]; ring
        · simp; ring
    have hcar : ∀ q : Edge × ElemId, carries (setVal O i v) i q.2 = carries O i q.2 := by
      intro q
      simp only [carries, (setVal_kind O i q.2 v).1, (setVal_kind O i q.2 v).2]
    simp only [hcar]
    have hd : HasDerivAt (fun x : ℝ =>
        ((placements els).map (fun q => placedCap O q.2 * eMat n q.1 r c)).sum +
        (x - (O.elem i).value) *
          ((placements els).map (fun q => if carries O i q.2 then edgeMat n q.1 else 0)).sum r c)
        (((placements els).map (fun q => if carries O i q.2 then edgeMat n q.1 else 0)).sum r c) v := by
      have := (((hasDerivAt_id v).sub_const (O.elem i).value).mul_const
        (((placements els).map (fun q => if carries O i q.2 then edgeMat n q.1 else 0)).sum r c)
        ).const_add ((placements els).map (fun q => placedCap O q.2 * eMat n q.1 r c)).sum
      simpa using this
    exact hd.congr_of_eventuallyEq (hne.mono fun x hx => hC x hx)
  · intro hk
    rw [(C20_sensitivity fd _ n h els hv (hwt' v) (A v) (hA v hv0) i).2
      ((setVal_kind O i i v).1.trans hk)]
    rw [setVal_value, if_pos rfl]
    have hL : ∀ x, x ≠ 0 → (A x).lMat r c =
        ((placements els).map
          (fun q => if q.2 = i then 0 else placedInvInd O q.2 * eMat n q.1 r c)).sum +
        x⁻¹ * ((placements els).map (fun q => if q.2 = i then edgeMat n q.1 else 0)).sum r c := by
      intro x hx
      rw [(traverse_mats hv (hA x hx)).2, list_sum_apply, list_sum_apply, List.map_map,
        List.map_map]
      generalize placements els = l
      induction l with
      | nil => simp
      | cons q l ih =>
        simp only [List.map_cons, List.sum_cons, ih, Function.comp, Matrix.smul_apply, smul_eq_mul]
        have hp : placedInvInd (setVal O i x) q.2
            = if q.2 = i then x⁻¹ else placedInvInd O q.2 := by
          unfold placedInvInd
          rw [(setVal_kind O i q.2 x).1, setVal_value]
          by_cases he : q.2 = i
          · simp [he, hk]
          · simp [he]
        rw [hp]
        by_cases he : q.2 = i
        · simp only [he, if_true, eMat_eq_edgeMat]; ring
        · simp only [he, if_false, Matrix.zero_apply]; ring
    have hd : HasDerivAt (fun x : ℝ =>
        ((placements els).map
          (fun q => if q.2 = i then 0 else placedInvInd O q.2 * eMat n q.1 r c)).sum +
        x⁻¹ * ((placements els).map (fun q => if q.2 = i then edgeMat n q.1 else 0)).sum r c)
        (-((1 / v ^ 2) • ((placements els).map
          (fun q => if q.2 = i then edgeMat n q.1 else 0)).sum) r c) v := by
      have := (((hasDerivAt_inv hv0).mul_const
        (((placements els).map (fun q => if q.2 = i then edgeMat n q.1 else 0)).sum r c)
        )).const_add ((placements els).map
          (fun q => if q.2 = i then 0 else placedInvInd O q.2 * eMat n q.1 r c)).sum
      refine this.congr_deriv ?_
      rw [Matrix.smul_apply, smul_eq_mul]
      ring
    exact hd.congr_of_eventuallyEq (hne.mono fun x hx => hL x hx)

/-- capacitor 1 of the example circuit is attached to both the inductor and the junction; its
sensitivity is the sum of two edge matrices -/
example (h : LoopId → LoopObj) : ∃ a, traverse true .junctions exObjs 2 h exEls = .ok a ∧
    a.st.partialMats 1 = edgeMat 2 (0, 1) + edgeMat 2 (1, 2) := by
  obtain ⟨a, ha⟩ := buildEdges_succeeds true .junctions exEls_valid exEls_ind (initAcc 2 h)
  have hwt : WellTyped exObjs := by
    intro i hi
    by_cases h0 : i = 0
    · simp [exObjs, h0]
    · by_cases h2 : i = 2
      · simp [exObjs, h2]
      · by_cases h1 : i = 1 <;> simp [exObjs, h0, h1, h2] at hi
  refine ⟨a, ha, ?_⟩
  rw [(C20_sensitivity _ _ _ _ _ exEls_valid hwt a ha 1).1 (by simp [exObjs])]
  simp [placements, exEls, carries, exObjs]

/-! ## C50 -/

/-- Under PyTorch the parameters are exactly the tracked components, each once, in order of first
use, with their values. -/
theorem C50_parameters (fd : FluxDist) (O : Objs) (n : ℕ)
    (h : LoopId → LoopObj) (els : Elements) (hv : ValidElements n els) (a : Acc n)
    (ha : traverse true fd O n h els = .ok a) :
    (∀ c, c ∈ a.st.params.map Prod.fst ↔
      Tracked O c ∧ ∃ q ∈ placements els, c ∈ brings O q.2) ∧
    (a.st.params.map Prod.fst).Nodup ∧
    (a.st.params.map Prod.fst).Sublist
      (firstUses ((placements els).flatMap (fun q => brings O q.2))) ∧
    (∀ c x, (c, x) ∈ a.st.params → x = match c with
      | .elem i => (O.elem i).value
      | .loop l => O.loopValue l) := by
  obtain ⟨hi, -⟩ := traverse_inv hv ha
  have htr : (annotate O 0 els).flatMap (fun q => brings O q.2.1)
      = (placements els).flatMap (fun q => brings O q.2) := by
    rw [← annotate_forget O 0 els, List.flatMap_map]
  have hp := hi.params
  simp only [if_true, htr] at hp
  have hm : a.st.params.map Prod.fst =
      (firstUses ((placements els).flatMap (fun q => brings O q.2))).filter
        (fun c => compTracked O c) := by
    rw [hp]; simp [paramsOf, List.map_map, Function.comp_def]
  have ht : ∀ c, compTracked O c = true ↔ Tracked O c := by
    intro c
    cases c <;> simp [compTracked, Tracked]
  refine ⟨?_, ?_, ?_, ?_⟩
  · intro c
    rw [hm, List.mem_filter, mem_firstUses, ht, List.mem_flatMap]
    tauto
  · rw [hm]; exact (nodup_firstUses _).filter _
  · rw [hm]; exact List.filter_sublist
  · intro c x hc
    rw [hp] at hc
    simp only [paramsOf, List.mem_map, Prod.mk.injEq] at hc
    obtain ⟨c', -, rfl, rfl⟩ := hc
    cases c' <;> rfl

/-- Under NumPy there are none. -/
theorem C50_parameters_numpy (fd : FluxDist) (O : Objs) (n : ℕ)
    (h : LoopId → LoopObj) (els : Elements) (hv : ValidElements n els) (a : Acc n)
    (ha : traverse false fd O n h els = .ok a) : a.st.params = [] := by
  obtain ⟨hi, -⟩ := traverse_inv hv ha
  simpa using hi.params

/-- in the example circuit only the junction requires gradient -/
example (h : LoopId → LoopObj) : ∃ a, traverse true .junctions exObjs 2 h exEls = .ok a ∧
    (∀ c, c ∈ a.st.params.map Prod.fst ↔ c = .elem 2) := by
  obtain ⟨a, ha⟩ := buildEdges_succeeds true .junctions exEls_valid exEls_ind (initAcc 2 h)
  refine ⟨a, ha, fun c => ?_⟩
  rw [(C50_parameters _ _ _ _ _ exEls_valid a ha).1]
  constructor
  · rintro ⟨ht, q, hq, hc⟩
    simp [placements, exEls] at hq
    rcases hq with rfl | rfl | rfl <;> simp [brings, exObjs] at hc
    · rcases hc with rfl | rfl | rfl <;> simp [Tracked, exObjs] at ht
    · rcases hc with rfl | rfl | rfl
      · simp [Tracked, exObjs] at ht
      · simp [Tracked, exObjs] at ht
      · rfl
    · subst hc; simp [Tracked, exObjs] at ht
  · rintro rfl
    refine ⟨by simp [Tracked, exObjs], ((1, 2), 2), by simp [placements, exEls], ?_⟩
    simp [brings, exObjs]

end SQ
