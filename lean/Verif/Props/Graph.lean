import Verif.Lemmas.Graph
import Mathlib.Analysis.Matrix.PosDef

/-!
# C12–C17: edges, node count, capacitance and susceptance matrices
-/

namespace SQ
open SQ.Spec Matrix

/-! ## C12 -/

theorem incidence_swap {e : Edge} (hne : e.1 ≠ e.2) (k : ℕ) :
    incidence (e.2, e.1) k =
      if e.1 = 0 ∨ e.2 = 0 then incidence e k else - incidence e k := by
  obtain ⟨i, j⟩ := e
  simp only at hne
  simp only [incidence]
  by_cases h1 : i = 0
  · subst h1
    have : ¬ j = 0 := fun h => hne h.symm
    simp [this]
  · by_cases h2 : j = 0
    · subst h2; simp [h1]
    · simp only [h1, h2, if_false, or_self]
      by_cases ha : k = i
      · have hb : ¬ k = j := fun h => hne (ha.symm.trans h)
        simp [ha, hne]
      · by_cases hb : k = j
        · have : ¬ j = i := fun h => hne h.symm
          simp [hb, this]
        · simp [ha, hb]

/-- Incidence vector and matrix of every valid edge, and their behaviour under reversal. -/
theorem C12_edge (n : ℕ) (e : Edge) (h : ValidEdge n e) :
    ∃ w m, wAtEdge n e = .ok w ∧ matrixRep n e = .ok m ∧ w.length = n ∧
      (∀ k, k < n → w[k]? = some (incidence e (k + 1))) ∧
      m = Matrix.vecMulVec (rowVec n w) (rowVec n w) ∧
      matrixRep n (e.2, e.1) = .ok m ∧
      wAtEdge n (e.2, e.1) =
        .ok (if e.1 = 0 ∨ e.2 = 0 then w else w.map (fun x => - x)) := by
  obtain ⟨w, hw, hlen, hval⟩ := wAtEdge_ok h
  obtain ⟨m, hm, hmv⟩ := matrixRep_ok h
  have h' : ValidEdge n (e.2, e.1) := ⟨h.1.symm, h.2.2, h.2.1⟩
  obtain ⟨w', hw', hlen', hval'⟩ := wAtEdge_ok h'
  obtain ⟨m', hm', hmv'⟩ := matrixRep_ok h'
  have hk : ∀ k, k < n → w[k]? = some (incidence e (k + 1)) := by
    intro k hk
    have := hval k
    rw [List.getD_eq_getElem?_getD, List.getElem?_eq_getElem (by omega)] at this
    rw [List.getElem?_eq_getElem (by omega)]
    simpa using this
  have hk' : ∀ k, k < n → w'[k]? = some (incidence (e.2, e.1) (k + 1)) := by
    intro k hk
    have := hval' k
    rw [List.getD_eq_getElem?_getD, List.getElem?_eq_getElem (by omega)] at this
    rw [List.getElem?_eq_getElem (by omega)]
    simpa using this
  refine ⟨w, m, hw, hm, hlen, hk, ?_, ?_, ?_⟩
  · ext a b
    rw [hmv, Matrix.vecMulVec_apply]
    simp [rowVec, ← hval]
  · rw [hm']
    congr 1
    ext a b
    rw [hmv, hmv', incidence_swap h.1, incidence_swap h.1]
    split <;> simp
  · rw [hw']
    congr 1
    apply List.ext_getElem?
    intro k
    by_cases hkn : k < n
    · rw [hk' k hkn, incidence_swap h.1]
      split
      · rw [hk k hkn]
      · rw [List.getElem?_map, hk k hkn]; rfl
    · rw [List.getElem?_eq_none (by omega), List.getElem?_eq_none]
      split
      · omega
      · simp; omega

/-- Self-loops are not validated: the edge `(i, i)` gets the zero incidence vector but the matrix
with a single entry −1 on the diagonal, i.e. the two disagree (a *negative* capacitance is added
if such an edge is given). -/
theorem C12_self_loop_unvalidated (n i : ℕ) (h1 : 1 ≤ i) (hi : i ≤ n) :
    ∃ w m, wAtEdge n (i, i) = .ok w ∧ matrixRep n (i, i) = .ok m ∧
      (∀ k, w.getD k 0 = 0) ∧ m ⟨i - 1, by omega⟩ ⟨i - 1, by omega⟩ = -1 := by
  have hlt : i < (List.replicate (n + 1) (0 : ℤ)).length := by simp; omega
  have hlt2 : i < ((List.replicate (n + 1) (0 : ℤ)).modify i (· + 1)).length := by simp; omega
  have hi1 : i - 1 < n := by omega
  have ei : pyIdx n ((i : ℤ) - 1) = .ok ⟨i - 1, hi1⟩ := pyIdx_nat _ hi1 (by omega)
  have h0 : ¬ i = 0 := by omega
  have hw : wAtEdge n (i, i) = .ok ((((List.replicate (n + 1) (0 : ℤ)).modify i (· + 1)).modify i
      (· + (-1))).drop 1) := by
    simp only [wAtEdge, h0, or_self, if_false, addAt_ok hlt, addAt_ok hlt2]
  cases hm : matrixRep n (i, i) with
  | error er => simp [matrixRep, h0, matSet, ei] at hm
  | ok m =>
    refine ⟨_, m, hw, rfl, ?_, ?_⟩
    · intro k
      rw [getD_drop_one, getD_modify _ _ _ _ hlt2, getD_modify _ _ _ _ hlt, getD_replicate]
      split <;> simp
    · simp only [matrixRep, h0, or_self, if_false, matSet, ei, Except.ok.injEq] at hm
      rw [← hm]; simp

/-- edge (1,2) of a 3-node circuit: incidence (1,-1,0) -/
example : ∃ w m, wAtEdge 3 (1, 2) = .ok w ∧ matrixRep 3 (1, 2) = .ok m ∧
    w[0]? = some 1 ∧ w[1]? = some (-1) ∧ w[2]? = some 0 := by
  obtain ⟨w, m, h1, h2, -, h3, -⟩ := C12_edge 3 (1, 2) (by simp [ValidEdge])
  exact ⟨w, m, h1, h2, h3 0 (by norm_num), h3 1 (by norm_num), h3 2 (by norm_num)⟩

/-! ## C13 node count -/

theorem lexMax_mem (m : Edge) (es : List Edge) : lexMax m es ∈ m :: es := by
  induction es generalizing m with
  | nil => simp [lexMax]
  | cons e es ih =>
    unfold lexMax
    split
    · have := ih e; simp only [List.mem_cons] at this ⊢; tauto
    · have := ih m; simp only [List.mem_cons] at this ⊢; tauto

theorem le_largestNode {els : Elements} {p : Edge × List ElemId} (hp : p ∈ els) :
    max p.1.1 p.1.2 ≤ largestNode els := by
  induction els with
  | nil => simp at hp
  | cons q qs ih =>
    simp only [largestNode, List.map_cons, List.foldr_cons] at ih ⊢
    rcases List.mem_cons.1 hp with rfl | h
    · exact le_max_left _ _
    · exact le_trans (ih h) (le_max_right _ _)

theorem largestNode_le {els : Elements} {n : ℕ} (h : ∀ p ∈ els, p.1.1 ≤ n ∧ p.1.2 ≤ n) :
    largestNode els ≤ n := by
  induction els with
  | nil => simp [largestNode]
  | cons q qs ih =>
    simp only [largestNode, List.map_cons, List.foldr_cons] at ih ⊢
    exact max_le (max_le (h q (by simp)).1 (h q (by simp)).2)
      (ih (fun p hp => h p (by simp [hp])))

theorem buildEdges_nodes_le {n : ℕ} {torch fd} {O : Objs} {els : Elements} {a a' : Acc n}
    (h : buildEdges torch fd O els a = .ok a') : ∀ p ∈ els, p.1.1 ≤ n ∧ p.1.2 ≤ n := by
  induction els generalizing a with
  | nil => simp
  | cons p ps ih =>
    obtain ⟨b, hb, hrest⟩ := buildEdges_cons_ok h
    obtain ⟨w, m, hw, -⟩ := edgeStep_ok hb
    intro q hq
    rcases List.mem_cons.1 hq with rfl | hq
    · exact wAtEdge_nodes_le hw
    · exact ih hrest q hq

theorem numNodes_le {els : Elements} {n : ℕ} (h : numNodes els = .ok n) :
    n ≤ largestNode els := by
  unfold numNodes at h
  cases hm : els.map Prod.fst with
  | nil => simp [hm] at h
  | cons e es =>
    simp only [hm, Except.ok.injEq] at h
    have := lexMax_mem e es
    rw [← hm] at this
    obtain ⟨p, hp, hpe⟩ := List.mem_map.1 this
    rw [← h, ← hpe]
    exact le_largestNode hp

/-- If the construction gets through the edges, the number of nodes it used is the largest node
number in the dictionary. -/
theorem C13_node_count_correct_or_rejected (torch : Bool) (fd : FluxDist) (O : Objs)
    (h : LoopId → LoopObj) (els : Elements) (n : ℕ) (hn : numNodes els = .ok n) :
    (∀ a, traverse torch fd O n h els = .ok a → n = largestNode els) ∧
    (n ≠ largestNode els → (∀ p ∈ els, p.1.1 ≠ p.1.2) →
      (∀ p ∈ els, ∀ i ∈ p.2, (O.elem i).kind = .ind → (O.elem i).value ≠ 0) →
      traverse torch fd O n h els = .error .indexError) := by
  refine ⟨fun a ha => le_antisymm (numNodes_le hn) (largestNode_le (buildEdges_nodes_le ha)), ?_⟩
  intro hne hloop h0
  -- run over the list: the first offending edge raises IndexError
  have key : ∀ (es : Elements) (a : Acc n), (∀ p ∈ es, p.1.1 ≠ p.1.2) →
      (∀ p ∈ es, ∀ i ∈ p.2, (O.elem i).kind = .ind → (O.elem i).value ≠ 0) →
      (∃ p ∈ es, ¬ (p.1.1 ≤ n ∧ p.1.2 ≤ n)) →
      buildEdges torch fd O es a = .error .indexError := by
    intro es
    induction es with
    | nil => intro a _ _ ⟨p, hp, _⟩; simp at hp
    | cons p ps ih =>
      intro a hl hz ⟨q, hq, hbad⟩
      unfold buildEdges
      by_cases hv : p.1.1 ≤ n ∧ p.1.2 ≤ n
      · obtain ⟨b, hb⟩ := edgeStep_succeeds torch fd a
          (⟨hl p (by simp), hv.1, hv.2⟩ : ValidEdge n p.1) (hz p (by simp))
        rw [hb]
        refine ih b (fun r hr => hl r (by simp [hr])) (fun r hr => hz r (by simp [hr])) ⟨q, ?_, hbad⟩
        rcases List.mem_cons.1 hq with rfl | h
        · exact absurd hv hbad
        · exact h
      · have : edgeStep torch fd O a p = .error .indexError := by
          unfold edgeStep
          cases hw : wAtEdge n p.1 with
          | ok w => exact absurd (wAtEdge_nodes_le hw) hv
          | error er => simp [(wAtEdge_error hw).1]
        rw [this]
  refine key els _ hloop h0 ?_
  by_contra hall
  push Not at hall
  exact hne (le_antisymm (numNodes_le hn) (largestNode_le (fun p hp => hall p hp)))

/-- the four-edge dictionary {(0,1),(0,2),(0,3),(1,2)}: the library takes n = 2 although node 3
exists, and construction is rejected -/
example (O : Objs) (h : LoopId → LoopObj) (hk : ∀ i, (O.elem i).kind = .cap) :
    numNodes [((0,1),[0]), ((0,2),[1]), ((0,3),[2]), ((1,2),[3])] = .ok 2 ∧
    traverse false .junctions O 2 h [((0,1),[0]), ((0,2),[1]), ((0,3),[2]), ((1,2),[3])]
      = .error .indexError := by
  have hn : numNodes [((0,1),[0]), ((0,2),[1]), ((0,3),[2]), ((1,2),[3])] = .ok 2 := by decide
  refine ⟨hn, (C13_node_count_correct_or_rejected false .junctions O h _ 2 hn).2 ?_ ?_ ?_⟩
  · decide
  · decide
  · intro p _ i _ hi; rw [hk i] at hi; cases hi

/-! ## C14 energy forms -/

/-- For every dictionary of valid edges whose inductances are non-zero the construction of C and
L succeeds; both are symmetric and their quadratic forms are the sums over placements of
capacitance (inverse inductance) times squared branch difference. -/
theorem C14_energy_forms (torch : Bool) (fd : FluxDist) (O : Objs) (n : ℕ)
    (h : LoopId → LoopObj) (els : Elements) (hv : ValidElements n els)
    (h0 : ∀ p ∈ els, ∀ i ∈ p.2, (O.elem i).kind = .ind → (O.elem i).value ≠ 0) :
    ∃ a, traverse torch fd O n h els = .ok a ∧ a.cMat.IsSymm ∧ a.lMat.IsSymm ∧
      (∀ x : Fin n → ℝ, x ⬝ᵥ (a.cMat *ᵥ x) =
        ((placements els).map (fun q => placedCap O q.2 * branchDiff x q.1 ^ 2)).sum) ∧
      (∀ x : Fin n → ℝ, x ⬝ᵥ (a.lMat *ᵥ x) =
        ((placements els).map (fun q => placedInvInd O q.2 * branchDiff x q.1 ^ 2)).sum) := by
  obtain ⟨a, ha⟩ := buildEdges_succeeds torch fd hv h0 (initAcc n h)
  have hsym : ∀ (f : Edge × ElemId → ℝ) (l : List (Edge × ElemId)),
      (l.map (fun q => f q • eMat n q.1)).sum.IsSymm := by
    intro f l
    induction l with
    | nil => simp [Matrix.IsSymm]
    | cons q l ih =>
      simp only [Matrix.IsSymm] at ih ⊢
      rw [List.map_cons, List.sum_cons, Matrix.transpose_add, Matrix.transpose_smul, eMat_symm, ih]
  refine ⟨a, ha, ?_, ?_, fun x => (traverse_qf hv ha x).1, fun x => (traverse_qf hv ha x).2⟩
  · rw [(traverse_mats hv ha).1]; exact hsym (fun q => placedCap O q.2) _
  · rw [(traverse_mats hv ha).2]; exact hsym (fun q => placedInvInd O q.2) _

theorem list_sum_nonneg' {α : Type*} (l : List α) (f : α → ℝ) (h : ∀ x ∈ l, 0 ≤ f x) :
    0 ≤ (l.map f).sum := by
  apply List.sum_nonneg
  intro y hy
  obtain ⟨x, hx, rfl⟩ := List.mem_map.1 hy
  exact h x hx

/-- With positive values both forms are positive semidefinite. -/
theorem C14_psd (torch : Bool) (fd : FluxDist) (O : Objs) (n : ℕ)
    (h : LoopId → LoopObj) (els : Elements) (hv : ValidElements n els)
    (hc : PositiveCaps O els) (hl : PositiveInds O els) (a : Acc n)
    (ha : traverse torch fd O n h els = .ok a) (x : Fin n → ℝ) :
    0 ≤ x ⬝ᵥ (a.cMat *ᵥ x) ∧ 0 ≤ x ⬝ᵥ (a.lMat *ᵥ x) := by
  obtain ⟨h1, h2⟩ := traverse_qf hv ha x
  unfold qf at h1 h2
  rw [h1, h2]
  constructor
  · refine list_sum_nonneg' _ _ fun q hq => ?_
    have := hc q hq
    positivity
  · refine list_sum_nonneg' _ _ fun q hq => ?_
    have : 0 ≤ placedInvInd O q.2 := by
      unfold placedInvInd
      split
      · rename_i hk; have := hl q hq hk; positivity
      · exact le_refl _
    positivity

/-- objects used in the examples: element 0 is a 2 H inductor with attached capacitor 1 (3 F),
element 2 a junction (5) with attached capacitor 1, both in loop 0, everything else a 1 F
capacitor -/
def exObjs : Objs where
  elem := fun i =>
    if i = 0 then ⟨.ind, 2, 1, [0], false, true⟩
    else if i = 1 then ⟨.cap, 3, 0, [], false, true⟩
    else if i = 2 then ⟨.jj, 5, 1, [0], true, true⟩
    else ⟨.cap, 1, 0, [], false, true⟩
  loopValue := fun _ => 0
  loopReqGrad := fun _ => false
  loopIsLeaf := fun _ => true

/-- a two-node circuit: inductor 0–1, junction 1–2, capacitor 0–2, in loop 0 -/
def exEls : Elements := [((0, 1), [0]), ((1, 2), [2]), ((0, 2), [3])]

theorem exEls_valid : ValidElements 2 exEls := by
  intro p hp
  simp [exEls] at hp
  rcases hp with rfl | rfl | rfl <;> simp [ValidEdge]

theorem exEls_ind : ∀ p ∈ exEls, ∀ i ∈ p.2, (exObjs.elem i).kind = .ind →
    (exObjs.elem i).value ≠ 0 := by
  intro p hp i hi hk
  simp [exEls] at hp
  rcases hp with rfl | rfl | rfl <;> simp at hi <;> subst hi <;> simp [exObjs] at hk ⊢

example (h : LoopId → LoopObj) : ∃ a, traverse false .junctions exObjs 2 h exEls = .ok a ∧
    ∀ x : Fin 2 → ℝ, x ⬝ᵥ (a.cMat *ᵥ x) = 3 * x 0 ^ 2 + 3 * (x 0 - x 1) ^ 2 + x 1 ^ 2 := by
  obtain ⟨a, ha, -, -, hC, -⟩ := C14_energy_forms false .junctions exObjs 2 h exEls exEls_valid
    exEls_ind
  refine ⟨a, ha, fun x => ?_⟩
  rw [hC]
  simp [placements, exEls, placedCap, exObjs, branchDiff, pot]
  ring

/-! ## C15 order independence -/

/-- Dictionaries with the same placements up to order give the same C and L. -/
theorem C15_order_independent (torch torch' : Bool) (fd fd' : FluxDist) (O : Objs) (n : ℕ)
    (h h' : LoopId → LoopObj) (els els' : Elements) (hv : ValidElements n els)
    (hv' : ValidElements n els') (hp : (placements els).Perm (placements els')) (a a' : Acc n)
    (ha : traverse torch fd O n h els = .ok a) (ha' : traverse torch' fd' O n h' els' = .ok a') :
    a.cMat = a'.cMat ∧ a.lMat = a'.lMat := by
  obtain ⟨h1, h2⟩ := traverse_mats hv ha
  obtain ⟨h1', h2'⟩ := traverse_mats hv' ha'
  rw [h1, h2, h1', h2']
  exact ⟨(hp.map _).sum_eq, (hp.map _).sum_eq⟩

example (h : LoopId → LoopObj) : ∃ a a', traverse false .junctions exObjs 2 h exEls = .ok a ∧
    traverse true .all exObjs 2 h exEls.reverse = .ok a' ∧ a.cMat = a'.cMat := by
  have hv' : ValidElements 2 exEls.reverse := fun p hp => exEls_valid p (by simpa using hp)
  have hi' : ∀ p ∈ exEls.reverse, ∀ i ∈ p.2, (exObjs.elem i).kind = .ind →
    (exObjs.elem i).value ≠ 0 := fun p hp => exEls_ind p (by simpa using hp)
  obtain ⟨a, ha⟩ := buildEdges_succeeds false .junctions exEls_valid exEls_ind (initAcc 2 h)
  obtain ⟨a', ha'⟩ := buildEdges_succeeds true .all hv' hi' (initAcc 2 h)
  exact ⟨a, a', ha, ha', (C15_order_independent _ _ _ _ _ _ _ _ _ _ exEls_valid hv' (by
    simp [placements, exEls]; decide) a a' ha ha').1⟩

/-! ## C16 positive definiteness -/

theorem list_sum_eq_zero {α : Type*} (l : List α) (f : α → ℝ) (h : ∀ x ∈ l, 0 ≤ f x)
    (hs : (l.map f).sum = 0) : ∀ x ∈ l, f x = 0 := by
  induction l with
  | nil => simp
  | cons y l ih =>
    simp only [List.map_cons, List.sum_cons] at hs
    have h1 := h y (by simp)
    have h2 := list_sum_nonneg' l f (fun x hx => h x (by simp [hx]))
    have hy : f y = 0 := by linarith
    have hl : (l.map f).sum = 0 := by linarith
    intro x hx
    rcases List.mem_cons.1 hx with rfl | hx
    · exact hy
    · exact ih (fun x hx => h x (by simp [hx])) hl x hx

theorem pot_zero_of_all {n : ℕ} (x : Fin n → ℝ) (h : ∀ k, k ≤ n → pot x k = 0) : x = 0 := by
  funext i
  have := h (i + 1) (by omega)
  simpa [pot] using this

/-- If every node is connected to ground and all (own and attached) capacitances are positive,
the capacitance matrix is positive definite and in particular invertible. -/
theorem C16_cap_posdef (torch : Bool) (fd : FluxDist) (O : Objs) (n : ℕ)
    (h : LoopId → LoopObj) (els : Elements) (hv : ValidElements n els)
    (hc : PositiveCaps O els) (hg : GroundConnected n els) (a : Acc n)
    (ha : traverse torch fd O n h els = .ok a) :
    a.cMat.PosDef ∧ 0 < a.cMat.det := by
  have hsymm : a.cMat.IsSymm := by
    have h0 : ∀ p ∈ els, ∀ i ∈ p.2, (O.elem i).kind = .ind → (O.elem i).value ≠ 0 := by
      have : ∀ (es : Elements) (b : Acc n), buildEdges torch fd O es b = .ok a →
          ∀ p ∈ es, ∀ i ∈ p.2, (O.elem i).kind = .ind → (O.elem i).value ≠ 0 := by
        intro es
        induction es with
        | nil => simp
        | cons p ps ih =>
          intro b hb q hq
          obtain ⟨c, hc1, hc2⟩ := buildEdges_cons_ok hb
          rcases List.mem_cons.1 hq with rfl | hq
          · obtain ⟨w, m, -, -, hz, -⟩ := edgeStep_ok hc1; exact hz
          · exact ih c hc2 q hq
      exact this els _ ha
    obtain ⟨a', ha', hs, -⟩ := C14_energy_forms torch fd O n h els hv h0
    rw [ha] at ha'
    simp only [Except.ok.injEq] at ha'
    rw [ha']; exact hs
  have hpd : a.cMat.PosDef := by
    refine Matrix.PosDef.of_dotProduct_mulVec_pos ?_ ?_
    · rw [Matrix.IsHermitian, Matrix.conjTranspose_eq_transpose_of_trivial]; exact hsymm
    · intro x hx
      rw [star_trivial]
      have hq := (traverse_qf hv ha x).1
      unfold qf at hq
      have hnn : 0 ≤ x ⬝ᵥ a.cMat *ᵥ x := by
        rw [hq]
        refine list_sum_nonneg' _ _ fun q hq => ?_
        have := hc q hq
        positivity
      refine lt_of_le_of_ne hnn (fun h0 => hx ?_)
      rw [hq] at h0
      have hz := list_sum_eq_zero _ _ (fun q hq => by
        have := hc q hq
        positivity) h0.symm
      -- potential differences vanish on every edge carrying an element
      have hj : ∀ u v, Joined els u v → pot x u = pot x v := by
        rintro u v ⟨p, hp, hne, hpe⟩
        obtain ⟨i, hi⟩ := List.exists_mem_of_ne_nil _ hne
        have hmem : (p.1, i) ∈ placements els := by
          simp only [placements, List.mem_flatMap, List.mem_map]
          exact ⟨p, hp, i, hi, rfl⟩
        have h1 := hz _ hmem
        have h2 := hc _ hmem
        have h3 : branchDiff x p.1 = 0 := by
          rcases mul_eq_zero.1 h1 with h | h
          · exact absurd h h2.ne'
          · exact pow_eq_zero_iff (two_ne_zero) |>.1 h
        unfold branchDiff at h3
        rcases hpe with ⟨rfl, rfl⟩ | ⟨rfl, rfl⟩ <;> linarith
      apply pot_zero_of_all
      intro k hk
      have : ∀ u v, Relation.ReflTransGen (Joined els) u v → pot x u = pot x v := by
        intro u v huv
        induction huv with
        | refl => rfl
        | tail _ hst ih => rw [ih, hj _ _ hst]
      rw [this k 0 (hg k hk)]; rfl
  exact ⟨hpd, hpd.det_pos⟩

theorem exEls_caps : PositiveCaps exObjs exEls := by
  intro q hq
  simp [placements, exEls] at hq
  rcases hq with rfl | rfl | rfl <;> simp [placedCap, exObjs]

theorem exEls_ground : GroundConnected 2 exEls := by
  intro k hk
  have j1 : Joined exEls 1 0 := ⟨((0,1),[0]), by simp [exEls], by simp, by simp⟩
  have j2 : Joined exEls 2 0 := ⟨((0,2),[3]), by simp [exEls], by simp, by simp⟩
  interval_cases k
  · exact .refl
  · exact .single j1
  · exact .single j2

example (h : LoopId → LoopObj) : ∃ a, traverse false .junctions exObjs 2 h exEls = .ok a ∧
    a.cMat.PosDef := by
  obtain ⟨a, ha⟩ := buildEdges_succeeds false .junctions exEls_valid exEls_ind (initAcc 2 h)
  exact ⟨a, ha, (C16_cap_posdef _ _ _ _ _ _ exEls_valid exEls_caps exEls_ground a ha).1⟩

/-! ## C17 null space of L -/

theorem C17_null_space (torch : Bool) (fd : FluxDist) (O : Objs) (n : ℕ)
    (h : LoopId → LoopObj) (els : Elements) (hv : ValidElements n els)
    (hl : PositiveInds O els) (a : Acc n) (ha : traverse torch fd O n h els = .ok a) :
    (∀ x : Fin n → ℝ, x ⬝ᵥ (a.lMat *ᵥ x) = 0 ↔
      ∀ p ∈ els, ∀ i ∈ p.2, (O.elem i).kind = .ind → pot x p.1.1 = pot x p.1.2) ∧
    (a.lMat = 0 ↔ ∀ p ∈ els, ∀ i ∈ p.2, (O.elem i).kind ≠ .ind) := by
  have hnn : ∀ q ∈ placements els, 0 ≤ placedInvInd O q.2 := by
    intro q hq
    unfold placedInvInd
    split
    · rename_i hk; have := hl q hq hk; positivity
    · exact le_refl _
  have hq : ∀ x : Fin n → ℝ, x ⬝ᵥ (a.lMat *ᵥ x) = 0 ↔
      ∀ p ∈ els, ∀ i ∈ p.2, (O.elem i).kind = .ind → pot x p.1.1 = pot x p.1.2 := by
    intro x
    have hq := (traverse_qf hv ha x).2
    unfold qf at hq
    rw [hq]
    constructor
    · intro h0 p hp i hi hk
      have hmem : (p.1, i) ∈ placements els := by
        simp only [placements, List.mem_flatMap, List.mem_map]
        exact ⟨p, hp, i, hi, rfl⟩
      have := list_sum_eq_zero _ _ (fun q hq => by have := hnn q hq; positivity) h0 _ hmem
      simp only [placedInvInd, hk] at this
      have hpos := hl _ hmem hk
      rcases mul_eq_zero.1 this with h1 | h1
      · exact absurd h1 (by positivity)
      · have := pow_eq_zero_iff (two_ne_zero) |>.1 h1
        unfold branchDiff at this
        linarith
    · intro hall
      apply List.sum_eq_zero
      intro y hy
      obtain ⟨q, hq, rfl⟩ := List.mem_map.1 hy
      simp only [placements, List.mem_flatMap, List.mem_map] at hq
      obtain ⟨p, hp, i, hi, rfl⟩ := hq
      by_cases hk : (O.elem i).kind = .ind
      · simp [branchDiff, hall p hp i hi hk]
      · have : placedInvInd O i = 0 := by
          unfold placedInvInd
          split
          · contradiction
          · rfl
        simp [this]
  refine ⟨hq, ?_, ?_⟩
  · intro hL p hp i hi hk
    have hall : ∀ x : Fin n → ℝ, pot x p.1.1 = pot x p.1.2 := fun x =>
      (hq x).1 (by rw [hL]; simp) p hp i hi hk
    obtain ⟨hne, h1, h2⟩ := hv p hp
    -- potential 1 at one end, 0 elsewhere
    have : ∀ u v : ℕ, u ≠ v → u ≤ n → u ≠ 0 →
        ∃ x : Fin n → ℝ, pot x u = 1 ∧ pot x v = 0 := by
      intro u v huv hu hu0
      refine ⟨fun k => if (k : ℕ) + 1 = u then 1 else 0, ?_, ?_⟩
      · obtain ⟨u, rfl⟩ : ∃ j, u = j + 1 := ⟨u - 1, by omega⟩
        simp only [pot]
        rw [dif_pos (by omega)]
        simp
      · cases v with
        | zero => rfl
        | succ v =>
          simp only [pot]
          split
          · have : ¬ v + 1 = u := fun h => huv h.symm
            simp [this]
          · rfl
    by_cases h10 : p.1.1 = 0
    · obtain ⟨x, hx1, hx2⟩ := this p.1.2 p.1.1 hne.symm h2 (by omega)
      have := hall x; rw [hx1, hx2] at this; norm_num at this
    · obtain ⟨x, hx1, hx2⟩ := this p.1.1 p.1.2 hne h1 h10
      have := hall x; rw [hx1, hx2] at this; norm_num at this
  · intro hno
    rw [(traverse_mats hv ha).2]
    apply List.sum_eq_zero
    intro y hy
    obtain ⟨q, hq, rfl⟩ := List.mem_map.1 hy
    simp only [placements, List.mem_flatMap, List.mem_map] at hq
    obtain ⟨p, hp, i, hi, rfl⟩ := hq
    have : placedInvInd O i = 0 := by
      unfold placedInvInd
      split
      · rename_i hk; exact absurd hk (hno p hp i hi)
      · rfl
    simp [this]

/-- in the example circuit only node 1 is inductively tied to ground: (0, 7) costs no inductive
energy, (1, 0) does -/
example (h : LoopId → LoopObj) : ∃ a, traverse false .junctions exObjs 2 h exEls = .ok a ∧
    (![0, 7] : Fin 2 → ℝ) ⬝ᵥ (a.lMat *ᵥ ![0, 7]) = 0 ∧ a.lMat ≠ 0 := by
  obtain ⟨a, ha⟩ := buildEdges_succeeds false .junctions exEls_valid exEls_ind (initAcc 2 h)
  have hl : PositiveInds exObjs exEls := by
    intro q hq hk
    simp [placements, exEls] at hq
    rcases hq with rfl | rfl | rfl <;> simp [exObjs] at hk ⊢
  have := C17_null_space _ _ _ _ _ _ exEls_valid hl a ha
  refine ⟨a, ha, (this.1 _).2 ?_, fun h0 => ?_⟩
  · intro p hp i hi hk
    simp [exEls] at hp
    rcases hp with rfl | rfl | rfl <;> simp at hi <;> subst hi <;> simp [exObjs] at hk
    simp [pot]
  · exact this.2.1 h0 ((0,1),[0]) (by simp [exEls]) 0 (by simp) (by simp [exObjs])

end SQ
