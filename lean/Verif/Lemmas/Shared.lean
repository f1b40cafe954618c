import Verif.Model.Shared
import Verif.Lemmas.CircuitPhys

/-!
# Building does not depend on the bookkeeping left in the loops
-/

namespace SQ
open Matrix

variable {n : ℕ}

/-- same traversal state up to loop objects that were not used yet, and up to flux values and noise -/
def SimSt (s s' : BSt n) : Prop :=
  (∃ h', s' = { s with loopHeap := h' }) ∧
  ∀ l ∈ s.loops, (s'.loopHeap l).indices = (s.loopHeap l).indices ∧ (s'.loopHeap l).kMat = (s.loopHeap l).kMat

theorem sim_addLoop {s s' : BSt n} (h : SimSt s s') (l : LoopId) :
    SimSt (addLoop l s) (addLoop l s') ∧ l ∈ (addLoop l s).loops := by
  obtain ⟨⟨h', rfl⟩, hl⟩ := h
  unfold addLoop
  by_cases hc : s.loops.contains l = true
  · simp only [hc, if_true]
    exact ⟨⟨⟨h', rfl⟩, hl⟩, by simpa using hc⟩
  · simp only [hc]
    refine ⟨⟨⟨_, rfl⟩, ?_⟩, by simp⟩
    intro x hx
    simp only [Bool.false_eq_true, if_false, List.mem_append, List.mem_singleton] at hx ⊢
    by_cases hxl : x = l
    · subst hxl
      simp [LoopObj.reset]
    · rw [Function.update_of_ne hxl, Function.update_of_ne hxl]
      exact hl x (hx.resolve_right hxl)

theorem sim_loopStep {s s' : BSt n} (h : SimSt s s') (torch : Bool) (O : Objs) (w : List ℤ) (b : ℕ) (l : LoopId) :
    SimSt (loopStep torch O w b l s) (loopStep torch O w b l s') := by
  obtain ⟨h1, hm⟩ := sim_addLoop h l
  unfold loopStep
  generalize addLoop l s = t at h1 hm
  generalize addLoop l s' = t' at h1
  obtain ⟨⟨h', rfl⟩, hl⟩ := h1
  have key : ∀ x ∈ t.loops,
      ((Function.update (Function.update h' l ((h' l).addIndex b)) l
        (((Function.update h' l ((h' l).addIndex b)) l).addToKMat w)) x).indices =
      ((Function.update (Function.update t.loopHeap l ((t.loopHeap l).addIndex b)) l
        (((Function.update t.loopHeap l ((t.loopHeap l).addIndex b)) l).addToKMat w)) x).indices ∧
      ((Function.update (Function.update h' l ((h' l).addIndex b)) l
        (((Function.update h' l ((h' l).addIndex b)) l).addToKMat w)) x).kMat =
      ((Function.update (Function.update t.loopHeap l ((t.loopHeap l).addIndex b)) l
        (((Function.update t.loopHeap l ((t.loopHeap l).addIndex b)) l).addToKMat w)) x).kMat := by
    intro x hx
    have := hl x hx
    by_cases hxl : x = l
    · subst hxl
      simp only [Function.update_self, LoopObj.addIndex, LoopObj.addToKMat]
      simp only at this
      rw [this.1, this.2]
      exact ⟨rfl, rfl⟩
    · simp only [Function.update_of_ne hxl]
      exact this
  cases torch
  · exact ⟨⟨_, rfl⟩, key⟩
  · exact ⟨⟨_, rfl⟩, key⟩

theorem sim_updateLoops (torch : Bool) (O : Objs) (w : List ℤ) (b : ℕ) (ls : List LoopId) {s s' : BSt n} (h : SimSt s s') :
    SimSt (updateLoops torch O w b ls s) (updateLoops torch O w b ls s') := by
  unfold updateLoops
  induction ls generalizing s s' with
  | nil => exact h
  | cons l ls ih => exact ih (sim_loopStep h torch O w b l)

/-- changing the other fields in the same way -/
theorem sim_map {s s' : BSt n} (h : SimSt s s') (f : BSt n → BSt n)
    (hf : ∀ (s : BSt n) h', f { s with loopHeap := h' } = { f s with loopHeap := h' }) (hl : ∀ s, (f s).loops = s.loops)
    (hh : ∀ s, (f s).loopHeap = s.loopHeap) : SimSt (f s) (f s') := by
  obtain ⟨⟨h', rfl⟩, h2⟩ := h
  refine ⟨⟨h', hf s h'⟩, ?_⟩
  intro l hm
  rw [hl] at hm
  rw [hh, hh]
  exact h2 l hm

theorem sim_procElem {s s' : BSt n} (h : SimSt s s') (torch : Bool) (fd : FluxDist) (O : Objs) (e : Edge) (w : List ℤ)
    (m : Matrix (Fin n) (Fin n) ℝ) (wId : ℕ) (i : ElemId) :
    SimSt (procElem torch fd O e w m wId s i) (procElem torch fd O e w m wId s' i) := by
  have hb : ∀ {t t' : BSt n}, SimSt t t' → t'.bId = t.bId := by
    rintro t t' ⟨⟨h', rfl⟩, -⟩; rfl
  unfold procElem
  simp only
  refine sim_map (f := fun st : BSt n => if torch then { st with params := addToParams O (.elem i) st.params } else st) ?_
    (by intro s h'; cases torch <;> rfl) (by intro s; cases torch <;> rfl) (by intro s; cases torch <;> rfl)
  refine sim_map (f := fun st : BSt n => if (O.elem i).kind = .jj then st
    else { st with partialMats := addPartial i (partialMat (O.elem i) m) st.partialMats }) ?_
    (by intro s h'; simp only; split_ifs <;> rfl) (by intro s; split_ifs <;> rfl)
    (by intro s; split_ifs <;> rfl)
  by_cases hi : (O.elem i).inductive = true
  · simp only [hi, if_true]
    have h1 : SimSt (if torch then { s with
            params := addToParams O (.elem (O.elem i).cap) s.params
            partialMats := addPartial (O.elem i).cap (partialMat (O.elem (O.elem i).cap) m) s.partialMats } else s)
        (if torch then { s' with
            params := addToParams O (.elem (O.elem i).cap) s'.params
            partialMats := addPartial (O.elem i).cap (partialMat (O.elem (O.elem i).cap) m) s'.partialMats } else s') :=
      sim_map (f := fun s : BSt n => if torch then { s with
            params := addToParams O (.elem (O.elem i).cap) s.params
            partialMats := addPartial (O.elem i).cap (partialMat (O.elem (O.elem i).cap) m) s.partialMats } else s) h
        (by intro s h'; cases torch <;> rfl) (by intro s; cases torch <;> rfl) (by intro s; cases torch <;> rfl)
    revert h1
    generalize (if torch then { s with
            params := addToParams O (.elem (O.elem i).cap) s.params
            partialMats := addPartial (O.elem i).cap (partialMat (O.elem (O.elem i).cap) m) s.partialMats } else s) = t
    generalize (if torch then { s' with
            params := addToParams O (.elem (O.elem i).cap) s'.params
            partialMats := addPartial (O.elem i).cap (partialMat (O.elem (O.elem i).cap) m) s'.partialMats } else s') = t'
    intro h1
    have h2 : SimSt (if (O.elem i).kind = .jj then { t with junKeys := t.junKeys ++ [(e, i, t.bId, wId)] }
          else { t with indKeys := t.indKeys ++ [(e, i, t.bId)] })
        (if (O.elem i).kind = .jj then { t' with junKeys := t'.junKeys ++ [(e, i, t'.bId, wId)] }
          else { t' with indKeys := t'.indKeys ++ [(e, i, t'.bId)] }) :=
      sim_map (f := fun t : BSt n => if (O.elem i).kind = .jj then { t with junKeys := t.junKeys ++ [(e, i, t.bId, wId)] }
          else { t with indKeys := t.indKeys ++ [(e, i, t.bId)] }) h1
        (by intro s h'; simp only; split_ifs <;> rfl) (by intro s; split_ifs <;> rfl)
        (by intro s; split_ifs <;> rfl)
    revert h2
    generalize (if (O.elem i).kind = .jj then { t with junKeys := t.junKeys ++ [(e, i, t.bId, wId)] }
          else { t with indKeys := t.indKeys ++ [(e, i, t.bId)] }) = u
    generalize (if (O.elem i).kind = .jj then { t' with junKeys := t'.junKeys ++ [(e, i, t'.bId, wId)] }
          else { t' with indKeys := t'.indKeys ++ [(e, i, t'.bId)] }) = u'
    intro h2
    rw [hb h2]
    refine sim_map (f := fun st : BSt n => { st with
        bId := st.bId + 1
        kMat := st.kMat ++ [w]
        cEdge := st.cEdge ++ [capForFluxDist O fd (O.elem i)] }) (sim_updateLoops torch O w u.bId (O.elem i).loops h2)
      (fun _ _ => rfl) (fun _ => rfl) (fun _ => rfl)
  · simp only [hi]
    exact h

theorem sim_procEdge (torch : Bool) (fd : FluxDist) (O : Objs) (e : Edge) (w : List ℤ)
    (m : Matrix (Fin n) (Fin n) ℝ) (wId : ℕ) (els : List ElemId) {s s' : BSt n} (h : SimSt s s') :
    SimSt (procEdge torch fd O e w m wId els s) (procEdge torch fd O e w m wId els s') := by
  unfold procEdge
  induction els generalizing s s' with
  | nil => exact h
  | cons i els ih => exact ih (sim_procElem h torch fd O e w m wId i)

/-- the same traversal up to the loop objects -/
def SimAcc (a a' : Acc n) : Prop := (∃ st', a' = { a with st := st' }) ∧ SimSt a.st a'.st

/-- two traversals that agree -/
def SimRes : Except PyErr (Acc n) → Except PyErr (Acc n) → Prop
  | .error e, .error e' => e' = e
  | .ok a, .ok a' => SimAcc a a'
  | _, _ => False

theorem sim_edgeStep {a a' : Acc n} (h : SimAcc a a') (torch : Bool) (fd : FluxDist) (O : Objs) (p : Edge × List ElemId) :
    SimRes (edgeStep torch fd O a p) (edgeStep torch fd O a' p) := by
  obtain ⟨⟨st', rfl⟩, hs⟩ := h
  unfold edgeStep
  cases wAtEdge n p.1 with
  | error e => exact rfl
  | ok w =>
    cases matrixRep n p.1 with
    | error e => exact rfl
    | ok m =>
      have hp := sim_procEdge torch fd O p.1 w m a.wId p.2 hs
      simp only
      cases effInd O p.2 with
      | error e => exact rfl
      | ok x =>
        simp only
        by_cases hJ : (edgeJuncs O p.2).length ≠ 0
        · rw [if_pos hJ, if_pos hJ]
          exact ⟨⟨_, rfl⟩, hp⟩
        · rw [if_neg hJ, if_neg hJ]
          exact ⟨⟨_, rfl⟩, hp⟩

theorem sim_buildEdges (torch : Bool) (fd : FluxDist) (O : Objs) (els : Elements) {a a' : Acc n} (h : SimAcc a a') :
    SimRes (buildEdges torch fd O els a) (buildEdges torch fd O els a') := by
  induction els generalizing a a' with
  | nil => exact h
  | cons p ps ih =>
    have := sim_edgeStep h torch fd O p
    unfold buildEdges
    cases h1 : edgeStep torch fd O a p with
    | error e =>
      cases h2 : edgeStep torch fd O a' p with
      | error e' => rw [h1, h2] at this; exact this
      | ok b' => rw [h1, h2] at this; exact this.elim
    | ok b =>
      cases h2 : edgeStep torch fd O a' p with
      | error e' => rw [h1, h2] at this; exact this.elim
      | ok b' =>
        rw [h1, h2] at this
        exact ih this

/-! ### the flux distribution -/

theorem loopRows_congr (sv : SvdFn) (n b : ℕ) (ls : List LoopId) (f g : LoopId → LoopObj)
    (h : ∀ l ∈ ls, (g l).indices = (f l).indices ∧ (g l).kMat = (f l).kMat) :
    loopRows sv n b (ls.map g) = loopRows sv n b (ls.map f) := by
  induction ls with
  | nil => rfl
  | cons l ls ih =>
    have ih := ih fun x hx => h x (List.mem_cons_of_mem _ hx)
    obtain ⟨h1, h2⟩ := h l List.mem_cons_self
    rw [List.map_cons, List.map_cons]
    unfold loopRows
    rw [ih]
    revert h1 h2
    generalize g l = x
    generalize f l = y
    obtain ⟨v, A, ind, km⟩ := x
    obtain ⟨v', A', ind', km'⟩ := y
    intro h1 h2
    simp only at h1 h2
    subst h1 h2
    simp only
    cases getG sv n km with
    | error e => rfl
    | ok g => simp only

/-- `fluxMatrix` from the rows of the loops and their number -/
noncomputable def fluxFrom (sv : SvdFn) (n : ℕ) (kMat : List (List ℤ)) (cEdge : List ℝ)
    (rows : Except PyErr (List (Fin kMat.length → ℝ))) (len : ℕ) : Except PyErr (Option (Matrix (Fin kMat.length) (Fin len) ℝ)) :=
  let b := kMat.length
  let k := arrayOf n kMat
  let kept := keptCols sv k
  let xRows : List (Fin b → ℝ) := kept.map (fun j i => k i j * cEdge.getD i 0)
  let r : Except PyErr (Option (Matrix (Fin b) (Fin len) ℝ)) :=
    match rows with
    | .error e => .error e
    | .ok gRows =>
      if len = 0 then .ok none
      else
        if b < len then .error .valueError
        else
          match squareOf (xRows ++ gRows) with
          | .error e => .error e
          | .ok X =>
            match npInv X with
            | .error e => .error e
            | .ok Xi =>
              .ok (some (Matrix.of fun i l =>
                ∑ t : Fin b, Xi i t *
                  (if b - len ≤ (t : ℕ) ∧ (t : ℕ) - (b - len) = (l : ℕ)
                   then 1 else 0)))
  match r with
  | .ok none => .ok none
  | .ok (some B) => .ok (some (Matrix.of fun i l => round5 (B i l)))
  | .error .valueError => .error .valueError
  | .error .linAlg => .error .valueError
  | .error e => .error e

theorem fluxMatrix_from (sv : SvdFn) (n : ℕ) (kMat : List (List ℤ)) (cEdge : List ℝ) (loops : List LoopObj) :
    fluxMatrix sv n kMat cEdge loops = fluxFrom sv n kMat cEdge (loopRows sv n kMat.length loops) loops.length := by
  unfold fluxMatrix fluxFrom
  simp only
  cases loopRows sv n kMat.length loops with
  | error e => cases e <;> rfl
  | ok g =>
    simp only
    by_cases h0 : loops.length = 0
    · rw [if_pos h0, if_pos h0]
    · rw [if_neg h0, if_neg h0]
      by_cases h1 : kMat.length < loops.length
      · rw [if_pos h1, if_pos h1]
      · rw [if_neg h1, if_neg h1]
        cases squareOf (List.map (fun j i => arrayOf n kMat i j * cEdge.getD (↑i) 0) (keptCols sv (arrayOf n kMat)) ++ g) with
        | error e => cases e <;> rfl
        | ok X =>
          simp only
          cases npInv X with
          | error e => cases e <;> rfl
          | ok Y => rfl

/-- `fluxTable` for any number of loops equal to the length of the list -/
def tableOf {b : ℕ} (ls : List LoopId) {len : ℕ} (hl : len = ls.length) (B : Option (Matrix (Fin b) (Fin len) ℝ)) :
    Matrix (Fin b) (Fin ls.length) ℝ :=
  match B with
  | none => 0
  | some B => Matrix.of fun i l => B i (l.cast hl.symm)

theorem fluxTable_of {b : ℕ} (ls : List LoopId) (f : LoopId → LoopObj) (B : Option (Matrix (Fin b) (Fin (ls.map f).length) ℝ)) :
    fluxTable B = tableOf ls (by simp) B := by
  cases B <;> rfl

/-- everything after the traversal depends on the loop objects only through the bookkeeping of the loops of the circuit -/
theorem afterFields_heap (c : CircSpec) (n : ℕ) (finish : ∀ {nJ : ℕ}, Trans nJ n → Modes nJ n) (kMat : List (List ℤ))
    (cEdge : List ℝ) (loops : List LoopId) (f g : LoopId → LoopObj) (C L : Matrix (Fin n) (Fin n) ℝ)
    (wMat : List (List ℤ)) (numJ : ℕ) (ik : List (Edge × ElemId × ℕ)) (jk : List (Edge × ElemId × ℕ × ℕ))
    (h : ∀ l ∈ loops, (g l).indices = (f l).indices ∧ (g l).kMat = (f l).kMat) :
    afterFields c n @finish kMat cEdge loops g C L wMat numJ ik jk =
      afterFields c n @finish kMat cEdge loops f C L wMat numJ ik jk := by
  have key : ∀ (h0 : LoopId → LoopObj) (len : ℕ) (hl : len = loops.length),
      (loops.map h0).length = len →
      afterFields c n @finish kMat cEdge loops h0 C L wMat numJ ik jk =
      (open Classical in
        match fluxFrom c.sv n kMat cEdge (loopRows c.sv n kMat.length (loops.map h0)) len with
        | .error e => .error e
        | .ok B =>
          if C.det = 0 then .error .linAlg
          else
            match transformHamil (c.lib n) c.sv c.argsort (c.argmax _) c.draws numJ
                C L (arrayOf n wMat) c.fuel (initTrans C L (arrayOf n wMat)) with
            | none => .error .noReturn
            | some (.error e) => .error e
            | some (.ok t) =>
              .ok { n := n, nJ := wMat.length, nB := kMat.length, C := C, loops := loops
                    B := tableOf loops hl B
                    inds := indKeysOf _ ik
                    juns := junKeysOf _ _ jk
                    M := finish t }) := by
    rintro h0 _ hl rfl
    unfold afterFields
    rw [fluxMatrix_from]
    cases fluxFrom c.sv n kMat cEdge (loopRows c.sv n kMat.length (loops.map h0)) (loops.map h0).length with
    | error e => rfl
    | ok B =>
      simp only [fluxTable_of]
      by_cases hd : C.det = 0
      · rw [if_pos hd, if_pos hd]
      · rw [if_neg hd, if_neg hd]
        cases transformHamil (c.lib n) c.sv c.argsort (c.argmax wMat.length) c.draws numJ C L (arrayOf n wMat) c.fuel
            (initTrans C L (arrayOf n wMat)) with
        | none => rfl
        | some r =>
          cases r with
          | error e => rfl
          | ok t => rfl
  rw [key g _ rfl (by simp), key f _ rfl (by simp), loopRows_congr _ _ _ _ _ _ h]

/-- `_get_LCWB` and `_transform_hamil` do not depend on what earlier uses left in the loops -/
theorem buildWith_heap (c : CircSpec) (h : LoopId → LoopObj) (n : ℕ) (vals : ElemId → ℝ)
    (finish : ∀ {nJ : ℕ}, Trans nJ n → Modes nJ n) :
    buildWith (c.withHeap h) n vals @finish = buildWith c n vals @finish := by
  rw [buildWith_eq, buildWith_eq]
  have hs : SimRes (traverse c.torch c.fd (c.O.withVals vals) n c.h c.els)
      (traverse (c.withHeap h).torch (c.withHeap h).fd ((c.withHeap h).O.withVals vals) n (c.withHeap h).h (c.withHeap h).els) :=
    sim_buildEdges _ _ _ _ ⟨⟨_, rfl⟩, ⟨_, rfl⟩, by intro l hl; simp [initAcc] at hl⟩
  revert hs
  generalize traverse (c.withHeap h).torch (c.withHeap h).fd ((c.withHeap h).O.withVals vals) n (c.withHeap h).h
    (c.withHeap h).els = r'
  generalize traverse c.torch c.fd (c.O.withVals vals) n c.h c.els = r
  intro hs
  match r, r', hs with
  | .error e, .error _, rfl => rfl
  | .ok a, .ok a', ⟨⟨st', ha⟩, ⟨h', hst⟩, hl⟩ =>
    subst ha
    simp only at hst hl
    subst hst
    exact afterFields_heap c n @finish _ _ _ _ _ _ _ _ _ _ _ hl

theorem buildCirc_heap (c : CircSpec) (h : LoopId → LoopObj) (vals : ElemId → ℝ) :
    buildCirc (c.withHeap h) vals = buildCirc c vals := by
  unfold buildCirc
  change (match numNodes c.els with | .error e => _ | .ok n => _) = _
  cases numNodes c.els with
  | error e => rfl
  | ok n => exact buildWith_heap c h n vals _

theorem rebuildCirc_heap (c : CircSpec) (h : LoopId → LoopObj) (n : ℕ) (vals : ElemId → ℝ) :
    rebuildCirc (c.withHeap h) n vals = rebuildCirc c n vals := buildWith_heap c h n vals _

end SQ
