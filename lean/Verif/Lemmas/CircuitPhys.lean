import Verif.Model.CircuitPhys
import Verif.Lemmas.Graph

/-! # Lemmas about the concrete circuit content -/

namespace SQ
open Matrix

variable {n : ℕ}

/-! ### junction energies do not enter the matrices -/

/-- traversal state without the parameter dictionary -/
def stripP (st : BSt n) : BSt n := { st with params := [] }

def stripA (a : Acc n) : Acc n := { a with st := stripP a.st }

theorem stripP_loopStep (torch : Bool) (O O' : Objs) (w : List ℤ) (b : ℕ) (l : LoopId) (st : BSt n) :
    stripP (loopStep torch O w b l st) = loopStep false O' w b l (stripP st) := by
  unfold loopStep addLoop stripP
  by_cases h : l ∈ st.loops <;> cases torch <;> simp [h]

theorem stripP_updateLoops (torch : Bool) (O O' : Objs) (w : List ℤ) (b : ℕ) (ls : List LoopId)
    (st : BSt n) : stripP (updateLoops torch O w b ls st) = updateLoops false O' w b ls (stripP st) := by
  unfold updateLoops
  induction ls generalizing st with
  | nil => rfl
  | cons l ls ih => simp only [List.foldl_cons]; rw [ih, stripP_loopStep torch O O']

/-- same objects up to the values of junctions -/
structure AgreeOffJ (O O' : Objs) : Prop where
  kind : ∀ i, (O'.elem i).kind = (O.elem i).kind
  cap : ∀ i, (O'.elem i).cap = (O.elem i).cap
  loops : ∀ i, (O'.elem i).loops = (O.elem i).loops
  value : ∀ i, (O.elem i).kind ≠ .jj → (O'.elem i).value = (O.elem i).value

/-- attached capacitors are not junctions -/
def CapsOK (O : Objs) : Prop := ∀ i, (O.elem (O.elem i).cap).kind ≠ .jj

/-- the part of `procElem` for the inductive elements -/
theorem stripP_procElem {O O' : Objs} (ha : AgreeOffJ O O') (hc : CapsOK O) (torch : Bool)
    (fd : FluxDist) (e : Edge) (w : List ℤ) (m : Matrix (Fin n) (Fin n) ℝ) (wId : ℕ)
    {st st' : BSt n} (hst : stripP st = stripP st') (i : ElemId) :
    stripP (procElem torch fd O e w m wId st i) = stripP (procElem torch fd O' e w m wId st' i) := by
  have hcapv : (O'.elem (O.elem i).cap).value = (O.elem (O.elem i).cap).value := ha.value _ (hc i)
  have hpm : ∀ j, partialMat (O'.elem j) m = partialMat (O.elem j) m := by
    intro j
    unfold partialMat
    rw [ha.kind]
    cases hk : (O.elem j).kind
    · rfl
    · simp only; rw [ha.value j (by rw [hk]; simp)]
    · rfl
  have hfd : capForFluxDist O' fd (O'.elem i) = capForFluxDist O fd (O.elem i) := by
    unfold capForFluxDist
    rw [ha.kind, ha.cap, hcapv]
  have hfields : st.loopHeap = st'.loopHeap ∧ st.loops = st'.loops ∧ st.indKeys = st'.indKeys ∧
      st.junKeys = st'.junKeys ∧ st.partialMats = st'.partialMats ∧ st.bId = st'.bId ∧
      st.kMat = st'.kMat ∧ st.cEdge = st'.cEdge := by
    unfold stripP at hst
    simp only [BSt.mk.injEq] at hst
    tauto
  obtain ⟨f1, f2, f3, f4, f5, f6, f7, f8⟩ := hfields
  have hind : (O'.elem i).inductive = (O.elem i).inductive := by
    unfold ElemObj.inductive; rw [ha.kind]
  have hup : ∀ s s' : BSt n, stripP s = stripP s' → s.bId = s'.bId →
      stripP (updateLoops torch O w s.bId (O.elem i).loops s) =
        stripP (updateLoops torch O' w s'.bId (O'.elem i).loops s') := by
    intro s s' h1 h2
    rw [stripP_updateLoops torch O O, stripP_updateLoops torch O' O, h1, h2, ha.loops]
  have hmid : ∀ s s' : BSt n, stripP s = stripP s' →
      stripP ({ s with bId := s.bId + 1, kMat := s.kMat ++ [w], cEdge := s.cEdge ++ [capForFluxDist O fd (O.elem i)] }) =
      stripP ({ s' with bId := s'.bId + 1, kMat := s'.kMat ++ [w], cEdge := s'.cEdge ++ [capForFluxDist O fd (O.elem i)] }) := by
    intro s s' h
    unfold stripP at h ⊢
    simp only [BSt.mk.injEq] at h ⊢
    obtain ⟨a1, a2, a3, a4, -, a5, a6, a7, a8⟩ := h
    exact ⟨a1, a2, a3, a4, trivial, a5, by rw [a6], by rw [a7], by rw [a8]⟩
  -- the state after the inductive part
  have key : ∀ s s' : BSt n, stripP s = stripP s' →
      stripP (if torch then { (if (O.elem i).kind = .jj then s else
          { s with partialMats := addPartial i (partialMat (O.elem i) m) s.partialMats }) with
          params := addToParams O (.elem i) (if (O.elem i).kind = .jj then s else
          { s with partialMats := addPartial i (partialMat (O.elem i) m) s.partialMats }).params }
        else (if (O.elem i).kind = .jj then s else
          { s with partialMats := addPartial i (partialMat (O.elem i) m) s.partialMats })) =
      stripP (if torch then { (if (O'.elem i).kind = .jj then s' else
          { s' with partialMats := addPartial i (partialMat (O'.elem i) m) s'.partialMats }) with
          params := addToParams O' (.elem i) (if (O'.elem i).kind = .jj then s' else
          { s' with partialMats := addPartial i (partialMat (O'.elem i) m) s'.partialMats }).params }
        else (if (O'.elem i).kind = .jj then s' else
          { s' with partialMats := addPartial i (partialMat (O'.elem i) m) s'.partialMats })) := by
    intro s s' h
    rw [ha.kind, hpm]
    unfold stripP at h ⊢
    simp only [BSt.mk.injEq] at h
    obtain ⟨a1, a2, a3, a4, -, a5, a6, a7, a8⟩ := h
    cases torch <;> by_cases hk : (O.elem i).kind = .jj <;> simp [*]
  unfold procElem
  refine key _ _ ?_
  rw [hind]
  by_cases hi : (O.elem i).inductive = true
  · simp only [hi, if_true]
    rw [hfd]
    refine hmid _ _ ?_
    refine hup _ _ ?_ ?_
    · rw [ha.kind, ha.cap, hpm]
      unfold stripP
      cases torch <;> by_cases hk : (O.elem i).kind = .jj <;> simp [*]
    · rw [ha.kind]
      cases torch <;> by_cases hk : (O.elem i).kind = .jj <;> simp [hk, f6]
  · simp only [hi]
    exact hst

theorem stripP_procEdge {O O' : Objs} (ha : AgreeOffJ O O') (hc : CapsOK O) (torch : Bool)
    (fd : FluxDist) (e : Edge) (w : List ℤ) (m : Matrix (Fin n) (Fin n) ℝ) (wId : ℕ)
    (els : List ElemId) {st st' : BSt n} (hst : stripP st = stripP st') :
    stripP (procEdge torch fd O e w m wId els st) = stripP (procEdge torch fd O' e w m wId els st') := by
  unfold procEdge
  induction els generalizing st st' with
  | nil => exact hst
  | cons i els ih => exact ih (stripP_procElem ha hc torch fd e w m wId hst i)

theorem stripA_edgeStep {O O' : Objs} (ha : AgreeOffJ O O') (hc : CapsOK O) (torch : Bool)
    (fd : FluxDist) (p : Edge × List ElemId) {a a' : Acc n} (hst : stripA a = stripA a') :
    (edgeStep torch fd O a p).map stripA = (edgeStep torch fd O' a' p).map stripA := by
  have hf : stripP a.st = stripP a'.st ∧ a.cMat = a'.cMat ∧ a.lMat = a'.lMat ∧ a.wMat = a'.wMat ∧
      a.wId = a'.wId ∧ a.numJunWithoutInd = a'.numJunWithoutInd := by
    unfold stripA at hst
    simpa only [Acc.mk.injEq] using hst
  obtain ⟨h1, h2, h3, h4, h5, h6⟩ := hf
  have hj : edgeJuncs O' p.2 = edgeJuncs O p.2 := by
    unfold edgeJuncs; simp only [ha.kind]
  have hi : edgeInds O' p.2 = edgeInds O p.2 := by
    unfold edgeInds; simp only [ha.kind]
  have hcaps : effCap O' p.2 = effCap O p.2 := by
    unfold effCap edgeCaps
    rw [List.map_map, List.map_map]
    congr 1
    apply List.map_congr_left
    intro i _
    have hind : (O'.elem i).inductive = (O.elem i).inductive := by
      unfold ElemObj.inductive; rw [ha.kind]
    simp only [Function.comp, hind, ha.cap]
    by_cases hk : (O.elem i).kind = .cap
    · have : ¬ (O.elem i).inductive = true := by simp [ElemObj.inductive, hk]
      rw [if_neg this]
      exact ha.value i (by rw [hk]; simp)
    · have : (O.elem i).inductive = true := by simpa [ElemObj.inductive] using hk
      rw [if_pos this]
      exact ha.value _ (hc i)
  have hinds : effInd O' p.2 = effInd O p.2 := by
    unfold effInd
    rw [hi]
    have hv : ∀ i ∈ edgeInds O p.2, (O'.elem i).value = (O.elem i).value := by
      intro i hi
      apply ha.value
      unfold edgeInds at hi
      simp at hi
      rw [hi.2]; simp
    have e1 : (edgeInds O p.2).any (fun i => decide ((O'.elem i).value = 0)) =
        (edgeInds O p.2).any (fun i => decide ((O.elem i).value = 0)) := by
      rw [Bool.eq_iff_iff, List.any_eq_true, List.any_eq_true]
      constructor
      · rintro ⟨i, hi, h⟩; exact ⟨i, hi, by rwa [hv i hi] at h⟩
      · rintro ⟨i, hi, h⟩; exact ⟨i, hi, by rwa [hv i hi]⟩
    have e2 : (edgeInds O p.2).map (fun i => 1 / (O'.elem i).value) =
        (edgeInds O p.2).map (fun i => 1 / (O.elem i).value) :=
      List.map_congr_left (fun i hi => by rw [hv i hi])
    rw [e1, e2]
  unfold edgeStep
  cases wAtEdge n p.1 with
  | error e => rfl
  | ok w =>
    cases matrixRep n p.1 with
    | error e => rfl
    | ok m =>
      simp only
      rw [hj, hi, hcaps, hinds]
      have hp := stripP_procEdge ha hc torch fd p.1 w m a.wId p.2 h1
      rw [h5] at hp
      cases effInd O p.2 with
      | error e => rfl
      | ok x =>
        simp only
        by_cases hJ : (edgeJuncs O p.2).length ≠ 0
        · rw [if_pos hJ, if_pos hJ]
          simp only [Except.map, stripA]
          rw [h2, h3, h4, h5, h6, hp]
        · rw [if_neg hJ, if_neg hJ]
          simp only [Except.map, stripA]
          rw [h2, h3, h4, h5, h6, hp]

theorem stripA_buildEdges {O O' : Objs} (ha : AgreeOffJ O O') (hc : CapsOK O) (torch : Bool)
    (fd : FluxDist) (els : Elements) {a a' : Acc n} (hst : stripA a = stripA a') :
    (buildEdges torch fd O els a).map stripA = (buildEdges torch fd O' els a').map stripA := by
  induction els generalizing a a' with
  | nil => simp only [buildEdges, Except.map, hst]
  | cons p ps ih =>
    have := stripA_edgeStep ha hc torch fd p hst
    unfold buildEdges
    cases h1 : edgeStep torch fd O a p with
    | error e =>
      cases h2 : edgeStep torch fd O' a' p with
      | error e' => rw [h1, h2] at this; simpa [Except.map] using this
      | ok b' => rw [h1, h2] at this; simp [Except.map] at this
    | ok b =>
      cases h2 : edgeStep torch fd O' a' p with
      | error e' => rw [h1, h2] at this; simp [Except.map] at this
      | ok b' =>
        rw [h1, h2] at this
        simp only [Except.map, Except.ok.injEq] at this
        exact ih this

/-- the part of `buildWith` after the traversal, from the fields it uses -/
noncomputable def afterFields (c : CircSpec) (n : ℕ)
    (finish : ∀ {nJ : ℕ}, Trans nJ n → Modes nJ n) (kMat : List (List ℤ)) (cEdge : List ℝ)
    (loops : List LoopId) (heap : LoopId → LoopObj) (C L : Matrix (Fin n) (Fin n) ℝ)
    (wMat : List (List ℤ)) (numJ : ℕ) (indKeys : List (Edge × ElemId × ℕ))
    (junKeys : List (Edge × ElemId × ℕ × ℕ)) : Except PyErr Build :=
  open Classical in
  match fluxMatrix c.sv n kMat cEdge (loops.map heap) with
  | .error e => .error e
  | .ok B =>
    if C.det = 0 then .error .linAlg
    else
      match transformHamil (c.lib n) c.sv c.argsort (c.argmax _) c.draws numJ
          C L (arrayOf n wMat) c.fuel (initTrans C L (arrayOf n wMat)) with
      | none => .error .noReturn
      | some (.error e) => .error e
      | some (.ok t) =>
        .ok { n := n, nJ := wMat.length, nB := kMat.length, C := C, loops := loops
              B := fluxTable B
              inds := indKeysOf _ indKeys
              juns := junKeysOf _ _ junKeys
              M := finish t }

noncomputable def afterTraverse (c : CircSpec) (n : ℕ)
    (finish : ∀ {nJ : ℕ}, Trans nJ n → Modes nJ n) (a : Acc n) : Except PyErr Build :=
  afterFields c n finish a.st.kMat a.st.cEdge a.st.loops a.st.loopHeap a.cMat a.lMat a.wMat
    a.numJunWithoutInd a.st.indKeys a.st.junKeys

theorem buildWith_eq (c : CircSpec) (n : ℕ) (vals : ElemId → ℝ)
    (finish : ∀ {nJ : ℕ}, Trans nJ n → Modes nJ n) :
    buildWith c n vals finish =
      match traverse c.torch c.fd (c.O.withVals vals) n c.h c.els with
      | .error e => .error e
      | .ok a => afterTraverse c n finish a := by
  unfold buildWith getLCWB
  cases traverse c.torch c.fd (c.O.withVals vals) n c.h c.els with
  | error e => rfl
  | ok a =>
    simp only [afterTraverse, afterFields]
    cases fluxMatrix c.sv n a.st.kMat a.st.cEdge (a.st.loops.map a.st.loopHeap) with
    | error e => rfl
    | ok B =>
      simp only
      by_cases hd : a.cMat.det = 0
      · rw [if_pos hd, if_pos hd]
      · rw [if_neg hd, if_neg hd]
        cases transformHamil (c.lib n) c.sv c.argsort (c.argmax a.wMat.length) c.draws
            a.numJunWithoutInd a.cMat a.lMat (arrayOf n a.wMat) c.fuel
            (initTrans a.cMat a.lMat (arrayOf n a.wMat)) with
        | none => rfl
        | some r =>
          cases r with
          | error e => rfl
          | ok t => rfl

theorem afterTraverse_strip (c : CircSpec) (n : ℕ)
    (finish : ∀ {nJ : ℕ}, Trans nJ n → Modes nJ n) (a : Acc n) :
    afterTraverse c n finish (stripA a) = afterTraverse c n finish a := by
  unfold afterTraverse stripA stripP
  simp only

theorem agree_withVals (O : Objs) {v v' : ElemId → ℝ}
    (h : ∀ i, (O.elem i).kind ≠ .jj → v' i = v i) : AgreeOffJ (O.withVals v) (O.withVals v') :=
  ⟨fun _ => rfl, fun _ => rfl, fun _ => rfl, fun i hi => h i hi⟩

/-- C, L, W, B and the transformations do not depend on junction energies -/
theorem buildWith_congr (c : CircSpec) (hc : CapsOK c.O) (n : ℕ) {v v' : ElemId → ℝ}
    (h : ∀ i, (c.O.elem i).kind ≠ .jj → v' i = v i)
    (finish : ∀ {nJ : ℕ}, Trans nJ n → Modes nJ n) :
    buildWith c n v finish = buildWith c n v' finish := by
  rw [buildWith_eq, buildWith_eq]
  have := stripA_buildEdges (n := n) (agree_withVals c.O h) hc c.torch c.fd c.els
    (a := initAcc n c.h) (a' := initAcc n c.h) rfl
  change (traverse _ _ _ _ _ _).map stripA = (traverse _ _ _ _ _ _).map stripA at this
  cases h1 : traverse c.torch c.fd (c.O.withVals v) n c.h c.els with
  | error e =>
    cases h2 : traverse c.torch c.fd (c.O.withVals v') n c.h c.els with
    | error e' => rw [h1, h2] at this; simp [Except.map] at this; rw [this]
    | ok b' => rw [h1, h2] at this; simp [Except.map] at this
  | ok b =>
    cases h2 : traverse c.torch c.fd (c.O.withVals v') n c.h c.els with
    | error e' => rw [h1, h2] at this; simp [Except.map] at this
    | ok b' =>
      rw [h1, h2] at this
      simp only [Except.map, Except.ok.injEq] at this
      simp only
      rw [← afterTraverse_strip, this, afterTraverse_strip]

theorem buildCirc_congr (c : CircSpec) (hc : CapsOK c.O) {v v' : ElemId → ℝ}
    (h : ∀ i, (c.O.elem i).kind ≠ .jj → v' i = v i) : buildCirc c v = buildCirc c v' := by
  unfold buildCirc
  cases numNodes c.els with
  | error e => rfl
  | ok n => exact buildWith_congr c hc n h _

/-! ### `update` -/

theorem buildWith_n {c : CircSpec} {n : ℕ} {v : ElemId → ℝ}
    {finish : ∀ {nJ : ℕ}, Trans nJ n → Modes nJ n} {b : Build} (h : buildWith c n v finish = .ok b) :
    ∃ (nJ : ℕ) (t : Trans nJ n), b.k = (finish t).keep.length ∧ b.n = n := by
  rw [buildWith_eq] at h
  split at h
  · cases h
  · rename_i a _
    unfold afterTraverse afterFields at h
    split at h
    · cases h
    · split at h
      · cases h
      · split at h
        · cases h
        · cases h
        · rename_i t _
          injection h with h
          subst h
          exact ⟨_, t, rfl, rfl⟩

/-- under PyTorch, recomputing in `update` is the same as construction -/
theorem rebuild_eq_torch (c : CircSpec) (ht : c.torch = true) {v : ElemId → ℝ} {b : Build}
    (h : buildCirc c v = .ok b) (v' : ElemId → ℝ) : rebuildCirc c b.k v' = buildCirc c v' := by
  unfold buildCirc at h ⊢
  cases hn : numNodes c.els with
  | error e => rw [hn] at h; cases h
  | ok n =>
    rw [hn] at h
    simp only at h ⊢
    obtain ⟨nJ, t, hk, -⟩ := buildWith_n h
    have hf : ∀ {nJ : ℕ} (t : Trans nJ n), finishModes c.torch t = restrict t (List.finRange n) := by
      intro nJ t
      unfold finishModes
      rw [if_neg (by rw [ht]; simp)]
    have hkn : b.k = n := by rw [hk, hf]; simp [restrict]
    rw [hkn]
    unfold rebuildCirc
    rw [buildWith_eq, buildWith_eq]
    cases traverse c.torch c.fd (c.O.withVals v') n c.h c.els with
    | error e => rfl
    | ok a =>
      unfold afterTraverse afterFields
      simp only [hf]

end SQ
