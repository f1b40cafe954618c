import Verif.Lemmas.Transmon
import Verif.Props.Fluxonium

/-! # C92: junctions in parallel, from dictionary to Hamiltonian -/

namespace SQ
open Matrix Spec Real

/-- a circuit with all its elements between ground and node 1, with given routines -/
noncomputable def parallelSpec (torch : Bool) (fd : FluxDist) (O : Objs) (ids : List ElemId) (h : LoopId → LoopObj)
    (lib : ∀ n, NumLib n) (sv : SvdFn) (argsort : ArgsortFn) (argmax : ∀ k, ArgmaxFn k) (draws : Draws) :
    CircSpec where
  torch := torch
  fd := fd
  O := O
  els := oneEdge ids
  h := h
  lib := lib
  sv := sv
  argsort := argsort
  argmax := argmax
  draws := draws
  fuel := 3

variable {O : Objs} {ids : List ElemId} {vals : ElemId → ℝ}

/-- junctions and capacitors only, at least one junction -/
def OnlyJunctions (O : Objs) (ids : List ElemId) : Prop :=
  (∀ i ∈ ids, (O.elem i).kind ≠ .ind) ∧ ∃ i ∈ ids, (O.elem i).kind = .jj

/-- positive capacitances (with a total below 1e29 farad: the code compares with a threshold) -/
def ParallelValues (O : Objs) (ids : List ElemId) (v : ElemId → ℝ) : Prop :=
  (∀ i ∈ ids, 0 < placedCap (O.withVals v) i) ∧ totalCap (O.withVals v) ids ≤ 1e29

theorem oe_valid (ids : List ElemId) : ValidElements 1 (oneEdge ids) := by
  intro p hp
  simp [oneEdge] at hp
  subst hp; simp [ValidEdge]

theorem oe_eMat : eMat 1 (0, 1) = 1 := by
  ext i j
  fin_cases i; fin_cases j
  simp [eMat, incidence]

theorem oe_sum (f : ElemId → ℝ) (ids : List ElemId) :
    ((placements (oneEdge ids)).map (fun q => f q.2 • eMat 1 q.1)).sum = Matrix.of fun _ _ => (ids.map f).sum := by
  simp only [placements, oneEdge, List.flatMap_cons, List.flatMap_nil, List.append_nil, List.map_map,
    Function.comp_def, oe_eMat]
  induction ids with
  | nil => ext i j; simp
  | cons x l ih =>
    rw [List.map_cons, List.sum_cons, ih]
    ext i j
    fin_cases i; fin_cases j
    simp

theorem oe_traverse (hj : OnlyJunctions O ids) (torch : Bool) (fd : FluxDist) (h : LoopId → LoopObj) :
    numNodes (oneEdge ids) = .ok 1 ∧
    ∃ a, traverse torch fd (O.withVals vals) 1 h (oneEdge ids) = .ok a ∧
      a.cMat = Matrix.of (fun _ _ => totalCap (O.withVals vals) ids) ∧ a.lMat = 0 ∧
      a.wMat = [[1]] ∧ a.numJunWithoutInd = 1 := by
  refine ⟨rfl, ?_⟩
  obtain ⟨a, ha⟩ := buildEdges_succeeds (O := O.withVals vals) torch fd (oe_valid ids) (by
    intro p hp i hi hk
    simp [oneEdge] at hp
    subst hp
    exact absurd hk (hj.1 i hi)) (initAcc 1 h)
  have ha' : traverse torch fd (O.withVals vals) 1 h (oneEdge ids) = .ok a := ha
  obtain ⟨h1, h2⟩ := traverse_mats (oe_valid ids) ha'
  have h3 := (traverse_inv (oe_valid ids) ha').2
  have hany : ids.any (fun i => decide ((O.elem i).kind = .jj)) = true := by
    rw [List.any_eq_true]
    obtain ⟨i, hi, hk⟩ := hj.2
    exact ⟨i, hi, by simpa using hk⟩
  have hnone : ids.any (fun i => decide ((O.elem i).kind = .ind)) = false := by
    rw [List.any_eq_false]
    intro i hi
    simpa using hj.1 i hi
  refine ⟨a, ha', ?_, ?_, ?_, ?_⟩
  · rw [h1, oe_sum]; rfl
  · rw [h2, oe_sum]
    have : (ids.map (placedInvInd (O.withVals vals))).sum = 0 := by
      apply List.sum_eq_zero
      intro x hx
      obtain ⟨i, hi, rfl⟩ := List.mem_map.1 hx
      have : ((O.withVals vals).elem i).kind ≠ .ind := hj.1 i hi
      unfold placedInvInd
      cases hk : ((O.withVals vals).elem i).kind with
      | ind => exact absurd hk this
      | cap => rfl
      | jj => rfl
    rw [this]
    ext i j; simp
  · rw [h3]
    have : junctionEdges (O.withVals vals) (oneEdge ids) = [(0, 1)] := by
      unfold junctionEdges oneEdge
      have e : (ids.any fun i => decide (((O.withVals vals).elem i).kind = Kind.jj)) = true := hany
      simp [List.filter_cons, e]
    rw [this]
    rfl
  · rw [traverse_numJ ha']
    unfold bareJunctionEdges oneEdge
    have e : (ids.any fun i => decide (((O.withVals vals).elem i).kind = Kind.jj)) = true := hany
    have e' : (ids.any fun i => decide (((O.withVals vals).elem i).kind = Kind.ind)) = false := hnone
    simp only [List.filter_cons, e, e', List.filter_nil]
    rfl

theorem totalCap_pos (hj : OnlyJunctions O ids) (hv : ParallelValues O ids vals) :
    0 < totalCap (O.withVals vals) ids := by
  unfold totalCap
  apply List.sum_pos
  · intro x hx
    obtain ⟨i, hi, rfl⟩ := List.mem_map.1 hx
    exact hv.1 i hi
  · obtain ⟨i, hi, -⟩ := hj.2
    intro h
    rw [List.map_eq_nil_iff] at h
    rw [h] at hi
    simp at hi

variable {torch : Bool} {fd : FluxDist} {h : LoopId → LoopObj} {lib : ∀ n, NumLib n} {sv : SvdFn}
  {argsort : ArgsortFn} {argmax : ∀ k, ArgmaxFn k} {draws : Draws}

theorem oe_good (hj : OnlyJunctions O ids)
    (hlib : ∀ n, ∀ C L : Matrix (Fin n) (Fin n) ℝ, C.PosDef → L.PosSemidef → LibSpec (lib n) C L)
    (hm : ∀ k, ArgmaxSpec (argmax k)) (hv : ParallelValues O ids vals) :
    GoodCircuit (parallelSpec torch fd O ids h lib sv argsort argmax draws) vals where
  noSelf := by
    intro p hp
    simp [parallelSpec, oneEdge] at hp
    subst hp; simp
  caps := by
    intro q hq
    simp [parallelSpec, placements, oneEdge] at hq
    obtain ⟨i, hi, rfl⟩ := hq
    exact hv.1 i hi
  inds := by
    intro q hq hk
    simp [parallelSpec, placements, oneEdge] at hq
    obtain ⟨i, hi, rfl⟩ := hq
    exact absurd hk (hj.1 i hi)
  ground := by
    intro n hn k hk
    have h1 : n = 1 := by
      have h' : numNodes (oneEdge ids) = .ok n := hn
      exact (Except.ok.inj h').symm
    subst h1
    obtain ⟨i, hi, -⟩ := hj.2
    have j1 : Joined (oneEdge ids) 1 0 := ⟨((0,1),ids), by simp [oneEdge], by
      simp [List.ne_nil_of_mem hi], by simp⟩
    interval_cases k
    · exact .refl
    · exact .single j1
  argmax := hm
  lib := by
    intro n a hn hta
    obtain ⟨-, a', ha', hC, hLm, -⟩ := oe_traverse (vals := vals) hj torch fd h
    have hn1 : n = 1 := by
      have h' : numNodes (oneEdge ids) = .ok n := hn
      exact (Except.ok.inj h').symm
    subst hn1
    have : a = a' := by
      have h' : traverse torch fd (O.withVals vals) 1 h (oneEdge ids) = .ok a := hta
      rw [ha'] at h'
      exact (Except.ok.inj h').symm
    subst this
    refine ⟨hlib 1 _ _ ?_ ?_, fx_gap _ _⟩
    · rw [hC]; exact fx_posdef (totalCap_pos hj hv)
    · rw [hLm]; exact PosSemidef.zero

theorem oe_facts (hj : OnlyJunctions O ids)
    (hlib : ∀ n, ∀ C L : Matrix (Fin n) (Fin n) ℝ, C.PosDef → L.PosSemidef → LibSpec (lib n) C L)
    (hsv : SvdSpec sv) (ha : ArgsortSpec argsort) (hm : ∀ k, ArgmaxSpec (argmax k))
    (hv : ParallelValues O ids vals) {b : Build}
    (hb : buildCirc (parallelSpec torch fd O ids h lib sv argsort argmax draws) vals = .ok b) :
    b.M.keep.length = 1 ∧ Aligned b.M ∧ b.n = 1 ∧ (∀ i, b.M.omega i = 0) ∧ (∀ q i, b.M.w q i = 1) ∧
    (∀ i j, b.M.cInv i j = (totalCap (O.withVals vals) ids)⁻¹) := by
  have hCpos := totalCap_pos hj hv
  obtain ⟨n, a, B, t, hn, htr, hB, ht, rfl⟩ := buildCirc_stages hb
  obtain ⟨-, a', ha', hC, hLm, hW, hJ⟩ := oe_traverse (vals := vals) hj torch fd h
  have hn1 : n = 1 := by
    have h' : numNodes (oneEdge ids) = .ok n := hn
    exact (Except.ok.inj h').symm
  subst hn1
  have haa : a = a' := by
    have h' : traverse torch fd (O.withVals vals) 1 h (oneEdge ids) = .ok a := htr
    rw [ha'] at h'
    exact (Except.ok.inj h').symm
  subst haa
  -- the transformed circuit
  have ht' : ∀ (W : List (List ℤ)), W = [[1]] → ∀ t : Trans W.length 1,
      transformHamil (lib 1) sv argsort (argmax _) draws 1 (Matrix.of fun _ _ => totalCap (O.withVals vals) ids) 0
        (arrayOf 1 W) 3 (initTrans (Matrix.of fun _ _ => totalCap (O.withVals vals) ids) 0 (arrayOf 1 W)) = some (.ok t) →
      (∀ i, t.omega i = 0) ∧ (∀ q i, t.w q i = 1) ∧ (∀ i j, t.cInv i j = (totalCap (O.withVals vals) ids)⁻¹) := by
    rintro _ rfl t ht
    have := one_result (sv := sv) (argsort := argsort) hsv ha (argmax _) draws 1 one_ne_zero (lib 1) hCpos hv.2
      (hlib 1 _ _ (fx_posdef hCpos) PosSemidef.zero) (arrayOf 1 [[1]]) (arrayOf_one _ rfl 0 0) 0
    have h2 := ht.symm.trans this
    have h3 : t = oneFinal (totalCap (O.withVals vals) ids) := by
      injection h2 with h2
      injection h2
    subst h3
    exact ⟨fun _ => rfl, fun _ _ => rfl, fun _ _ => rfl⟩
  have ht2 : transformHamil (lib 1) sv argsort (argmax _) draws a.numJunWithoutInd a.cMat a.lMat (arrayOf 1 a.wMat) 3
      (initTrans a.cMat a.lMat (arrayOf 1 a.wMat)) = some (.ok t) := ht
  rw [hJ, hC, hLm] at ht2
  obtain ⟨ho, hw, hcI⟩ := ht' a.wMat hW t ht2
  have hlen : a.wMat.length = 1 := by rw [hW]; rfl
  have h32 := (C32_uncoupled_removal t).2.2 torch
  have hget : ∀ i, (finishModes torch t).keep.get i = 0 := fun i => Subsingleton.elim _ _
  have hkeep : (finishModes torch t).keep.length = 1 := by
    cases torch with
    | true => rw [(C32_uncoupled_removal t).2.1.2]; simp
    | false =>
      have hmem : (0 : Fin 1) ∈ (finishModes false t).keep := by
        rw [(C32_uncoupled_removal t).1 (by omega)]
        exact ⟨⟨0, by omega⟩, by rw [hw]; exact one_ne_zero⟩
      have hpw := h32.1
      have hnd : (finishModes false t).keep.Nodup := hpw.imp (fun h => ne_of_lt h)
      have h1 := hnd.length_le_card
      have h2 := List.length_pos_of_mem hmem
      simp at h1
      omega
  refine ⟨hkeep, ?_, rfl, ?_, ?_, ?_⟩
  · intro i
    have : (i : ℕ) < (finishModes torch t).keep.length := i.2
    have h2 := ((finishModes torch t).keep.get i).2
    have h2' : (((finishModes torch t).keep.get i : Fin 1) : ℕ) = 0 := by omega
    have hi0 : (i : ℕ) = 0 := by omega
    exact h2'.trans hi0.symm
  · intro i
    exact (h32.2.1 i).trans (ho _)
  · intro q i
    exact (h32.2.2.1 q i).trans (hw _ _)
  · intro i j
    exact (h32.2.2.2 i j).1.trans (hcI _ _)

theorem filter_zipIdx {α β : Type*} (l : List α) (p : α → Bool) (f : α → β) (k : ℕ) :
    ((l.zipIdx k).filter (fun q => p q.1)).map (fun q => f q.1) = (l.filter p).map f := by
  induction l generalizing k with
  | nil => rfl
  | cons x l ih =>
    rw [List.zipIdx_cons, List.filter_cons, List.filter_cons]
    split
    · simp only [List.map_cons]
      rw [ih]
    · exact ih _

theorem oe_inductive (O : Objs) (ids : List ElemId) : inductivePlacements O (oneEdge ids) =
    (ids.filter (fun i => decide ((O.elem i).kind ≠ .cap))).map (fun i => ((0, 1), i)) := by
  unfold inductivePlacements placements oneEdge
  simp only [List.flatMap_cons, List.flatMap_nil, List.append_nil, List.filter_map, Function.comp_def]

theorem oe_juns (hj : OnlyJunctions O ids) {b : Build} (hs : NoSelfLoops (oneEdge ids))
    (hb : buildCirc (parallelSpec torch fd O ids h lib sv argsort argmax draws) vals = .ok b) :
    b.inds = [] ∧ b.juns.map (fun key => key.el) = ids.filter (fun i => decide ((O.elem i).kind = .jj)) := by
  obtain ⟨-, hin, hju, -⟩ := build_pairs hs hb
  have key : ∀ K : Kind, K ≠ .cap → ((numbered O (oneEdge ids)).filter (fun q => decide ((O.elem q.1.2).kind = K))).map
      (fun q => q.1.2) = ids.filter (fun i => decide ((O.elem i).kind = K)) := by
    intro K hK
    unfold numbered
    have := filter_zipIdx (inductivePlacements O (oneEdge ids)) (fun q => decide ((O.elem q.2).kind = K)) (fun q => q.2) 0
    rw [this, oe_inductive, List.filter_map, List.map_map, List.filter_filter]
    simp only [Function.comp_def, List.map_id']
    congr 1
    funext i
    by_cases h : (O.elem i).kind = K
    · simp [h, hK]
    · simp [h]
  constructor
  · have h2 := congrArg (List.map Prod.snd) hin
    rw [List.map_map, List.map_map] at h2
    have h3 : b.inds.map (fun k => k.el) = ids.filter (fun i => decide ((O.elem i).kind = .ind)) :=
      h2.trans (key .ind (by simp))
    rw [List.filter_eq_nil_iff.2 (by intro i hi; simpa using hj.1 i hi), List.map_eq_nil_iff] at h3
    exact h3
  · have h2 := congrArg (List.map Prod.snd) hju
    rw [List.map_map, List.map_map] at h2
    exact h2.trans (key .jj (by simp))

theorem onMode_conj {k : ℕ} (m : Fin k → ℕ) (i : Fin k) (A : Matrix (Fin (m i)) (Fin (m i)) ℂ) :
    (onMode m i A)ᴴ = onMode m i Aᴴ := by
  unfold onMode
  rw [tens_conjTranspose]
  congr 1
  funext j
  by_cases hji : j = i
  · subst hji; simp
  · simp [hji]

/-- C92: Any number of junctions and capacitors in parallel, in loops or not.  Whenever the circuit is
constructed, it has one mode, and its Hamiltonian is that of a single superconducting island: the charging energy
(2e)²(n - ng)²/2C of the total capacitance, minus E_J cos(φ + φ_ext) for each junction, where e^{iφ} adds one Cooper
pair and φ_ext is the external phase of the branch of the junction. -/
theorem C92_parallel (torch : Bool) (fd : FluxDist) (O : Objs) (ids : List ElemId) (hj : OnlyJunctions O ids)
    (h : LoopId → LoopObj) (lib : ∀ n, NumLib n)
    (hlib : ∀ n, ∀ C L : Matrix (Fin n) (Fin n) ℝ, C.PosDef → L.PosSemidef → LibSpec (lib n) C L)
    (sv : SvdFn) (hsv : SvdSpec sv) (argsort : ArgsortFn) (ha : ArgsortSpec argsort) (argmax : ∀ k, ArgmaxFn k)
    (hm : ∀ k, ArgmaxSpec (argmax k)) (draws : Draws) (vals : ElemId → ℝ) (hv : ParallelValues O ids vals) (b : Build)
    (hb : buildCirc (parallelSpec torch fd O ids h lib sv argsort argmax draws) vals = .ok b) :
    b.M.keep.length = 1 ∧
    b.juns.map (fun key => key.el) = ids.filter (fun i => decide ((O.elem i).kind = .jj)) ∧
    ∀ (flux : LoopId → ℝ) (m : Fin b.M.keep.length → ℕ) (ng : Fin b.M.keep.length → ℝ) (i : Fin b.M.keep.length),
      fullHamiltonian b.C b.M m ng vals (b.fluxes flux) b.inds b.juns =
        .ok (charging m i (totalCap (O.withVals vals) ids) (ng i) -
          (b.juns.map (fun key => (vals key.el : ℂ) • chargeCos m i (b.fluxes flux key.bId))).sum) := by
  have hgood : GoodCircuit (parallelSpec torch fd O ids h lib sv argsort argmax draws) vals :=
    oe_good hj hlib hm hv
  obtain ⟨hk, hal, -, hom, hw, hcI⟩ := oe_facts hj hlib hsv ha hm hv hb
  obtain ⟨hin, hju⟩ := oe_juns hj hgood.noSelf hb
  refine ⟨hk, hju, ?_⟩
  intro flux m ng i
  have hi0 : ∀ j : Fin b.M.keep.length, j = i := fun j => Fin.ext (by omega)
  have h70 := C70_circuit_partial _ _ hgood b hb hal 1 one_ne_zero flux ng m
    (fun i j hij => absurd (hi0 i) (by rw [hi0 j] at hij; exact hij.ne))
  rw [h70]
  congr 1
  rw [hin]
  have hhd : (b.descrip 1 vals flux ng).harDim = 0 := by
    change (Finset.univ.filter (fun i => b.M.omega i ≠ 0)).card = 0
    rw [Finset.card_eq_zero, Finset.filter_eq_empty_iff]
    intro j _
    simpa using hom j
  have hi : (i : ℕ) = 0 := by omega
  have hjj : evalSum (b.descrip 1 vals flux ng) 1 m (jjTerms (b.descrip 1 vals flux ng) b.juns) =
      - (b.juns.map (fun key => (vals key.el : ℂ) • chargeCos m i (b.fluxes flux key.bId))).sum := by
    have hmap : (jjTerms (b.descrip 1 vals flux ng) b.juns).map (evalSym (b.descrip 1 vals flux ng) 1 m) =
        b.juns.map (fun key => - ((vals key.el : ℂ) • chargeCos m i (b.fluxes flux key.bId))) := by
      unfold jjTerms
      apply List.ext_getElem
      · simp
      · intro p hp1 hp2
        rw [List.getElem_map, List.getElem_map, List.getElem_map, List.getElem_zipIdx]
        simp only [evalSym, zero_add]
        have hlist : listed (b.descrip 1 vals flux ng).EJ p = vals (b.juns[p]'(by simpa using hp2)).el / (2 * π * 1) := by
          change listed (b.juns.map _) p = _
          refine listed_map b.juns _ (x := b.juns[p]'(by simpa using hp2)) (List.getElem?_eq_getElem _) ?_
          simp only [jjHz]
        have hmp : modePhase (b.descrip 1 vals flux ng) m
            ((b.descrip 1 vals flux ng).W (b.juns[p]'(by simpa using hp2)).wId) i = chargeRaise (m i) := by
          unfold modePhase chargeRaise
          rw [if_neg (by rw [hhd]; omega)]
          ext x y
          simp only [of_apply]
          have hw1 : (b.descrip 1 vals flux ng).W (b.juns[p]'(by simpa using hp2)).wId i = 1 := hw _ _
          rw [hw1]
          congr 1
          rw [eq_iff_iff]
          exact_mod_cast Iff.rfl
        have hext : extPhase (b.descrip 1 vals flux ng)
            ((b.descrip 1 vals flux ng).B (b.juns[p]'(by simpa using hp2)).bId) =
            b.fluxes flux (b.juns[p]'(by simpa using hp2)).bId := extPhase_eq ..
        have hpi := Real.pi_pos
        rw [tens_single hk m _ i, hmp, hext, hlist,
          show 2 * π * 1 * (vals (b.juns[p]'(by simpa using hp2)).el / (2 * π * 1)) =
            vals (b.juns[p]'(by simpa using hp2)).el by field_simp]
        unfold chargeCos
        simp only [smul_mul_assoc, one_mul, neg_mul]
    unfold evalSum
    rw [hmap]
    generalize b.juns = l
    induction l with
    | nil => simp
    | cons x l ih => rw [List.map_cons, List.sum_cons, ih, List.map_cons, List.sum_cons, neg_add]
  have hch : evalSum (b.descrip 1 vals flux ng) 1 m (chargeModeTerms (b.descrip 1 vals flux ng)) =
      charging m i (totalCap (O.withVals vals) ids) (ng i) := by
    unfold evalSum chargeModeTerms
    rw [finRange_one _ hk i, hhd]
    have hEC : 2 * π * 1 * (b.descrip 1 vals flux ng).EC i i =
        (2 * eCharge) ^ 2 / (2 * totalCap (O.withVals vals) ids) / hbar := by
      change 2 * π * 1 * (((2 * eCharge) ^ 2 / (hbar * 2 * π * 1)) * (quadCInv b.M.cInv i i)) = _
      have hpi := Real.pi_pos
      have hh := hbar_pos
      have hC := totalCap_pos hj hv
      unfold quadCInv
      rw [of_apply, if_pos rfl, hcI]
      field_simp
    simp only [zero_le, decide_true, List.filter_cons, if_true, List.filter_nil, List.flatMap_cons, List.flatMap_nil,
      List.append_nil, le_refl, List.map_cons, List.map_nil, List.sum_cons, List.sum_nil, add_zero, evalSym]
    rw [hEC]
    unfold charging
    simp only [smul_mul_assoc, one_mul]
    rfl
  have hsplit : evalSum (b.descrip 1 vals flux ng) 1 m (constructHamiltonian (b.descrip 1 vals flux ng) [] b.juns) =
      evalSum (b.descrip 1 vals flux ng) 1 m (chargeModeTerms (b.descrip 1 vals flux ng)) +
      evalSum (b.descrip 1 vals flux ng) 1 m (jjTerms (b.descrip 1 vals flux ng) b.juns) := by
    have h0 : harModeTerms (b.descrip 1 vals flux ng) = [] := by
      unfold harModeTerms
      rw [hhd]
      simp
    unfold constructHamiltonian evalSum
    rw [h0]
    simp [inductiveTerms]
  rw [hsplit, hch, hjj, sub_eq_add_neg]

/-- the constructor accepts the circuit as soon as the flux distribution exists -/
theorem oe_build (hj : OnlyJunctions O ids)
    (hlib : ∀ n, ∀ C L : Matrix (Fin n) (Fin n) ℝ, C.PosDef → L.PosSemidef → LibSpec (lib n) C L)
    (hsv : SvdSpec sv) (ha : ArgsortSpec argsort) (hm : ∀ k, ArgmaxSpec (argmax k))
    (hv : ParallelValues O ids vals) {a : Acc 1} {B : _}
    (htr : traverse torch fd (O.withVals vals) 1 h (oneEdge ids) = .ok a)
    (hB : fluxMatrix sv 1 a.st.kMat a.st.cEdge (a.st.loops.map a.st.loopHeap) = .ok B) :
    ∃ b, buildCirc (parallelSpec torch fd O ids h lib sv argsort argmax draws) vals = .ok b := by
  have hCpos := totalCap_pos hj hv
  obtain ⟨-, a', ha', hC, hLm, hW, hJ⟩ := oe_traverse (vals := vals) hj torch fd h
  have haa : a = a' := by
    rw [ha'] at htr
    exact (Except.ok.inj htr).symm
  subst haa
  have ht' : ∀ (W : List (List ℤ)), W = [[1]] → ∃ t,
      transformHamil (lib 1) sv argsort (argmax W.length) draws 1 (Matrix.of fun _ _ => totalCap (O.withVals vals) ids) 0
        (arrayOf 1 W) 3 (initTrans (Matrix.of fun _ _ => totalCap (O.withVals vals) ids) 0 (arrayOf 1 W)) = some (.ok t) := by
    rintro _ rfl
    exact ⟨_, one_result (sv := sv) (argsort := argsort) hsv ha (argmax _) draws 1 one_ne_zero (lib 1) hCpos hv.2
      (hlib 1 _ _ (fx_posdef hCpos) PosSemidef.zero) (arrayOf 1 [[1]]) (arrayOf_one _ rfl 0 0) 0⟩
  obtain ⟨t, ht⟩ := ht' a.wMat hW
  have ht : transformHamil (lib 1) sv argsort (argmax a.wMat.length) draws a.numJunWithoutInd a.cMat a.lMat
      (arrayOf 1 a.wMat) 3 (initTrans a.cMat a.lMat (arrayOf 1 a.wMat)) = some (.ok t) := by
    rw [hJ, hC, hLm]
    exact ht
  unfold buildCirc
  have hn : numNodes (parallelSpec torch fd O ids h lib sv argsort argmax draws).els = .ok 1 := rfl
  rw [hn]
  simp only
  have htr' : traverse (parallelSpec torch fd O ids h lib sv argsort argmax draws).torch
    (parallelSpec torch fd O ids h lib sv argsort argmax draws).fd
    ((parallelSpec torch fd O ids h lib sv argsort argmax draws).O.withVals vals) 1
    (parallelSpec torch fd O ids h lib sv argsort argmax draws).h
    (parallelSpec torch fd O ids h lib sv argsort argmax draws).els = .ok a := htr
  rw [buildWith_eq, htr']
  simp only
  unfold afterTraverse afterFields
  have hB' : fluxMatrix (parallelSpec torch fd O ids h lib sv argsort argmax draws).sv 1 a.st.kMat a.st.cEdge
    (a.st.loops.map a.st.loopHeap) = .ok B := hB
  rw [hB']
  simp only
  have hdet : det a.cMat ≠ 0 := by
    rw [hC]
    exact (fx_posdef hCpos).det_pos.ne'
  rw [if_neg hdet]
  have ht2 : transformHamil ((parallelSpec torch fd O ids h lib sv argsort argmax draws).lib 1)
      (parallelSpec torch fd O ids h lib sv argsort argmax draws).sv
      (parallelSpec torch fd O ids h lib sv argsort argmax draws).argsort
      ((parallelSpec torch fd O ids h lib sv argsort argmax draws).argmax a.wMat.length)
      (parallelSpec torch fd O ids h lib sv argsort argmax draws).draws a.numJunWithoutInd a.cMat a.lMat (arrayOf 1 a.wMat)
      (parallelSpec torch fd O ids h lib sv argsort argmax draws).fuel
      (initTrans a.cMat a.lMat (arrayOf 1 a.wMat)) = some (.ok t) := ht
  rw [ht2]
  exact ⟨_, rfl⟩

/-- C92 (transmon, Cooper pair box): without loops the constructor accepts the circuit, and the Hamiltonian is
(2e)²(n - ng)²/2C - Σ E_J cos φ. -/
theorem C92_transmon (torch : Bool) (fd : FluxDist) (O : Objs) (ids : List ElemId) (hj : OnlyJunctions O ids)
    (hnl : ∀ i ∈ ids, (O.elem i).loops = [])
    (h : LoopId → LoopObj) (lib : ∀ n, NumLib n)
    (hlib : ∀ n, ∀ C L : Matrix (Fin n) (Fin n) ℝ, C.PosDef → L.PosSemidef → LibSpec (lib n) C L)
    (sv : SvdFn) (hsv : SvdSpec sv) (argsort : ArgsortFn) (ha : ArgsortSpec argsort) (argmax : ∀ k, ArgmaxFn k)
    (hm : ∀ k, ArgmaxSpec (argmax k)) (draws : Draws) (vals : ElemId → ℝ) (hv : ParallelValues O ids vals) :
    ∃ b, buildCirc (parallelSpec torch fd O ids h lib sv argsort argmax draws) vals = .ok b ∧
      b.M.keep.length = 1 ∧ b.loops = [] ∧
      ∀ (flux : LoopId → ℝ) (m : Fin b.M.keep.length → ℕ) (ng : Fin b.M.keep.length → ℝ) (i : Fin b.M.keep.length),
        fullHamiltonian b.C b.M m ng vals (b.fluxes flux) b.inds b.juns =
          .ok (charging m i (totalCap (O.withVals vals) ids) (ng i) -
            (((ids.filter (fun i => decide ((O.elem i).kind = .jj))).map vals).sum : ℂ) • chargeCos m i 0) := by
  obtain ⟨-, a, htr, -⟩ := oe_traverse (vals := vals) hj torch fd h
  have hlu : loopUses O (oneEdge ids) = [] := by
    unfold loopUses
    rw [List.flatMap_eq_nil_iff]
    intro q hq
    have hq2 : q.1 ∈ inductivePlacements O (oneEdge ids) := by
      have := List.mem_map_of_mem (f := Prod.fst) hq
      simpa [numbered] using this
    rw [oe_inductive] at hq2
    obtain ⟨i, hi, hqi⟩ := List.mem_map.1 hq2
    have : q.1.2 = i := by rw [← hqi]
    rw [this, hnl i (List.mem_of_mem_filter hi)]
    rfl
  have hl0 : a.st.loops = [] := by
    obtain ⟨l1, -⟩ := C19_loop_membership torch fd (O.withVals vals) 1 h _ (oe_valid ids) a htr
    have : loopUses (O.withVals vals) (oneEdge ids) = [] := hlu
    rw [l1, this]
    rfl
  have hf : fluxMatrix sv 1 a.st.kMat a.st.cEdge (a.st.loops.map a.st.loopHeap) = .ok none := by
    rw [hl0]
    unfold fluxMatrix
    simp [loopRows]
  obtain ⟨b, hb⟩ := oe_build (draws := draws) hj hlib hsv ha hm hv htr hf
  obtain ⟨hk, hju, hH⟩ := C92_parallel torch fd O ids hj h lib hlib sv hsv argsort ha argmax hm draws vals hv b hb
  have hlo : b.loops = [] := by
    obtain ⟨-, -, -, hl⟩ := build_pairs (oe_good (sv := sv) (argsort := argsort) (h := h) (torch := torch) (fd := fd)
      (draws := draws) hj hlib hm hv).noSelf hb
    rw [hl]
    change firstUses ((loopUses O (oneEdge ids)).map Prod.fst) = []
    rw [hlu]; rfl
  refine ⟨b, hb, hk, hlo, ?_⟩
  intro flux m ng i
  rw [hH flux m ng i]
  congr 2
  have hz : ∀ q, b.fluxes flux q = 0 := by
    intro q
    unfold Build.fluxes
    rw [extFlux_sum]
    apply Finset.sum_eq_zero
    intro l _
    have h1 := l.2
    have h2 : b.loops.length = 0 := by rw [hlo]; rfl
    omega
  simp only [hz]
  rw [← hju, List.map_map]
  generalize b.juns = l
  induction l with
  | nil => simp
  | cons x l ih =>
    simp only [List.map_cons, List.sum_cons, ih, Function.comp_apply]
    push_cast
    rw [add_smul]

theorem pair_keys {K : Type*} {l : List K} {f : K → ℕ × ElemId} {p q : ℕ × ElemId} (h : l.map f = [p, q]) :
    ∃ k k', l = [k, k'] ∧ f k = p ∧ f k' = q := by
  match l, h with
  | [k, k'], h =>
    simp only [List.map_cons, List.map_nil, List.cons.injEq, and_true] at h
    exact ⟨k, k', rfl, h.1, h.2⟩

/-- share of the flux of a two-junction loop on the junction listed first (the other has the opposite sign) -/
noncomputable def fluxShare (O : Objs) (fd : FluxDist) (i j : ElemId) : ℝ :=
  fluxCap O fd j / (fluxCap O fd i + fluxCap O fd j)

/-- C92 (SQUID, split transmon): two junctions in a loop, and any capacitors, in parallel.  The constructor
accepts the circuit, and the Hamiltonian is
(2e)²(n - ng)²/2C - E_J1 cos(φ + β₁ φ_ext) - E_J2 cos(φ - β₂ φ_ext), the shares β₁, β₂ of the flux being
C₂/(C₁+C₂) and C₁/(C₁+C₂), rounded to five digits, for the capacitances that the chosen flux distribution ascribes to
the two junctions. -/
theorem C92_squid (torch : Bool) (fd : FluxDist) (O : Objs) (ids : List ElemId) (i j : ElemId) (l : LoopId)
    (hij : ids.filter (fun i => decide ((O.elem i).kind ≠ .cap)) = [i, j])
    (hki : (O.elem i).kind = .jj) (hkj : (O.elem j).kind = .jj)
    (hli : (O.elem i).loops = [l]) (hlj : (O.elem j).loops = [l])
    (h : LoopId → LoopObj) (lib : ∀ n, NumLib n)
    (hlib : ∀ n, ∀ C L : Matrix (Fin n) (Fin n) ℝ, C.PosDef → L.PosSemidef → LibSpec (lib n) C L)
    (sv : SvdFn) (hsv : SvdSpec sv) (argsort : ArgsortFn) (ha : ArgsortSpec argsort) (argmax : ∀ k, ArgmaxFn k)
    (hm : ∀ k, ArgmaxSpec (argmax k)) (draws : Draws) (vals : ElemId → ℝ) (hv : ParallelValues O ids vals) :
    ∃ b, buildCirc (parallelSpec torch fd O ids h lib sv argsort argmax draws) vals = .ok b ∧
      b.M.keep.length = 1 ∧ b.loops = [l] ∧
      ∀ (flux : LoopId → ℝ) (m : Fin b.M.keep.length → ℕ) (ng : Fin b.M.keep.length → ℝ) (p : Fin b.M.keep.length),
        fullHamiltonian b.C b.M m ng vals (b.fluxes flux) b.inds b.juns =
          .ok (charging m p (totalCap (O.withVals vals) ids) (ng p) -
            ((vals i : ℂ) • chargeCos m p (round5 (fluxShare (O.withVals vals) fd i j) * flux l) +
             (vals j : ℂ) • chargeCos m p (round5 (- fluxShare (O.withVals vals) fd j i) * flux l))) := by
  have hmi : i ∈ ids := List.mem_of_mem_filter (p := fun i => decide ((O.elem i).kind ≠ .cap)) (by rw [hij]; simp)
  have hmj : j ∈ ids := List.mem_of_mem_filter (p := fun i => decide ((O.elem i).kind ≠ .cap)) (by rw [hij]; simp)
  have hj : OnlyJunctions O ids := by
    refine ⟨?_, i, hmi, hki⟩
    intro x hx hk
    have : x ∈ ids.filter (fun i => decide ((O.elem i).kind ≠ .cap)) := by
      rw [List.mem_filter]
      exact ⟨hx, by simp [hk]⟩
    rw [hij] at this
    simp at this
    rcases this with rfl | rfl
    · rw [hki] at hk; cases hk
    · rw [hkj] at hk; cases hk
  have hci : 0 < fluxCap (O.withVals vals) fd i := by
    have hp : 0 < placedCap (O.withVals vals) i := hv.1 i hmi
    have hk : ((O.withVals vals).elem i).kind = .jj := hki
    unfold placedCap at hp
    rw [hk] at hp
    unfold fluxCap
    rw [hk]
    cases fd
    · exact hp
    · norm_num
    · norm_num
  have hcj : 0 < fluxCap (O.withVals vals) fd j := by
    have hp : 0 < placedCap (O.withVals vals) j := hv.1 j hmj
    have hk : ((O.withVals vals).elem j).kind = .jj := hkj
    unfold placedCap at hp
    rw [hk] at hp
    unfold fluxCap
    rw [hk]
    cases fd
    · exact hp
    · norm_num
    · norm_num
  have hip : inductivePlacements O (oneEdge ids) = [((0, 1), i), ((0, 1), j)] := by
    rw [oe_inductive, hij]; rfl
  obtain ⟨a, B, hL, hkl, hloops, hBv⟩ := C23_two_branch_loop sv hsv torch fd (O.withVals vals) 1 h (oneEdge ids)
    (oe_valid ids) (by
      intro p hp x hx hk
      simp [oneEdge] at hp
      subst hp
      exact absurd hk (hj.1 x hx)) (0, 1) i j l hip hli hlj (by positivity)
  have hst : traverse torch fd (O.withVals vals) 1 h (oneEdge ids) = .ok a ∧
      fluxMatrix sv 1 a.st.kMat a.st.cEdge (a.st.loops.map a.st.loopHeap) = .ok (some B) := by
    unfold getLCWB at hL
    split at hL
    · cases hL
    · rename_i a0 ha0
      split at hL
      · cases hL
      · rename_i B0 hB0
        simp only [Except.ok.injEq, Sigma.mk.injEq] at hL
        obtain ⟨rfl, hL⟩ := hL
        have hL := eq_of_heq hL
        subst hL
        exact ⟨ha0, hB0⟩
  obtain ⟨b, hb⟩ := oe_build (draws := draws) (lib := lib) (argmax := argmax) hj hlib hsv ha hm hv hst.1 hst.2
  obtain ⟨hk, -, hH⟩ := C92_parallel torch fd O ids hj h lib hlib sv hsv argsort ha argmax hm draws vals hv b hb
  have hgood := (oe_good (sv := sv) (argsort := argsort) (h := h) (torch := torch) (fd := fd)
      (draws := draws) hj hlib hm hv)
  obtain ⟨-, -, hju, hlo⟩ := build_pairs hgood.noSelf hb
  have hnum : numbered O (oneEdge ids) = [(((0, 1), i), 0), (((0, 1), j), 1)] := by
    unfold numbered; rw [hip]; rfl
  have hjp : b.juns.map (fun k => ((k.bId : ℕ), k.el)) = [(0, i), (1, j)] := by
    rw [hju]
    change ((numbered O (oneEdge ids)).filter (fun q => decide ((O.elem q.1.2).kind = .jj))).map _ = _
    rw [hnum]
    simp [hki, hkj]
  obtain ⟨k1, k2, hkk, e1, e2⟩ := pair_keys hjp
  have hbl : b.loops = [l] := by
    rw [hlo]
    change firstUses ((loopUses O (oneEdge ids)).map Prod.fst) = [l]
    unfold loopUses
    rw [hnum]
    simp [hli, hlj, firstUses]
  refine ⟨b, hb, hk, hbl, ?_⟩
  have hB : ∀ q l', b.B q l' = if (q : ℕ) = 0 then round5 (fluxShare (O.withVals vals) fd i j)
      else round5 (- fluxShare (O.withVals vals) fd j i) := by
    obtain ⟨n, a', B', t, hn, htr, hB', ht, rfl⟩ := buildCirc_stages hb
    have hn1 : n = 1 := by
      have h' : numNodes (oneEdge ids) = .ok n := hn
      exact (Except.ok.inj h').symm
    subst hn1
    have haa : a' = a := by
      have h' : traverse torch fd (O.withVals vals) 1 h (oneEdge ids) = .ok a' := htr
      rw [hst.1] at h'
      exact (Except.ok.inj h').symm
    subst haa
    have hB2 : fluxMatrix sv 1 a'.st.kMat a'.st.cEdge (a'.st.loops.map a'.st.loopHeap) = .ok B' := hB'
    rw [hst.2] at hB2
    have := Except.ok.inj hB2
    subst this
    intro q l'
    refine (hBv q _).trans ?_
    unfold fluxShare
    split
    · rfl
    · rw [neg_div, add_comm]
  intro flux m ng p
  rw [hH flux m ng p, hkk]
  have hf : ∀ q, b.fluxes flux q = (if (q : ℕ) = 0 then round5 (fluxShare (O.withVals vals) fd i j)
      else round5 (- fluxShare (O.withVals vals) fd j i)) * flux l := by
    intro q
    unfold Build.fluxes
    rw [extFlux_sum]
    simp only [hB]
    have key : ∀ ls : List LoopId, ls = [l] → ∀ x : ℝ, ∑ l' : Fin ls.length, flux (ls.get l') * x = x * flux l := by
      rintro _ rfl x
      simp [mul_comm]
    exact key _ hbl _
  have h1 := Prod.ext_iff.1 e1
  have h2 := Prod.ext_iff.1 e2
  simp only at h1 h2
  simp only [List.map_cons, List.map_nil, List.sum_cons, List.sum_nil, add_zero, hf, h1.1, h1.2, h2.1, h2.2, if_true,
    one_ne_zero, if_false]

/-- e^{ix}T + h.c. at opposite phases: the effective Josephson energy of a SQUID -/
theorem chargeCos_pair {k : ℕ} (m : Fin k → ℕ) (i : Fin k) (x : ℝ) :
    chargeCos m i x + chargeCos m i (-x) = ((2 * Real.cos x : ℝ) : ℂ) • chargeCos m i 0 := by
  unfold chargeCos
  have hc : (2 * Real.cos x : ℝ) = (Complex.exp (Complex.I * x) + Complex.exp (Complex.I * ((-x : ℝ) : ℂ))) := by
    push_cast
    rw [Complex.cos]
    have : Complex.I * -(x : ℂ) = -(x : ℂ) * Complex.I := by ring
    rw [this, mul_comm Complex.I]
    ring
  have e1 : (starRingEnd ℂ) (Complex.exp (Complex.I * x)) = Complex.exp (Complex.I * ((-x : ℝ) : ℂ)) := by
    rw [← Complex.exp_conj]
    simp
  have e2 : (starRingEnd ℂ) (Complex.exp (Complex.I * ((-x : ℝ) : ℂ))) = Complex.exp (Complex.I * x) := by
    rw [← Complex.exp_conj]
    simp
  rw [hc]
  simp only [conjTranspose_smul, Complex.star_def, e1, e2, Complex.ofReal_zero, mul_zero, Complex.exp_zero, one_smul, star_one, map_one]
  generalize Complex.exp (Complex.I * x) = a
  generalize Complex.exp (Complex.I * ((-x : ℝ) : ℂ)) = c
  module

theorem round5_half : round5 (1 / 2) = 1 / 2 ∧ round5 (-(1 / 2)) = -(1 / 2) := by
  have e1 : rint (1 / 2 * 1e5) = 50000 := rint_eq (by norm_num)
  have e2 : rint (-(1 / 2) * 1e5) = -50000 := rint_eq (by norm_num)
  unfold round5
  rw [e1, e2]
  constructor <;> norm_num

/-- C92 (symmetric SQUID): with the flux on the junctions (or on the inductors, of which there are none), two equal
junctions act as one junction of energy 2 E_J cos(φ_ext/2). -/
theorem C92_symmetric_squid (torch : Bool) (fd : FluxDist) (hfd : fd ≠ .all) (O : Objs) (ids : List ElemId)
    (i j : ElemId) (l : LoopId)
    (hij : ids.filter (fun i => decide ((O.elem i).kind ≠ .cap)) = [i, j])
    (hki : (O.elem i).kind = .jj) (hkj : (O.elem j).kind = .jj)
    (hli : (O.elem i).loops = [l]) (hlj : (O.elem j).loops = [l])
    (h : LoopId → LoopObj) (lib : ∀ n, NumLib n)
    (hlib : ∀ n, ∀ C L : Matrix (Fin n) (Fin n) ℝ, C.PosDef → L.PosSemidef → LibSpec (lib n) C L)
    (sv : SvdFn) (hsv : SvdSpec sv) (argsort : ArgsortFn) (ha : ArgsortSpec argsort) (argmax : ∀ k, ArgmaxFn k)
    (hm : ∀ k, ArgmaxSpec (argmax k)) (draws : Draws) (vals : ElemId → ℝ) (hv : ParallelValues O ids vals)
    (heq : vals i = vals j) :
    ∃ b, buildCirc (parallelSpec torch fd O ids h lib sv argsort argmax draws) vals = .ok b ∧
      b.M.keep.length = 1 ∧
      ∀ (flux : LoopId → ℝ) (m : Fin b.M.keep.length → ℕ) (ng : Fin b.M.keep.length → ℝ) (p : Fin b.M.keep.length),
        fullHamiltonian b.C b.M m ng vals (b.fluxes flux) b.inds b.juns =
          .ok (charging m p (totalCap (O.withVals vals) ids) (ng p) -
            ((2 * vals i * Real.cos (flux l / 2) : ℝ) : ℂ) • chargeCos m p 0) := by
  obtain ⟨b, hb, hk, -, hH⟩ := C92_squid torch fd O ids i j l hij hki hkj hli hlj h lib hlib sv hsv argsort ha argmax hm
    draws vals hv
  refine ⟨b, hb, hk, ?_⟩
  intro flux m ng p
  rw [hH flux m ng p]
  have hk1 : ((O.withVals vals).elem i).kind = .jj := hki
  have hk2 : ((O.withVals vals).elem j).kind = .jj := hkj
  have hs1 : fluxShare (O.withVals vals) fd i j = 1 / 2 := by
    unfold fluxShare fluxCap
    rw [hk1, hk2]
    cases fd
    · exact absurd rfl hfd
    · norm_num
    · norm_num
  have hs2 : fluxShare (O.withVals vals) fd j i = 1 / 2 := by
    unfold fluxShare fluxCap
    rw [hk1, hk2]
    cases fd
    · exact absurd rfl hfd
    · norm_num
    · norm_num
  rw [hs1, hs2, round5_half.1, round5_half.2, heq, ← smul_add,
    show 1 / 2 * flux l = flux l / 2 by ring, show -(1 / 2) * flux l = -(flux l / 2) by ring, chargeCos_pair, smul_smul]
  congr 3
  push_cast
  ring

/-- sessions with such circuits: the current Hamiltonian is that of a freshly built circuit -/
theorem oe_session (hj : OnlyJunctions O ids) (hcaps : CapsOK O)
    (hlib : ∀ n, ∀ C L : Matrix (Fin n) (Fin n) ℝ, C.PosDef → L.PosSemidef → LibSpec (lib n) C L)
    (hsv : SvdSpec sv) (ha : ArgsortSpec argsort) (hm : ∀ k, ArgmaxSpec (argmax k)) {eigs as}
    (hv : ParallelValues O ids vals) {flux : LoopId → ℝ} {u : ℝ}
    {w0 : World (circPhys (parallelSpec torch fd O ids h lib sv argsort argmax draws) eigs as)}
    (hw : construct (circPhys (parallelSpec torch fd O ids h lib sv argsort argmax draws) eigs as) vals flux u = .ok w0)
    (hist : List Act) (hord : Orderly w0 hist)
    (hupd : ∀ h1 h2, hist = h1 ++ .update :: h2 → ParallelValues O ids (run w0 h1).vals) :
    let w := run w0 hist
    (∀ i, (O.elem i).kind ≠ .jj → w.vals i = lastBuilt vals w0 hist i) → w.circ.m ≠ [] →
      ∃ b, buildCirc (parallelSpec torch fd O ids h lib sv argsort argmax draws) w.vals = .ok b ∧
        (hamiltonian w).1 = (fullHamiltonian b.C b.M (b.dims w.circ.m)
          (fun i => (w.circ.ng i).getD 0) w.vals (b.fluxes w.flux) b.inds b.juns).map
            (fun H => (⟨_, _, H⟩ : Σ (k : ℕ) (d : Fin k → ℕ), Op d)) := by
  intro w hlast hm0
  refine C48_circuit (c := parallelSpec torch fd O ids h lib sv argsort argmax draws) (eigs := eigs) (as := as) hcaps vals
    flux u w0 hw hist hord ?_ hlast hm0
  intro h1 h2 he
  right
  have hb0 : buildCirc (parallelSpec torch fd O ids h lib sv argsort argmax draws) vals = .ok w0.circ.bd :=
    (construct_build hw).1
  refine ⟨?_, ?_⟩
  · have : w0.circ.bd.k = 1 := (oe_facts hj hlib hsv ha hm hv hb0).1
    rw [this]
    rfl
  · intro b' hb'
    have := oe_facts hj hlib hsv ha hm (hupd h1 h2 he) hb'
    exact this.1.trans this.2.2.1.symm

/-- C92 for sessions (transmon): the circuit is constructed, and after any orderly sequence of calls (value, charge
offset and truncation changes, updates, diagonalisations, …) in which the capacitances were admissible at each
`update` and not changed since, `hamiltonian()` is the transmon Hamiltonian for the current capacitance, Josephson
energies and charge offset. -/
theorem C92_session (torch : Bool) (fd : FluxDist) (O : Objs) (ids : List ElemId) (hj : OnlyJunctions O ids)
    (hcaps : CapsOK O) (hnl : ∀ i ∈ ids, (O.elem i).loops = [])
    (h : LoopId → LoopObj) (lib : ∀ n, NumLib n)
    (hlib : ∀ n, ∀ C L : Matrix (Fin n) (Fin n) ℝ, C.PosDef → L.PosSemidef → LibSpec (lib n) C L)
    (sv : SvdFn) (hsv : SvdSpec sv) (argsort : ArgsortFn) (ha : ArgsortSpec argsort) (argmax : ∀ k, ArgmaxFn k)
    (hm : ∀ k, ArgmaxSpec (argmax k)) (draws : Draws) (eigs as) (vals : ElemId → ℝ) (hv : ParallelValues O ids vals)
    (flux : LoopId → ℝ) (u : ℝ) :
    ∃ w0, construct (circPhys (parallelSpec torch fd O ids h lib sv argsort argmax draws) eigs as) vals flux u = .ok w0 ∧
      ∀ hist : List Act, Orderly w0 hist →
        (∀ h1 h2, hist = h1 ++ .update :: h2 → ParallelValues O ids (run w0 h1).vals) →
        let w := run w0 hist
        (∀ i, (O.elem i).kind ≠ .jj → w.vals i = lastBuilt vals w0 hist i) → ParallelValues O ids w.vals →
        w.circ.m ≠ [] →
        ∃ (k : ℕ) (d : Fin k → ℕ), k = 1 ∧ (∀ i, d i = (w.circ.m.getD i 0).toNat) ∧
          ∀ p : Fin k, (hamiltonian w).1 = .ok ⟨k, d,
            charging d p (totalCap (O.withVals w.vals) ids) ((w.circ.ng p).getD 0) -
              (((ids.filter (fun i => decide ((O.elem i).kind = .jj))).map w.vals).sum : ℂ) • chargeCos d p 0⟩ := by
  obtain ⟨b, hb, hk, -⟩ := C92_transmon torch fd O ids hj hnl h lib hlib sv hsv argsort ha argmax hm draws vals hv
  have hcon : ∃ w0, construct (circPhys (parallelSpec torch fd O ids h lib sv argsort argmax draws) eigs as) vals flux u =
      .ok w0 := by
    have hb' : (circPhys (parallelSpec torch fd O ids h lib sv argsort argmax draws) eigs as).build vals = .ok b := hb
    unfold construct
    rw [hb']
    exact ⟨_, rfl⟩
  obtain ⟨w0, hw⟩ := hcon
  refine ⟨w0, hw, ?_⟩
  intro hist hord hupd w hlast hval hm0
  obtain ⟨b', hb', hham⟩ := oe_session hj hcaps hlib hsv ha hm hv hw hist hord hupd hlast hm0
  obtain ⟨b'', hb'', hk', -, hH⟩ := C92_transmon torch fd O ids hj hnl h lib hlib sv hsv argsort ha argmax hm draws w.vals
    hval
  have : b' = b'' := by
    have hb3 : buildCirc (parallelSpec torch fd O ids h lib sv argsort argmax draws) w.vals = .ok b' := hb'
    rw [hb''] at hb3
    exact (Except.ok.inj hb3).symm
  subst this
  refine ⟨_, b'.dims w.circ.m, hk', fun _ => rfl, ?_⟩
  intro p
  rw [hham, hH w.flux _ _ p]
  rfl

/-- C92 for sessions (SQUID): likewise with two junctions in a loop, for the current external flux. -/
theorem C92_squid_session (torch : Bool) (fd : FluxDist) (O : Objs) (ids : List ElemId) (i j : ElemId) (l : LoopId)
    (hij : ids.filter (fun i => decide ((O.elem i).kind ≠ .cap)) = [i, j])
    (hki : (O.elem i).kind = .jj) (hkj : (O.elem j).kind = .jj)
    (hli : (O.elem i).loops = [l]) (hlj : (O.elem j).loops = [l]) (hcaps : CapsOK O)
    (h : LoopId → LoopObj) (lib : ∀ n, NumLib n)
    (hlib : ∀ n, ∀ C L : Matrix (Fin n) (Fin n) ℝ, C.PosDef → L.PosSemidef → LibSpec (lib n) C L)
    (sv : SvdFn) (hsv : SvdSpec sv) (argsort : ArgsortFn) (ha : ArgsortSpec argsort) (argmax : ∀ k, ArgmaxFn k)
    (hm : ∀ k, ArgmaxSpec (argmax k)) (draws : Draws) (eigs as) (vals : ElemId → ℝ) (hv : ParallelValues O ids vals)
    (flux : LoopId → ℝ) (u : ℝ) :
    ∃ w0, construct (circPhys (parallelSpec torch fd O ids h lib sv argsort argmax draws) eigs as) vals flux u = .ok w0 ∧
      ∀ hist : List Act, Orderly w0 hist →
        (∀ h1 h2, hist = h1 ++ .update :: h2 → ParallelValues O ids (run w0 h1).vals) →
        let w := run w0 hist
        (∀ i, (O.elem i).kind ≠ .jj → w.vals i = lastBuilt vals w0 hist i) → ParallelValues O ids w.vals →
        w.circ.m ≠ [] →
        ∃ (k : ℕ) (d : Fin k → ℕ), k = 1 ∧ (∀ i, d i = (w.circ.m.getD i 0).toNat) ∧
          ∀ p : Fin k, (hamiltonian w).1 = .ok ⟨k, d,
            charging d p (totalCap (O.withVals w.vals) ids) ((w.circ.ng p).getD 0) -
            ((w.vals i : ℂ) • chargeCos d p (round5 (fluxShare (O.withVals w.vals) fd i j) * w.flux l) +
             (w.vals j : ℂ) • chargeCos d p (round5 (- fluxShare (O.withVals w.vals) fd j i) * w.flux l))⟩ := by
  obtain ⟨b, hb, hk, -⟩ := C92_squid torch fd O ids i j l hij hki hkj hli hlj h lib hlib sv hsv argsort ha argmax hm
    draws vals hv
  have hj : OnlyJunctions O ids := by
    refine ⟨?_, i, List.mem_of_mem_filter (p := fun i => decide ((O.elem i).kind ≠ .cap)) (by rw [hij]; simp), hki⟩
    intro x hx hk
    have : x ∈ ids.filter (fun i => decide ((O.elem i).kind ≠ .cap)) := by
      rw [List.mem_filter]
      exact ⟨hx, by simp [hk]⟩
    rw [hij] at this
    simp at this
    rcases this with rfl | rfl
    · rw [hki] at hk; cases hk
    · rw [hkj] at hk; cases hk
  have hcon : ∃ w0, construct (circPhys (parallelSpec torch fd O ids h lib sv argsort argmax draws) eigs as) vals flux u =
      .ok w0 := by
    have hb' : (circPhys (parallelSpec torch fd O ids h lib sv argsort argmax draws) eigs as).build vals = .ok b := hb
    unfold construct
    rw [hb']
    exact ⟨_, rfl⟩
  obtain ⟨w0, hw⟩ := hcon
  refine ⟨w0, hw, ?_⟩
  intro hist hord hupd w hlast hval hm0
  obtain ⟨b', hb', hham⟩ := oe_session hj hcaps hlib hsv ha hm hv hw hist hord hupd hlast hm0
  obtain ⟨b'', hb'', hk', -, hH⟩ := C92_squid torch fd O ids i j l hij hki hkj hli hlj h lib hlib sv hsv argsort ha argmax hm
    draws w.vals hval
  have : b' = b'' := by
    have hb3 : buildCirc (parallelSpec torch fd O ids h lib sv argsort argmax draws) w.vals = .ok b' := hb'
    rw [hb''] at hb3
    exact (Except.ok.inj hb3).symm
  subst this
  refine ⟨_, b'.dims w.circ.m, hk', fun _ => rfl, ?_⟩
  intro p
  rw [hham, hH w.flux _ _ p]
  rfl

/-- two junctions (0 and 2, capacitors 1 and 3) in loop 0, and a shunt capacitor 4 -/
def squidObjs : Objs where
  elem := fun i =>
    if i = 0 then ⟨.jj, 1, 1, [0], true, true⟩
    else if i = 2 then ⟨.jj, 1, 3, [0], true, true⟩
    else ⟨.cap, 1, 1, [], false, true⟩
  loopValue := fun _ => 0
  loopReqGrad := fun _ => false
  loopIsLeaf := fun _ => true

/-- admissible values: all 1 -/
theorem squid_values : ParallelValues squidObjs [4, 0, 2] (fun _ => 1) := by
  constructor
  · intro i hi
    simp at hi
    rcases hi with rfl | rfl | rfl <;> simp [placedCap, squidObjs, Objs.withVals]
  · simp [totalCap, placedCap, squidObjs, Objs.withVals]
    norm_num

/-- the hypotheses can be met: the SQUID with a shunt capacitor -/
theorem C92_example : ∃ (lib : ∀ n, NumLib n) (sv : SvdFn) (argsort : ArgsortFn) (argmax : ∀ k, ArgmaxFn k) (b : Build),
    buildCirc (parallelSpec false .junctions squidObjs [4, 0, 2] (fun _ => LoopObj.init 0 0) lib sv argsort argmax
      (fun _ _ => 0)) (fun _ => 1) = .ok b ∧ b.M.keep.length = 1 ∧ b.loops = [0] := by
  choose lib hlib using exists_lib
  choose argmax hm using exists_argmax
  obtain ⟨argsort, ha⟩ := exists_argsort
  obtain ⟨b, hb, hk, hl, -⟩ := C92_squid false .junctions squidObjs [4, 0, 2] 0 2 0 (by decide) rfl rfl rfl rfl
    (fun _ => LoopObj.init 0 0) lib hlib exSv exSv_spec argsort ha argmax hm (fun _ _ => 0) _ squid_values
  exact ⟨lib, exSv, argsort, argmax, b, hb, hk, hl⟩

end SQ
