import Verif.Props.Transmon
import Verif.Props.TransmonExample
import Verif.Props.FluxDist
import Verif.Spec.Linear
import Verif.Props.SimpleSpectrum
import Verif.Lemmas.Relabel

/-!
# C111: circuits with several loops depend on the order in which elements are listed
-/

namespace SQ
open Matrix Spec Real

/-! ### three branches on one edge, in two loops -/

theorem kept_three {sv : SvdFn} (hsv : SvdSpec sv) :
    keptCols sv (arrayOf 1 [[1], [1], [1]]) = [0] := by
  have hA : ∀ i j, arrayOf 1 [[1], [1], [1]] i j = 1 := by
    intro i j
    fin_cases j
    match i with
    | ⟨0, _⟩ => simp [arrayOf, rowVec]
    | ⟨1, _⟩ => simp [arrayOf, rowVec]
    | ⟨2, _⟩ => simp [arrayOf, rowVec]
  have hlen : (keptCols sv (arrayOf 1 [[1], [1], [1]])).length = 1 := by
    rw [keptCols_length hsv]
    apply le_antisymm
    · have : nzMat (arrayOf 1 [[1], [1], [1]]) = Matrix.vecMulVec (fun _ => 1) (fun _ => 1) := by
        ext i j
        rw [Matrix.vecMulVec_apply, one_mul]
        exact hA i _
      rw [this]
      exact Matrix.rank_vecMulVec_le _ _
    · apply rank_pos_of_ne_zero
      intro h0
      have hm : (0 : Fin 1) ∈ nonzeroCols (arrayOf 1 [[1], [1], [1]]) := by
        rw [mem_nonzeroCols]
        exact ⟨⟨0, by simp⟩, by rw [hA]; exact one_ne_zero⟩
      obtain ⟨u, hu⟩ := List.get_of_mem hm
      have := congrFun (congrFun h0 ⟨0, by simp⟩) u
      simp only [nzMat, Matrix.of_apply, hu, Matrix.zero_apply] at this
      rw [hA] at this
      exact one_ne_zero this
  obtain ⟨j, hj⟩ := List.length_eq_one_iff.1 hlen
  rw [hj, Subsingleton.elim j 0]

theorem rint_third : rint (1 / 3 * 1e5) = 33333 ∧ rint (-(1 / 3) * 1e5) = -33333 ∧ rint (2 / 3 * 1e5) = 66667 ∧
    rint (-(2 / 3) * 1e5) = -66667 := by
  refine ⟨rint_eq ?_, rint_eq ?_, rint_eq ?_, rint_eq ?_⟩ <;> rw [abs_lt] <;> norm_num

theorem loopRows_three {sv : SvdFn} (hsv : SvdSpec sv) (q : Bool) (v A v' A' : ℝ) :
    loopRows sv 1 3 [⟨v, A, [0, 1], [[1], [1]]⟩, ⟨v', A', [if q then 0 else 1, 2], [[1], [1]]⟩] =
      .ok [![1, -1, 0], if q then ![1, 0, -1] else ![0, 1, -1]] := by
  have hw : ∃ j, j < 1 ∧ ([1] : List ℤ).getD j 0 ≠ 0 := ⟨0, by simp, by simp⟩
  have hl : List.ofFn (n := [([1] : List ℤ), [1]].length) ![(1 : ℝ), -1] = [1, -1] := by
    change List.ofFn (n := 2) ![(1 : ℝ), -1] = [1, -1]
    simp
  have hs1 : scatter 3 [0, 1] (List.ofFn (n := [([1] : List ℤ), [1]].length) ![(1 : ℝ), -1]) = .ok ![1, -1, 0] := by
    rw [hl]
    unfold scatter
    rw [if_neg (by simp)]
    congr 1
    funext i
    fin_cases i <;> simp
  have hs2 : scatter 3 [if q then 0 else 1, 2] (List.ofFn (n := [([1] : List ℤ), [1]].length) ![(1 : ℝ), -1]) =
      .ok (if q then ![1, 0, -1] else ![0, 1, -1]) := by
    rw [hl]
    unfold scatter
    rw [if_neg (by cases q <;> simp)]
    congr 1
    funext i
    cases q <;> fin_cases i <;> simp
  unfold loopRows
  rw [getG_two hsv hw]
  simp only [hs1]
  unfold loopRows
  rw [getG_two hsv hw]
  simp only [hs2, loopRows]

/-- the shares of the branches in the loop fluxes, before rounding -/
noncomputable def threeShares (q : Bool) (b : Fin 3) (l : Fin 2) : ℝ :=
  match q, b, l with
  | false, 0, 0 => 2 / 3
  | false, 0, 1 => 1 / 3
  | false, 1, 0 => -(1 / 3)
  | false, 1, 1 => 1 / 3
  | false, 2, 0 => -(1 / 3)
  | false, 2, 1 => -(2 / 3)
  | true, 0, 0 => 1 / 3
  | true, 0, 1 => 1 / 3
  | true, 1, 0 => -(2 / 3)
  | true, 1, 1 => 1 / 3
  | true, 2, 0 => 1 / 3
  | true, 2, 1 => -(2 / 3)

theorem triple_loops (q : Bool) (l' : Fin 2) :
    1 * threeShares q 0 l' + -1 * threeShares q 1 l' + 0 * threeShares q 2 l' = (if (0 : Fin 2) = l' then 1 else 0) ∧
    (if q then ![(1 : ℝ), 0, -1] else ![0, 1, -1]) 0 * threeShares q 0 l' +
      (if q then ![(1 : ℝ), 0, -1] else ![0, 1, -1]) 1 * threeShares q 1 l' +
      (if q then ![(1 : ℝ), 0, -1] else ![0, 1, -1]) 2 * threeShares q 2 l' = (if (1 : Fin 2) = l' then 1 else 0) ∧
    threeShares q 0 l' + threeShares q 1 l' + threeShares q 2 l' = 0 := by
  have h01 : ¬ ((0 : Fin 2) = 1) := by decide
  have h10 : ¬ ((1 : Fin 2) = 0) := by decide
  cases q <;> fin_cases l' <;>
    simp only [Fin.zero_eta, Fin.mk_one, threeShares, if_true, Bool.false_eq_true, if_false, cons_val_zero, cons_val_one, cons_val, h01, h10] <;>
    norm_num

/-- flux shares of three equal branches on one edge: the first loop holds the branches 0 and 1, the second 1 and 2
(`q = false`) or 0 and 2 (`q = true`) -/
theorem fluxMatrix_three {sv : SvdFn} (hsv : SvdSpec sv) (q : Bool) (c v A v' A' : ℝ) (hc : c ≠ 0) :
    ∃ B, fluxMatrix sv 1 [[1], [1], [1]] [c, c, c] [⟨v, A, [0, 1], [[1], [1]]⟩, ⟨v', A', [if q then 0 else 1, 2], [[1], [1]]⟩] =
      .ok (some B) ∧ ∀ (b : Fin 3) (l : Fin 2), B b l = round5 (threeShares q b l) := by
  have hk := kept_three hsv
  have hr : ((keptCols sv (arrayOf 1 [[1], [1], [1]])).map
        (fun j i => arrayOf 1 [[1], [1], [1]] i j * [c, c, c].getD i 0) ++
          [![1, -1, 0], if q then ![1, 0, -1] else ![0, 1, -1]] : List (Fin 3 → ℝ))
      = [![c, c, c], ![1, -1, 0], if q then ![1, 0, -1] else ![0, 1, -1]] := by
    rw [hk]
    have e2 : (fun i : Fin 3 => arrayOf 1 [[1], [1], [1]] i 0 * [c, c, c].getD i 0) = ![c, c, c] := by
      funext i
      fin_cases i <;> simp [arrayOf, rowVec]
    rw [← e2]; rfl
  have hX := squareOf_three ![c, c, c] ![1, -1, 0] (if q then ![1, 0, -1] else ![0, 1, -1])
  rw [← hr] at hX
  have hdet : (Matrix.of ![![c, c, c], ![1, -1, 0], if q then ![1, 0, -1] else ![0, 1, -1]] :
      Matrix (Fin 3) (Fin 3) ℝ).det ≠ 0 := by
    rw [Matrix.det_fin_three]
    cases q <;> simp <;> intro h <;> apply hc <;> linarith
  obtain ⟨B, hB⟩ := fluxMatrix_some (kMat := [[1], [1], [1]]) (cEdge := [c, c, c])
    (loops := [⟨v, A, [0, 1], [[1], [1]]⟩, ⟨v', A', [if q then 0 else 1, 2], [[1], [1]]⟩]) (loopRows_three hsv q v A v' A')
    (by simp) (by simp) hX hdet
  refine ⟨B, hB, ?_⟩
  have hcon : LoopsConsistent [[1], [1], [1]]
      [⟨v, A, [0, 1], [[1], [1]]⟩, ⟨v', A', [if q then 0 else 1, 2], [[1], [1]]⟩] := by
    intro l hl
    simp only [List.mem_cons, List.not_mem_nil, or_false] at hl
    rcases hl with rfl | rfl
    · refine ⟨by simp, by simp, ?_⟩
      intro p hp
      simp only [List.length_cons, List.length_nil] at hp
      match p, hp with
      | 0, _ => rfl
      | 1, _ => rfl
    · refine ⟨by cases q <;> simp, by simp, ?_⟩
      intro p hp
      simp only [List.length_cons, List.length_nil] at hp
      match p, hp with
      | 0, _ => cases q <;> rfl
      | 1, _ => rfl
  obtain ⟨G, B0, hG, -, -, hu, hround, -⟩ := flux_distribution_branches sv hsv 1 _ _ _ hcon B hB
  let G' : Fin 2 → Fin 3 → ℝ := G
  have hcl : ∀ l, G' l 0 + G' l 1 + G' l 2 = 0 := by
    intro l
    have h1 := (hG l).closes 0 one_pos
    have h2 : ∑ b : Fin 3, G' l b * nodeEntry (([[1], [1], [1]] : List (List ℤ)).get b) 0 = 0 := h1
    rw [Fin.sum_univ_three] at h2
    simpa [nodeEntry] using h2
  have g00 : G' 0 0 = 1 := (hG ⟨0, by simp⟩).first ⟨0, by simp⟩ rfl
  have g02 : G' 0 2 = 0 := (hG ⟨0, by simp⟩).support ⟨2, by simp⟩ (by simp)
  have g01 : G' 0 1 = -1 := by linarith [hcl 0]
  have g1 : ∀ b, G' 1 b = (if q then ![1, 0, -1] else ![0, 1, -1]) b := by
    have hh := hG ⟨1, by simp⟩
    have hc1 := hcl 1
    cases q
    · have a1 : G' 1 1 = 1 := hh.first ⟨1, by simp⟩ rfl
      have a0 : G' 1 0 = 0 := hh.support ⟨0, by simp⟩ (by simp)
      intro b; fin_cases b <;> simp <;> linarith
    · have a1 : G' 1 0 = 1 := hh.first ⟨0, by simp⟩ rfl
      have a0 : G' 1 1 = 0 := hh.support ⟨1, by simp⟩ (by simp)
      intro b; fin_cases b <;> simp <;> linarith
  let Bx : Matrix (Fin 3) (Fin 2) ℝ := Matrix.of (threeShares q)
  have hB0 : Bx = B0 := hu Bx (by
      intro l l'
      have : ∀ l l' : Fin 2, ∑ b : Fin 3, G' l b * Bx b l' = if l = l' then 1 else 0 := by
        intro l l'
        rw [Fin.sum_univ_three]
        fin_cases l
        · simp only [Fin.zero_eta, g00, g01, g02]
          exact (triple_loops q l').1
        · simp only [Fin.mk_one, g1]
          exact (triple_loops q l').2.1
      exact this l l') (by
      intro i hi l'
      have : ∀ l' : Fin 2, ∑ b : Fin 3, nodeEntry (([[1], [1], [1]] : List (List ℤ)).get b) i * [c, c, c].getD b 0 * Bx b l' = 0 := by
        intro l'
        rw [Fin.sum_univ_three]
        obtain rfl : i = 0 := by omega
        have := (triple_loops q l').2.2
        simp only [nodeEntry, List.get_eq_getElem]
        simp
        show c * threeShares q 0 l' + c * threeShares q 1 l' + c * threeShares q 2 l' = 0
        linear_combination c * this
      exact this l')
  intro b l
  refine (hround b l).trans ?_
  rw [← hB0]
  rfl

/-! ### three junctions in parallel, in two loops -/

/-- junctions 0, 2 and 4 (with capacitors 1, 3 and 5), the first in loop 0, the second in both loops, the third in loop 1;
a shunt capacitor 6 -/
def threeObjs : Objs where
  elem := fun i =>
    if i = 0 then ⟨.jj, 1, 1, [0], true, true⟩
    else if i = 2 then ⟨.jj, 1, 3, [0, 1], true, true⟩
    else if i = 4 then ⟨.jj, 1, 5, [1], true, true⟩
    else ⟨.cap, 1, 1, [], false, true⟩
  loopValue := fun _ => 0
  loopReqGrad := fun _ => false
  loopIsLeaf := fun _ => true

/-- the two orders in which the elements are listed -/
def threeIds (q : Bool) : List ElemId := if q then [6, 2, 0, 4] else [6, 0, 2, 4]

theorem triple_values (q : Bool) : ParallelValues threeObjs (threeIds q) (fun _ => 1) := by
  constructor
  · intro i hi
    cases q <;> simp [threeIds] at hi <;> rcases hi with rfl | rfl | rfl | rfl <;>
      simp [placedCap, threeObjs, Objs.withVals]
  · cases q <;> simp [totalCap, placedCap, threeObjs, Objs.withVals, threeIds] <;> norm_num

theorem triple_only (q : Bool) : OnlyJunctions threeObjs (threeIds q) := by
  refine ⟨?_, 0, by cases q <;> simp [threeIds], rfl⟩
  intro i hi
  cases q <;> simp [threeIds] at hi <;> rcases hi with rfl | rfl | rfl | rfl <;> decide

theorem triple_keys {K : Type*} {l : List K} {f : K → ℕ × ElemId} {p q r : ℕ × ElemId} (h : l.map f = [p, q, r]) :
    ∃ k k' k'', l = [k, k', k''] ∧ f k = p ∧ f k' = q ∧ f k'' = r := by
  match l, h with
  | [k, k', k''], h =>
    simp only [List.map_cons, List.map_nil, List.cons.injEq, and_true] at h
    exact ⟨k, k', k'', rfl, h.1, h.2.1, h.2.2⟩

/-- the Hamiltonian of the three junctions -/
theorem triple_ham (q : Bool) (h : LoopId → LoopObj) (lib : ∀ n, NumLib n)
    (hlib : ∀ n, ∀ C L : Matrix (Fin n) (Fin n) ℝ, C.PosDef → L.PosSemidef → LibSpec (lib n) C L)
    (sv : SvdFn) (hsv : SvdSpec sv) (argsort : ArgsortFn) (ha : ArgsortSpec argsort) (argmax : ∀ k, ArgmaxFn k)
    (hm : ∀ k, ArgmaxSpec (argmax k)) (draws : Draws) :
    ∃ b, buildCirc (parallelSpec false .junctions threeObjs (threeIds q) h lib sv argsort argmax draws) (fun _ => 1) = .ok b ∧
      b.M.keep.length = 1 ∧ b.loops = [0, 1] ∧
      ∀ (flux : LoopId → ℝ) (m : Fin b.M.keep.length → ℕ) (ng : Fin b.M.keep.length → ℝ) (p : Fin b.M.keep.length),
        fullHamiltonian b.C b.M m ng (fun _ => 1) (b.fluxes flux) b.inds b.juns =
          .ok (charging m p 4 (ng p) -
            (chargeCos m p (round5 (threeShares q 0 0) * flux 0 + round5 (threeShares q 0 1) * flux 1) +
             (chargeCos m p (round5 (threeShares q 1 0) * flux 0 + round5 (threeShares q 1 1) * flux 1) +
              chargeCos m p (round5 (threeShares q 2 0) * flux 0 + round5 (threeShares q 2 1) * flux 1)))) := by
  have hj := triple_only q
  have hv := triple_values q
  have hip : inductivePlacements threeObjs (oneEdge (threeIds q)) =
      [((0, 1), if q then 2 else 0), ((0, 1), if q then 0 else 2), ((0, 1), 4)] := by
    cases q <;> decide
  obtain ⟨a, htr⟩ : ∃ a, traverse false .junctions (threeObjs.withVals fun _ => 1) 1 h (oneEdge (threeIds q)) = .ok a :=
    buildEdges_succeeds false .junctions (oe_valid _) (by
      intro p hp x hx hk
      simp [oneEdge] at hp
      subst hp
      exact absurd hk (hj.1 x hx)) (initAcc 1 h)
  obtain ⟨l1, -, l2, l3, -⟩ := C19_loop_membership false .junctions _ 1 h _ (oe_valid _) a htr
  obtain ⟨-, -, -, -, -, hk⟩ := C18_branch_numbering false .junctions _ 1 h _ (oe_valid _) a htr
  have hce := traverse_cEdge (oe_valid _) htr
  have hip' : inductivePlacements (threeObjs.withVals fun _ => 1) (oneEdge (threeIds q)) =
      [((0, 1), if q then 2 else 0), ((0, 1), if q then 0 else 2), ((0, 1), 4)] := hip
  rw [hip'] at hk hce
  have hnum : numbered threeObjs (oneEdge (threeIds q)) =
      [(((0, 1), if q then 2 else 0), 0), (((0, 1), if q then 0 else 2), 1), (((0, 1), 4), 2)] := by
    unfold numbered; rw [hip]; rfl
  have hu : loopUses (threeObjs.withVals fun _ => 1) (oneEdge (threeIds q)) =
      if q then [(0, 0, (0, 1)), (1, 0, (0, 1)), (0, 1, (0, 1)), (1, 2, (0, 1))]
      else [(0, 0, (0, 1)), (0, 1, (0, 1)), (1, 1, (0, 1)), (1, 2, (0, 1))] := by
    change loopUses threeObjs (oneEdge (threeIds q)) = _
    unfold loopUses
    rw [hnum]
    cases q <;> simp [threeObjs]
  have hlp : firstUses ((loopUses (threeObjs.withVals fun _ => 1) (oneEdge (threeIds q))).map Prod.fst) = [0, 1] := by
    rw [hu]
    cases q <;> decide
  have hloops : a.st.loops = [0, 1] := by rw [l1]; exact hlp
  have hkm : a.st.kMat = [[1], [1], [1]] := by rw [hk]; rfl
  have hce' : a.st.cEdge = [1e-20, 1e-20, 1e-20] := by
    rw [hce]
    cases q <;> simp [fluxCap, Objs.withVals, threeObjs]
  have hobj : a.st.loops.map a.st.loopHeap = [⟨(h 0).value, (h 0).A, [0, 1], [[1], [1]]⟩,
      ⟨(h 1).value, (h 1).A, [if q then 0 else 1, 2], [[1], [1]]⟩] := by
    rw [hloops]
    obtain ⟨e1, e2⟩ := l2 0 (by rw [hloops]; simp)
    obtain ⟨e3, e4⟩ := l3 0
    obtain ⟨f1, f2⟩ := l2 1 (by rw [hloops]; simp)
    obtain ⟨f3, f4⟩ := l3 1
    have u0 : usesOf (threeObjs.withVals fun _ => 1) (oneEdge (threeIds q)) 0 = [(0, (0, 1)), (1, (0, 1))] := by
      unfold usesOf
      rw [hu]
      cases q <;> simp
    have u1 : usesOf (threeObjs.withVals fun _ => 1) (oneEdge (threeIds q)) 1 = [(if q then 0 else 1, (0, 1)), (2, (0, 1))] := by
      unfold usesOf
      rw [hu]
      cases q <;> simp
    rw [u0] at e1 e2
    rw [u1] at f1 f2
    have i1 : incVec 1 (0, 1) = [1] := by decide
    simp only [List.map_cons, List.map_nil, i1] at e1 e2 f1 f2 ⊢
    have g0 : a.st.loopHeap 0 = ⟨(h 0).value, (h 0).A, [0, 1], [[1], [1]]⟩ := by rw [← e3, ← e4, ← e1, ← e2]
    have g1 : a.st.loopHeap 1 = ⟨(h 1).value, (h 1).A, [if q then 0 else 1, 2], [[1], [1]]⟩ := by
      rw [← f3, ← f4, ← f1, ← f2]
    rw [g0, g1]
  have hB : ∃ B, fluxMatrix sv 1 a.st.kMat a.st.cEdge (a.st.loops.map a.st.loopHeap) = .ok (some B) ∧
      ∀ b l, B b l = round5 (threeShares q (Fin.ofNat 3 b) (Fin.ofNat 2 l)) := by
    have key : ∀ (kMat : List (List ℤ)) (cE : List ℝ) (ls : List LoopObj), kMat = [[1], [1], [1]] → cE = [1e-20, 1e-20, 1e-20] →
        ls = [⟨(h 0).value, (h 0).A, [0, 1], [[1], [1]]⟩, ⟨(h 1).value, (h 1).A, [if q then 0 else 1, 2], [[1], [1]]⟩] →
        ∃ B, fluxMatrix sv 1 kMat cE ls = .ok (some B) ∧
          ∀ b l, B b l = round5 (threeShares q (Fin.ofNat 3 b) (Fin.ofNat 2 l)) := by
      rintro _ _ _ rfl rfl rfl
      obtain ⟨B, h1, h2⟩ := fluxMatrix_three hsv q 1e-20 (h 0).value (h 0).A (h 1).value (h 1).A (by norm_num)
      refine ⟨B, h1, fun b l => (h2 b l).trans ?_⟩
      congr 2
      · exact Fin.ext (Nat.mod_eq_of_lt b.2).symm
      · exact Fin.ext (Nat.mod_eq_of_lt l.2).symm
    exact key _ _ _ hkm hce' hobj
  obtain ⟨B, hB1, hB2⟩ := hB
  obtain ⟨b, hb⟩ := oe_build (draws := draws) (lib := lib) (argmax := argmax) hj hlib hsv ha hm hv htr hB1
  obtain ⟨hk1, -, hH⟩ := C92_parallel false .junctions threeObjs (threeIds q) hj h lib hlib sv hsv argsort ha argmax hm draws _ hv b hb
  have hgood := (oe_good (sv := sv) (argsort := argsort) (h := h) (torch := false) (fd := .junctions)
      (draws := draws) hj hlib hm hv)
  obtain ⟨-, -, hju, hlo⟩ := build_pairs hgood.noSelf hb
  have hjp : b.juns.map (fun k => ((k.bId : ℕ), k.el)) = [(0, if q then 2 else 0), (1, if q then 0 else 2), (2, 4)] := by
    rw [hju]
    change ((numbered threeObjs (oneEdge (threeIds q))).filter (fun q => decide ((threeObjs.elem q.1.2).kind = .jj))).map _ = _
    rw [hnum]
    cases q <;> simp [threeObjs]
  obtain ⟨k1, k2, k3, hkk, e1, e2, e3⟩ := triple_keys hjp
  have hbl : b.loops = [0, 1] := by
    rw [hlo]
    exact hlp
  refine ⟨b, hb, hk1, hbl, ?_⟩
  have hBv : ∀ p l', b.B p l' = round5 (threeShares q (Fin.ofNat 3 p) (Fin.ofNat 2 l')) := by
    obtain ⟨n, a', B', t, hn, htr', hB', ht, rfl⟩ := buildCirc_stages hb
    have hn1 : n = 1 := by
      have h' : numNodes (oneEdge (threeIds q)) = .ok n := hn
      exact (Except.ok.inj h').symm
    subst hn1
    have haa : a' = a := by
      have h' : traverse false .junctions (threeObjs.withVals fun _ => 1) 1 h (oneEdge (threeIds q)) = .ok a' := htr'
      rw [htr] at h'
      exact (Except.ok.inj h').symm
    subst haa
    have hB3 : fluxMatrix sv 1 a'.st.kMat a'.st.cEdge (a'.st.loops.map a'.st.loopHeap) = .ok B' := hB'
    rw [hB1] at hB3
    have := Except.ok.inj hB3
    subst this
    intro p l'
    refine (hB2 p _).trans ?_
    rfl
  intro flux m ng p
  have htot : totalCap (threeObjs.withVals fun _ => 1) (threeIds q) = 4 := by
    cases q <;> simp [totalCap, placedCap, threeObjs, Objs.withVals, threeIds] <;> norm_num
  rw [hH flux m ng p, hkk, htot]
  have hf : ∀ p, b.fluxes flux p = round5 (threeShares q (Fin.ofNat 3 p) 0) * flux 0 + round5 (threeShares q (Fin.ofNat 3 p) 1) * flux 1 := by
    intro p
    unfold Build.fluxes
    rw [extFlux_sum]
    simp only [hBv]
    have key : ∀ ls : List LoopId, ls = [0, 1] → ∀ x : Fin 2 → ℝ, ∑ l' : Fin ls.length, flux (ls.get l') * x (Fin.ofNat 2 l') =
        x 0 * flux 0 + x 1 * flux 1 := by
      rintro _ rfl x
      rw [show (∑ l' : Fin [(0 : LoopId), 1].length, flux ([(0 : LoopId), 1].get l') * x (Fin.ofNat 2 l')) =
        ∑ l' : Fin 2, flux ([(0 : LoopId), 1].get l') * x (Fin.ofNat 2 l') from rfl, Fin.sum_univ_two]
      simp [mul_comm]
    exact key _ hbl fun l => round5 (threeShares q (Fin.ofNat 3 p) l)
  have h1 := Prod.ext_iff.1 e1
  have h2 := Prod.ext_iff.1 e2
  have h3 := Prod.ext_iff.1 e3
  simp only at h1 h2 h3
  simp only [List.map_cons, List.map_nil, List.sum_cons, List.sum_nil, add_zero, hf, h1.1, h2.1, h3.1, Complex.ofReal_one, one_smul]
  rfl

/-! ### the ground level of three charge states -/

theorem triple_ground {x : ℝ} (hx : 0 < x) (c : ℂ) {vs : List (Fin 3 → ℂ)} {ws : List ℝ}
    (h : Levels !![(x : ℂ), star c, 0; c, 0, star c; 0, c, (x : ℂ)] vs ws) :
    ws.getD 0 0 * (ws.getD 0 0 - x) = 2 * Complex.normSq c := by
  have hlen : vs.length = 3 := h.card.trans (by simp)
  have hwl : ws.length = 3 := h.len.trans hlen
  have hle : ws.getD 0 0 ≤ 0 := by
    obtain ⟨vs', hz⟩ := levels_diagonal (ι := Fin 1) (fun _ => 0)
    have hs : (!![(x : ℂ), star c, 0; c, 0, star c; 0, c, (x : ℂ)]).submatrix (fun _ : Fin 1 => (1 : Fin 3)) (fun _ => 1) =
        diagonal fun _ => ((0 : ℝ) : ℂ) := by
      ext i j
      fin_cases i; fin_cases j
      simp
    rw [← hs] at hz
    have h1 := levels_compress (e := fun _ : Fin 1 => (1 : Fin 3)) (fun a b _ => Subsingleton.elim _ _) h hz (m := 0) (by simp)
    refine h1.trans (le_of_eq ?_)
    simp
  have he := h.eigen 0 (by omega)
  have hw : ws.getD 0 0 = ws[0]'(by omega) := by
    rw [List.getD_eq_getElem?_getD, List.getElem?_eq_getElem (by omega)]; rfl
  rw [← hw] at he
  set lam := ws.getD 0 0 with hlam
  have hne : vs[0]'(by omega) ≠ 0 := by
    intro h0
    have := h.orth ⟨0, by omega⟩ ⟨0, by omega⟩
    simp only [List.get_eq_getElem, h0] at this
    simp at this
  set v := vs[0]'(by omega) with hv
  have q0 := congrFun he 0
  have q1 := congrFun he 1
  have q2 := congrFun he 2
  simp only [mulVec, dotProduct, Fin.sum_univ_three, of_apply, cons_val_zero, cons_val_one, cons_val, Pi.smul_apply, smul_eq_mul,
    zero_mul, add_zero, zero_add] at q0 q1 q2
  have hlx : ((lam - x : ℝ) : ℂ) ≠ 0 := by
    rw [Complex.ofReal_ne_zero]
    linarith
  have hv1 : v 1 ≠ 0 := by
    intro h1
    apply hne
    rw [h1] at q0 q2
    push_cast at hlx
    have a0 : ((lam : ℂ) - x) * v 0 = 0 := by linear_combination -q0
    have a2 : ((lam : ℂ) - x) * v 2 = 0 := by linear_combination -q2
    have b0 := (mul_eq_zero.1 a0).resolve_left hlx
    have b2 := (mul_eq_zero.1 a2).resolve_left hlx
    funext i
    fin_cases i
    · exact b0
    · exact h1
    · exact b2
  have hcc : c * star c = (Complex.normSq c : ℂ) := Complex.mul_conj c
  have key : ((lam * (lam - x) : ℝ) : ℂ) * v 1 = ((2 * Complex.normSq c : ℝ) : ℂ) * v 1 := by
    push_cast
    rw [← hcc]
    linear_combination (-(lam - x : ℂ)) * q1 - c * q0 - star c * q2
  exact_mod_cast mul_right_cancel₀ hv1 key

/-- three junctions on three charge states: the ground level determines the effective Josephson energy -/
theorem triple_levels {d : Fin 1 → ℕ} (hd : d 0 = 3) (C : ℝ) (hC : 0 < C) (x y z : ℝ) {vs ws}
    (h : Levels (charging d 0 C 0 - (chargeCos d 0 x + (chargeCos d 0 y + chargeCos d 0 z))) vs ws) :
    ws.getD 0 0 * (ws.getD 0 0 - (2 * eCharge) ^ 2 / (2 * C) / hbar) =
      Complex.normSq (Complex.exp (Complex.I * x) + Complex.exp (Complex.I * y) + Complex.exp (Complex.I * z)) / 2 := by
  obtain rfl : d = fun _ => 3 := by
    funext i
    rw [Subsingleton.elim i 0, hd]
  let e : Fin 3 ≃ Idx (fun _ : Fin 1 => 3) := (Equiv.funUnique (Fin 1) (Fin 3)).symm
  have he : ∀ a, e a 0 = a := fun a => rfl
  obtain ⟨vs', h'⟩ := levels_reindex e h
  set Z : ℂ := Complex.exp (Complex.I * x) + Complex.exp (Complex.I * y) + Complex.exp (Complex.I * z) with hZ
  set E : ℝ := (2 * eCharge) ^ 2 / (2 * C) / hbar with hE
  have hEpos : 0 < E := by
    have := hbar_pos
    have he : eCharge ≠ 0 := by unfold eCharge; norm_num
    positivity
  have hon : ∀ (A : Matrix (Fin 3) (Fin 3) ℂ) a b, onMode (fun _ : Fin 1 => 3) 0 A (e a) (e b) = A a b := by
    intro A a b
    exact onMode_pos (m := fun _ : Fin 1 => 3) (a := 0) A (fun t ht => absurd (Subsingleton.elim t 0) ht)
  have hcos : ∀ (t : ℝ) a b, chargeCos (fun _ : Fin 1 => 3) 0 t (e a) (e b) =
      1 / 2 * (Complex.exp (Complex.I * t) * chargeRaise 3 a b + star (Complex.exp (Complex.I * t) * chargeRaise 3 b a)) := by
    intro t a b
    unfold chargeCos
    simp only [Matrix.smul_apply, Matrix.add_apply, conjTranspose_apply, smul_eq_mul, hon]
  have hM : (charging (fun _ : Fin 1 => 3) 0 C 0 - (chargeCos (fun _ : Fin 1 => 3) 0 x +
      (chargeCos (fun _ : Fin 1 => 3) 0 y + chargeCos (fun _ : Fin 1 => 3) 0 z))).submatrix e e =
      !![(E : ℂ), star (-(Z / 2)), 0; -(Z / 2), 0, star (-(Z / 2)); 0, -(Z / 2), (E : ℂ)] := by
    rw [charging_diag]
    ext a b
    simp only [submatrix_apply, Matrix.sub_apply, Matrix.add_apply, hcos, diagonal_apply, e.apply_eq_iff_eq, he]
    fin_cases a <;> fin_cases b <;> simp [chargeRaise, hZ, hE] <;> first | ring1 | (norm_num; done) | (right; norm_num; done)
  rw [hM] at h'
  have h1 := triple_ground hEpos _ h'
  rw [h1, Complex.normSq_neg, Complex.normSq_div]
  have : Complex.normSq 2 = 4 := by norm_num [Complex.normSq_apply]
  rw [this]
  ring

/-- a session with the three junctions -/
theorem triple_session (q : Bool) (lib : ∀ n, NumLib n)
    (hlib : ∀ n, ∀ C L : Matrix (Fin n) (Fin n) ℝ, C.PosDef → L.PosSemidef → LibSpec (lib n) C L)
    (argsort : ArgsortFn) (hsrt : ArgsortSpec argsort) (argmax : ∀ k, ArgmaxFn k) (hm : ∀ k, ArgmaxSpec (argmax k))
    (eigs : EigsFn) (as : List ℂ → List ℕ) (flux : LoopId → ℝ) :
    ∃ w0 : World (circPhys (parallelSpec false .junctions threeObjs (threeIds q) (fun _ => LoopObj.init 0 0) lib exSv
        argsort argmax (fun _ _ => 0)) eigs as),
      construct (circPhys _ eigs as) (fun _ => 1) flux 1 = .ok w0 ∧
      (run w0 [.setTruncNums (.list [2])]).circ.m ≠ [] ∧ (run w0 [.setTruncNums (.list [2])]).unitFreq = 1 ∧
      ∃ d : Fin 1 → ℕ, d 0 = 3 ∧ (hamiltonian (run w0 [.setTruncNums (.list [2])])).1 = .ok ⟨1, d, charging d 0 4 0 -
            (chargeCos d 0 (round5 (threeShares q 0 0) * flux 0 + round5 (threeShares q 0 1) * flux 1) +
             (chargeCos d 0 (round5 (threeShares q 1 0) * flux 0 + round5 (threeShares q 1 1) * flux 1) +
              chargeCos d 0 (round5 (threeShares q 2 0) * flux 0 + round5 (threeShares q 2 1) * flux 1)))⟩ ∧
        Matrix.IsHermitian (charging d 0 4 0 -
            (chargeCos d 0 (round5 (threeShares q 0 0) * flux 0 + round5 (threeShares q 0 1) * flux 1) +
             (chargeCos d 0 (round5 (threeShares q 1 0) * flux 0 + round5 (threeShares q 1 1) * flux 1) +
              chargeCos d 0 (round5 (threeShares q 2 0) * flux 0 + round5 (threeShares q 2 1) * flux 1)))) := by
  have hj := triple_only q
  have hv := triple_values q
  have hcaps : CapsOK threeObjs := by
    intro i
    simp only [threeObjs]
    split_ifs <;> simp_all
  obtain ⟨b, hb0, hk0, hl0, hH⟩ := triple_ham q (fun _ => LoopObj.init 0 0) lib hlib exSv exSv_spec argsort hsrt argmax hm
    (fun _ _ => 0)
  have hcon : ∃ w0, construct (circPhys (parallelSpec false .junctions threeObjs (threeIds q) (fun _ => LoopObj.init 0 0) lib exSv
      argsort argmax (fun _ _ => 0)) eigs as) (fun _ => 1) flux 1 = .ok w0 := by
    unfold construct
    rw [show (circPhys (parallelSpec false .junctions threeObjs (threeIds q) (fun _ => LoopObj.init 0 0) lib exSv
      argsort argmax (fun _ _ => 0)) eigs as).build (fun _ => 1) = .ok b from hb0]
    exact ⟨_, rfl⟩
  obtain ⟨w0, hw⟩ := hcon
  have hb : buildCirc _ _ = .ok w0.circ.bd := (construct_build hw).1
  obtain rfl : b = w0.circ.bd := Except.ok.inj (hb0.symm.trans hb)
  obtain ⟨hk, -, -, hom, -⟩ := oe_facts (fd := .junctions) (torch := false) hj hlib exSv_spec hsrt hm hv hb
  have hfld : w0.unitFreq = 1 ∧ w0.vals = (fun _ => 1) ∧ w0.flux = flux ∧
      w0.circ.islands = fun i => if i < (circPhys _ eigs as).nModes w0.circ.bd ∧ (circPhys _ eigs as).isCharge w0.circ.bd i
        then some (ChargeObj.init 0 1e-4) else none := by
    have hw' := hw
    unfold construct at hw'
    split at hw'
    · cases hw'
    · injection hw' with hw'
      rw [← hw']
      exact ⟨rfl, rfl, rfl, rfl⟩
  have hok : (setTruncNums (.list [2]) w0).1 = .ok () := (C42_constructed hw [2] hk.symm (by simp)).1
  have hst : (run w0 [.setTruncNums (.list [2])]).circ.m = dimsOf _ w0.circ.bd [2] ∧
      (run w0 [.setTruncNums (.list [2])]).unitFreq = w0.unitFreq ∧ (run w0 [.setTruncNums (.list [2])]).vals = w0.vals ∧
      (run w0 [.setTruncNums (.list [2])]).flux = w0.flux ∧ (run w0 [.setTruncNums (.list [2])]).circ.ng = w0.circ.ng := by
    show (setTruncNums (.list [2]) w0).2.circ.m = _ ∧
      (setTruncNums (.list [2]) w0).2.unitFreq = _ ∧ (setTruncNums (.list [2]) w0).2.vals = _ ∧
      (setTruncNums (.list [2]) w0).2.flux = _ ∧ (setTruncNums (.list [2]) w0).2.circ.ng = _
    rcases setTruncNums_cases (.list [2]) w0 with ⟨h1, -⟩ | ⟨nums, hn, -, ⟨e, h1, -⟩ | ⟨mem, hmem, -, h2⟩⟩
    · rw [h1] at hok; cases hok
    · rw [h1] at hok; cases hok
    injection hn with hn
    subst hn
    rw [h2]
    exact ⟨rfl, rfl, rfl, rfl, rfl⟩
  have ho : Orderly w0 [.setTruncNums (.list [2])] := ⟨fun _ => Or.inl hok, trivial⟩
  have hn1 : (circPhys _ eigs as).nModes w0.circ.bd = 1 := hk
  have hnc : (circPhys _ eigs as).isCharge w0.circ.bd 0 = true := by
    show Build.isCharge w0.circ.bd 0 = true
    unfold Build.isCharge
    rw [dif_pos (by omega)]
    simp [hom]
  have hm3 : (run w0 [.setTruncNums (.list [2])]).circ.m = [3] := by
    rw [hst.1]
    unfold dimsOf
    rw [hn1]
    simp [hnc]
  have hng : ((run w0 [.setTruncNums (.list [2])]).circ.ng 0).getD 0 = 0 := by
    rw [hst.2.2.2.2]
    unfold Circ.ng
    rw [hfld.2.2.2, hn1]
    simp [hnc, ChargeObj.init, ChargeObj.chValue]
  have hm0 : (run w0 [.setTruncNums (.list [2])]).circ.m ≠ [] := by rw [hm3]; simp
  have hvals : (run w0 [.setTruncNums (.list [2])]).vals = fun _ => 1 := hst.2.2.1.trans hfld.2.1
  obtain ⟨b', hb', hham⟩ := oe_session hj hcaps hlib exSv_spec hsrt hm hv hw [.setTruncNums (.list [2])] ho
    (by
      intro h1 h2 he
      match h1, he with
      | [], he => simp at he
      | [_], he => simp at he
      | _ :: _ :: _, he => simp at he)
    (by intro i _; rw [hvals]; rfl) hm0
  rw [hvals] at hb' hham
  obtain rfl : b' = w0.circ.bd := Except.ok.inj (hb'.symm.trans hb)
  have hfl : (run w0 [.setTruncNums (.list [2])]).flux = flux := hst.2.2.2.1.trans hfld.2.2.1
  obtain ⟨Hh, hHh, hherm⟩ := C40_circuit (oe_good (sv := exSv) (argsort := argsort) (h := fun _ => LoopObj.init 0 0) (torch := false)
    (fd := .junctions) (draws := fun _ _ => 0) hj hlib hm hv).noSelf _ _ _ _ hw _ ho hm0
  rw [hfl, hm3] at hham
  have key : ∀ (k : ℕ) (hk : k = 1) (d : Fin k → ℕ) (ng : Fin k → ℝ) (R : Except PyErr (Σ (k : ℕ) (d : Fin k → ℕ), Op d)),
      (∀ p, d p = 3) → (∀ p, ng p = 0) →
      (∀ p : Fin k, R = .ok ⟨k, d, charging d p 4 (ng p) -
            (chargeCos d p (round5 (threeShares q 0 0) * flux 0 + round5 (threeShares q 0 1) * flux 1) +
             (chargeCos d p (round5 (threeShares q 1 0) * flux 0 + round5 (threeShares q 1 1) * flux 1) +
              chargeCos d p (round5 (threeShares q 2 0) * flux 0 + round5 (threeShares q 2 1) * flux 1)))⟩) →
      ∃ d : Fin 1 → ℕ, d 0 = 3 ∧ R = .ok ⟨1, d, charging d 0 4 0 -
            (chargeCos d 0 (round5 (threeShares q 0 0) * flux 0 + round5 (threeShares q 0 1) * flux 1) +
             (chargeCos d 0 (round5 (threeShares q 1 0) * flux 0 + round5 (threeShares q 1 1) * flux 1) +
              chargeCos d 0 (round5 (threeShares q 2 0) * flux 0 + round5 (threeShares q 2 1) * flux 1)))⟩ := by
    rintro k rfl d ng R hd hn hR
    refine ⟨d, hd 0, ?_⟩
    rw [hR 0, hn 0]
  have hd3 : ∀ p, w0.circ.bd.dims [3] p = 3 := by
    intro p
    have hp : (p : ℕ) = 0 := by have := p.2; have : w0.circ.bd.M.keep.length = 1 := hk; omega
    show (([3] : List ℤ).getD p 0).toNat = 3
    rw [hp]
    rfl
  obtain ⟨d, hd, hR⟩ := key _ hk (w0.circ.bd.dims [3]) (fun p => ((run w0 [.setTruncNums (.list [2])]).circ.ng p).getD 0)
    (hamiltonian (run w0 [.setTruncNums (.list [2])])).1 hd3
    (by
      intro p
      have hp : (p : ℕ) = 0 := by have := p.2; have : w0.circ.bd.M.keep.length = 1 := hk; omega
      simp only [hp]
      exact hng)
    (by
      intro p
      rw [hham, hH flux _ _ p]
      rfl)
  refine ⟨w0, hw, hm0, hst.2.1.trans hfld.1, d, hd, hR, ?_⟩
  rw [hR] at hHh
  obtain rfl := Except.ok.inj hHh
  exact hherm

theorem triple_phase : round5 (1 / 3) = 33333 / 1e5 ∧ round5 (-(1 / 3)) = -33333 / 1e5 ∧ round5 (2 / 3) = 66667 / 1e5 ∧
    round5 (-(2 / 3)) = -66667 / 1e5 := by
  obtain ⟨h1, h2, h3, h4⟩ := rint_third
  unfold round5
  rw [h1, h2, h3, h4]
  norm_num

/-- C111 fails for circuits with several loops: three junctions in parallel, neighbouring ones forming a loop each, both loops
with a quarter of a flux quantum. The same elements listed in another order (on the same edge, all else being equal) give
other frequencies: the sign of a loop is that of its element listed first. -/
theorem C111_refuted : ∃ (c c' : CircSpec) (eigs : EigsFn) (as : List ℂ → List ℕ) (vals : ElemId → ℝ) (flux : LoopId → ℝ)
    (w0 : World (circPhys c eigs as)) (w0' : World (circPhys c' eigs as)),
    EigsLowest eigs ∧ CArgsortSpec as ∧ RoutinesOK c ∧ numNodes c.els = .ok 1 ∧
    c' = { c with els := c'.els } ∧ (placements c'.els).Perm (placements c.els) ∧ Renumbered (1 : Equiv.Perm (Fin 1)) c.els c'.els ∧
    construct (circPhys c eigs as) vals flux 1 = .ok w0 ∧ construct (circPhys c' eigs as) vals flux 1 = .ok w0' ∧
    ∃ F F' v v', (diag (some 1) (run w0 [.setTruncNums (.list [2])])).1 = .ok (F, v) ∧
      (diag (some 1) (run w0' [.setTruncNums (.list [2])])).1 = .ok (F', v') ∧ F ≠ F' := by
  choose lib hlib using exists_lib
  choose argmax hm using exists_argmax
  obtain ⟨argsort, hsrt⟩ := exists_argsort
  obtain ⟨eigs, he⟩ := exists_eigs_lowest
  obtain ⟨as, ha⟩ := exists_cargsort
  obtain ⟨w0, hw, hm0, hu, d, hd, hH, hherm⟩ := triple_session false lib hlib argsort hsrt argmax hm eigs as (fun _ => π / 2)
  obtain ⟨w0', hw', hm0', hu', d', hd', hH', hherm'⟩ := triple_session true lib hlib argsort hsrt argmax hm eigs as (fun _ => π / 2)
  have hperm : (placements (oneEdge (threeIds true))).Perm (placements (oneEdge (threeIds false))) := by decide
  refine ⟨_, _, eigs, as, fun _ => 1, fun _ => π / 2, w0, w0', he, ha, ⟨hlib, exSv_spec, hsrt, hm, le_rfl⟩, rfl, rfl, hperm, ?_, hw, hw', ?_⟩
  · refine ⟨_, hperm, ?_⟩
    show List.Forall₂ _ (placements (oneEdge (threeIds false))) (placements (oneEdge (threeIds false)))
    rw [List.forall₂_same]
    intro q hq
    have hq' : q.1 = (0, 1) := by
      simp [placements, oneEdge] at hq
      obtain ⟨x, -, rfl⟩ := hq
      rfl
    refine ⟨rfl, Or.inl ?_⟩
    rw [hq']
    rfl
  have hc : ∀ d : Fin 1 → ℕ, d 0 = 3 → 1 + 1 < Fintype.card (Idx d) := by
    intro d hd
    rw [Fintype.card_pi]
    simp [hd]
  obtain ⟨vs, ws, ev, x1, hlev, hdg, -⟩ := diag_lowest he ha hm0 hH hherm 1 le_rfl (hc d hd)
  obtain ⟨vs', ws', ev', x2, hlev', hdg', -⟩ := diag_lowest he ha hm0' hH' hherm' 1 le_rfl (hc d' hd')
  rw [Nat.cast_one] at hdg hdg'
  refine ⟨_, _, _, _, by rw [hdg], by rw [hdg'], ?_⟩
  rw [hu, hu']
  intro hF
  have hl1 : 1 ≤ ws.length := by rw [hlev.len, hlev.card]; exact (by have := hc d hd; omega)
  have hl2 : 1 ≤ ws'.length := by rw [hlev'.len, hlev'.card]; exact (by have := hc d' hd'; omega)
  have h0 : ws.getD 0 0 = ws'.getD 0 0 := by
    match ws, ws', hl1, hl2, hF with
    | a :: _, b :: _, _, _, hF =>
      simp only [List.take_succ_cons, List.take_zero, List.map_cons, List.map_nil, List.cons.injEq, and_true] at hF
      have hpi := Real.pi_pos
      have : a = b := by
        field_simp at hF
        exact hF
      simpa using this
  have e1 := triple_levels hd 4 (by norm_num) _ _ _ hlev
  have e2 := triple_levels hd' 4 (by norm_num) _ _ _ hlev'
  rw [h0, e2] at e1
  obtain ⟨r1, r2, r3, r4⟩ := triple_phase
  simp only [threeShares, r1, r2, r3, r4] at e1
  rw [show (33333 / 1e5 * (π / 2) + 33333 / 1e5 * (π / 2) : ℝ) = -33334 / 1e5 * (π / 2) + π / 2 by ring,
    show (-66667 / 1e5 * (π / 2) + 33333 / 1e5 * (π / 2) : ℝ) = -33334 / 1e5 * (π / 2) by ring,
    show (33333 / 1e5 * (π / 2) + -66667 / 1e5 * (π / 2) : ℝ) = -33334 / 1e5 * (π / 2) by ring,
    show (66667 / 1e5 * (π / 2) + 33333 / 1e5 * (π / 2) : ℝ) = π / 2 by ring,
    show (-33333 / 1e5 * (π / 2) + 33333 / 1e5 * (π / 2) : ℝ) = 0 by ring,
    show (-33333 / 1e5 * (π / 2) + -66667 / 1e5 * (π / 2) : ℝ) = -(π / 2) by ring] at e1
  generalize (-33334 / 1e5 * (π / 2) : ℝ) = t at e1
  have i1 : Complex.exp (Complex.I * ((π / 2 : ℝ) : ℂ)) = Complex.I := by
    rw [mul_comm]
    push_cast
    exact Complex.exp_pi_div_two_mul_I
  have i2 : Complex.exp (Complex.I * ((-(π / 2) : ℝ) : ℂ)) = -Complex.I := by
    push_cast
    rw [mul_neg, Complex.exp_neg, ← Complex.inv_I]
    congr 1
    have := i1
    push_cast at this
    exact this
  have i3 : Complex.exp (Complex.I * ((t + π / 2 : ℝ) : ℂ)) = Complex.exp (Complex.I * t) * Complex.I := by
    rw [Complex.ofReal_add, mul_add, Complex.exp_add, i1]
  have i4 : Complex.normSq (Complex.exp (Complex.I * t)) = 1 := by
    rw [Complex.normSq_eq_norm_sq, mul_comm, Complex.norm_exp_ofReal_mul_I]
    norm_num
  rw [i1, i2, i3, show Complex.exp (Complex.I * t) * Complex.I + Complex.exp (Complex.I * t) + Complex.exp (Complex.I * t) =
    Complex.exp (Complex.I * t) * (Complex.I + 2) by ring, Complex.normSq_mul, i4] at e1
  norm_num [Complex.normSq_apply] at e1

end SQ
