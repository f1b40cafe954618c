import Verif.Lemmas.CircuitPhys
import Verif.Lemmas.ExampleCircuit
import Verif.Props.Coupling

/-! # The LC/junction circuit as a circuit object -/

namespace SQ
open Matrix Spec

/-- routines for every size, right for the matrices of the LC/junction circuit -/
noncomputable def lcLibs (n : ℕ) : NumLib n where
  sqrtm := id
  svdD := fun M i => M i i
  svdVh := fun _ => 1
  eigvals := fun M i => M i i

theorem lcLibs_two : lcLibs 2 = lcLib := rfl

/-- description of the circuit, with the given external routines -/
noncomputable def lcSpec (torch : Bool) (sv : SvdFn) (argsort : ArgsortFn)
    (argmax : ∀ k, ArgmaxFn k) : CircSpec where
  torch := torch
  fd := .junctions
  O := lcObjs
  els := lcEls
  h := fun _ => LoopObj.init 0 0
  lib := lcLibs
  sv := sv
  argsort := argsort
  argmax := argmax
  draws := fun _ _ => 0
  fuel := 3

/-- initial values of its elements -/
def lcVals : ElemId → ℝ := fun i => (lcObjs.elem i).value

theorem lcObjs_withVals : lcObjs.withVals lcVals = lcObjs := rfl

theorem lcObjs_caps : CapsOK lcObjs := by
  intro i
  simp only [lcObjs]
  by_cases h0 : i = 0
  · simp [h0]
  · by_cases h2 : i = 2
    · simp [h2]
    · simp [h0, h2]

noncomputable def lcBuild (torch : Bool) : Build where
  n := 2
  nJ := 1
  nB := 2
  C := 1
  loops := []
  B := 0
  inds := [⟨(0, 1), 0, 0⟩]
  juns := [⟨(0, 2), 2, 1, 0⟩]
  M := finishModes torch lcFinal

theorem lc_build_init {sv : SvdFn} (hsv : SvdSpec sv) {argsort : ArgsortFn} (ha : ArgsortSpec argsort)
    (argmax : ∀ k, ArgmaxFn k) (torch : Bool) :
    buildCirc (lcSpec torch sv argsort argmax) lcVals = .ok (lcBuild torch) := by
  obtain ⟨hn, a, htr, hC, hL, hW, hJ⟩ := lc_traverse torch .junctions (fun _ => LoopObj.init 0 0)
  have hinv := (traverse_inv lcEls_valid htr).1
  have hind : indOf lcObjs (annotate lcObjs 0 lcEls) = [((0, 1), 0, 0), ((0, 2), 2, 0)] := by decide
  have hk := hinv.kMat
  have hik := hinv.indKeys
  have hjk := hinv.junKeys
  have hlo := hinv.loops.loops_eq
  rw [hind] at hk hik hjk
  have hl0 : a.st.loops = [] := by
    rw [hlo]
    decide
  have hk' : a.st.kMat = [incVec 2 (0, 1), incVec 2 (0, 2)] := by rw [hk]; rfl
  have hik' : a.st.indKeys = [((0, 1), 0, 0)] := by rw [hik]; decide
  have hjk' : a.st.junKeys = [((0, 2), 2, 1, 0)] := by rw [hjk]; decide
  unfold buildCirc
  have hn' : numNodes (lcSpec torch sv argsort argmax).els = .ok 2 := hn
  rw [hn']
  simp only
  rw [buildWith_eq]
  have htr' : traverse (lcSpec torch sv argsort argmax).torch (lcSpec torch sv argsort argmax).fd
      ((lcSpec torch sv argsort argmax).O.withVals lcVals) 2 (lcSpec torch sv argsort argmax).h
      (lcSpec torch sv argsort argmax).els = .ok a := htr
  rw [htr']
  simp only
  unfold afterTraverse
  rw [hk', hl0, hC, hL, hW, hJ, hik', hjk']
  unfold afterFields
  have hf : fluxMatrix (lcSpec torch sv argsort argmax).sv 2 [incVec 2 (0, 1), incVec 2 (0, 2)]
      a.st.cEdge (List.map a.st.loopHeap []) = .ok none := by
    simp [fluxMatrix, loopRows]
  rw [hf]
  simp only
  rw [if_neg (by simp)]
  have harr : (arrayOf 2 [[0, 1]] : Matrix (Fin 1) (Fin 2) ℝ) = lcW := by
    ext i j
    fin_cases i; fin_cases j <;> simp [arrayOf, rowVec, lcW]
  have hres := lc_result hsv ha (argmax 1) (fun _ _ => 0) 0
  rw [← harr] at hres
  have hres' : transformHamil ((lcSpec torch sv argsort argmax).lib 2)
      (lcSpec torch sv argsort argmax).sv (lcSpec torch sv argsort argmax).argsort
      ((lcSpec torch sv argsort argmax).argmax [[0, 1]].length)
      (lcSpec torch sv argsort argmax).draws 1 1 lcL (arrayOf 2 [[0, 1]])
      (lcSpec torch sv argsort argmax).fuel (initTrans 1 lcL (arrayOf 2 [[0, 1]])) =
      some (.ok lcFinal) := hres
  rw [hres']
  rfl

/-- whatever the junction energy -/
theorem lc_build {sv : SvdFn} (hsv : SvdSpec sv) {argsort : ArgsortFn} (ha : ArgsortSpec argsort)
    (argmax : ∀ k, ArgmaxFn k) (torch : Bool) (v : ElemId → ℝ) (hv : ∀ i, i ≠ 2 → v i = lcVals i) :
    buildCirc (lcSpec torch sv argsort argmax) v = .ok (lcBuild torch) := by
  rw [← lc_build_init hsv ha argmax torch]
  apply buildCirc_congr _ lcObjs_caps
  intro i hi
  refine (hv i ?_).symm
  rintro rfl
  exact hi (by simp [lcSpec, lcObjs])

end SQ
