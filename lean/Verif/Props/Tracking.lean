import Verif.Model.Tracking
import Verif.Props.Params

/-!
# C87: setting a value and optimisation
-/

namespace SQ
open Spec

/-- `t` is a new object: no component and no parameter refers to it -/
def Fresh (w : PWorld) (t : TId) : Prop := (∀ k, w.value k ≠ t) ∧ ∀ p ∈ w.params, p.2 ≠ t

theorem tracked_after {base : Objs} {els : Elements} {w : PWorld} {k : Comp} {t : TId} {x : ℝ} (hf : Fresh w t) :
    trackedKeys base els (w.setNumber k t x) = (trackedKeys base els w).filter (fun k' => decide (k' ≠ k)) := by
  unfold trackedKeys
  rw [List.filter_filter]
  apply List.filter_congr
  intro k' _
  unfold PWorld.setNumber
  by_cases h : k' = k
  · subst h; simp
  · simp [Function.update_of_ne (hf.1 k'), h]

/-- the matrices do not depend on which components need gradients -/
theorem buildWith_objs (c : CircSpec) (hc : CapsOK c.O) (O' : Objs) (n : ℕ) {v v' : ElemId → ℝ}
    (h : AgreeOffJ (c.O.withVals v) (O'.withVals v'))
    (finish : ∀ {nJ : ℕ}, Trans nJ n → Modes nJ n) :
    buildWith c n v finish = buildWith { c with O := O' } n v' finish := by
  rw [buildWith_eq, buildWith_eq]
  have := stripA_buildEdges (n := n) h hc c.torch c.fd c.els
    (a := initAcc n c.h) (a' := initAcc n c.h) rfl
  change (traverse _ _ _ _ _ _).map stripA = (traverse _ _ _ _ _ _).map stripA at this
  simp only
  cases h1 : traverse c.torch c.fd (c.O.withVals v) n c.h c.els with
  | error e =>
    cases h2 : traverse c.torch c.fd (O'.withVals v') n c.h c.els with
    | error e' => rw [h1, h2] at this; simp [Except.map] at this; rw [this]
    | ok b' => rw [h1, h2] at this; simp [Except.map] at this
  | ok b =>
    cases h2 : traverse c.torch c.fd (O'.withVals v') n c.h c.els with
    | error e' => rw [h1, h2] at this; simp [Except.map] at this
    | ok b' =>
      rw [h1, h2] at this
      simp only [Except.map, Except.ok.injEq] at this
      simp only
      rw [← afterTraverse_strip, this, afterTraverse_strip]
      rfl

/-- What setting a value does: the component has the value, no other component changes; until the next
`update()` the circuit's parameters are the old tensors. -/
theorem C87_set (w : PWorld) (k : Comp) (t : TId) (x : ℝ) (hf : Fresh w t) :
    let w' := w.setNumber k t x
    (w'.tensors (w'.value k)).val = x ∧ (∀ k', k' ≠ k → w'.value k' = w.value k' ∧
      w'.tensors (w'.value k') = w.tensors (w.value k')) ∧ w'.params = w.params ∧
    ∀ p ∈ w'.params, w'.tensors p.2 = w.tensors p.2 := by
  refine ⟨?_, ?_, rfl, ?_⟩
  · simp [PWorld.setNumber]
  · intro k' h
    simp [PWorld.setNumber, Function.update_of_ne h, Function.update_of_ne (hf.1 k')]
  · intro p hp
    simp [PWorld.setNumber, Function.update_of_ne (hf.2 p hp)]

/-- After a successful `update()` the parameters are those from before without the component whose value was
set. -/
theorem C87_partial (c : CircSpec) (n : ℕ) (hv : ValidElements n c.els) (rest : Build → Except PyErr Unit)
    (w : PWorld) (ht : w.torch = true) (hs : Synced c n w) (k : Comp) (t : TId) (x : ℝ) (hf : Fresh w t)
    (w' : PWorld) (h : (w.setNumber k t x).update c n rest = (.ok (), w')) :
    w'.params = w.params.filter (fun p => decide (p.1 ≠ k)) := by
  cases hb : rebuildCirc { c with torch := (w.setNumber k t x).torch, O := (w.setNumber k t x).objs c.O } n
      (fun i => (((w.setNumber k t x).objs c.O).elem i).value) with
  | error e =>
    have := pupdate_error (rest := rest) hb
    rw [h] at this
    cases this
  | ok bd =>
    rw [pupdate_ok hv (w := w.setNumber k t x) ht hb, tracked_after hf] at h
    have h2 := (Prod.ext_iff.1 h).2
    rw [← (show _ = w' from h2)]
    obtain ⟨a, ha, hp⟩ := hs
    have hk := traverse_keys hv ht ha
    simp only
    rw [hp, ← hk]
    generalize a.st.params = l
    induction l with
    | nil => rfl
    | cons q l ih =>
      simp only [List.map_cons, List.filter_cons]
      by_cases hq : q.1 = k
      · simp only [hq, ne_eq, not_true_eq_false, decide_false, Bool.false_eq_true, if_false]
        exact ih
      · simp only [ne_eq, hq, not_false_eq_true, decide_true, if_true, List.map_cons]
        rw [ih]
        congr 1
        simp [PWorld.setNumber, Function.update_of_ne hq]

/-- A component that is optimised over drops out of the parameters when its value is
set and the circuit updated. -/
theorem C87_dropped (c : CircSpec) (n : ℕ) (hv : ValidElements n c.els) (rest : Build → Except PyErr Unit)
    (w : PWorld) (ht : w.torch = true) (hs : Synced c n w) (k : Comp) (_hk : k ∈ w.params.map Prod.fst) (t : TId)
    (x : ℝ) (hf : Fresh w t) (w' : PWorld) (h : (w.setNumber k t x).update c n rest = (.ok (), w')) :
    k ∉ w'.params.map Prod.fst ∧ ∀ k' ∈ w.params.map Prod.fst, k' ≠ k → k' ∈ w'.params.map Prod.fst := by
  rw [C87_partial c n hv rest w ht hs k t x hf w' h]
  constructor
  · simp
  · intro k' hk' hne
    obtain ⟨p, hp, rfl⟩ := List.mem_map.1 hk'
    exact List.mem_map.2 ⟨p, List.mem_filter.2 ⟨hp, by simpa using hne⟩, rfl⟩

/-- The property fails for the LC/junction circuit whose junction is optimised over: its Josephson energy is set to 7, the circuit
updated, and there is no parameter left. -/
theorem C87_refuted : ∃ (sv : SvdFn) (argsort : ArgsortFn) (argmax : ∀ k, ArgmaxFn k) (w' : PWorld),
    Synced (lcSpec true sv argsort argmax) 2 (lcWorld false) ∧ Fresh (lcWorld false) 9 ∧
    ((lcWorld false).setNumber (.elem 2) 9 7).update (lcSpec true sv argsort argmax) 2 (fun _ => .ok ()) =
      (.ok (), w') ∧ (lcWorld false).params.map Prod.fst = [.elem 2] ∧ w'.params = [] := by
  obtain ⟨sv, hsv⟩ := exists_svdFn
  obtain ⟨argsort, ha⟩ := exists_argsort
  set argmax : ∀ k, ArgmaxFn k := fun k => (exists_argmax k).choose
  have hf : Fresh (lcWorld false) 9 := by
    constructor
    · intro k
      cases k with
      | elem i => simp only [lcWorld, lcValue]; split_ifs <;> decide
      | loop l => simp [lcWorld, lcValue]
    · simp [lcWorld]
  set w1 := (lcWorld false).setNumber (.elem 2) 9 7 with hw1
  have hvv : ∀ i, i ≠ 2 → ((w1.objs lcObjs).elem i).value = (lcObjs.elem i).value := by
    intro i hi
    have h2 : w1.tensors (w1.value (.elem i)) = (lcWorld false).tensors ((lcWorld false).value (.elem i)) :=
      ((C87_set (lcWorld false) (.elem 2) 9 7 hf).2.1 (.elem i) (by simpa using hi)).2
    change (w1.tensors (w1.value (.elem i))).val = _
    rw [h2]
    by_cases h0 : i = 0
    · subst h0; simp [lcWorld, lcValue, lcTensors, lcObjs]
    · simp [lcWorld, lcValue, lcTensors, lcObjs, h0, hi]
  have hag : AgreeOffJ lcObjs (w1.objs lcObjs) := by
    refine ⟨fun _ => rfl, fun _ => rfl, fun _ => rfl, fun i hi => hvv i ?_⟩
    rintro rfl
    exact hi (by simp [lcObjs])
  have hb : rebuildCirc { lcSpec true sv argsort argmax with torch := w1.torch, O := w1.objs lcObjs } 2
      (fun i => ((w1.objs lcObjs).elem i).value) = .ok (lcBuild true) := by
    have h1 := lc_build_init hsv ha argmax true
    have h2 := rebuild_eq_torch (lcSpec true sv argsort argmax) rfl h1 lcVals
    have hk : (lcBuild true).k = 2 := by simp [lcBuild, Build.k, finishModes, restrict]
    rw [hk, h1] at h2
    rw [← h2]
    exact (buildWith_objs (lcSpec true sv argsort argmax) lcObjs_caps (w1.objs lcObjs) 2 hag _).symm
  refine ⟨sv, argsort, argmax, _, lcWorld_synced _ _ _ _, hf, pupdate_ok (c := lcSpec true sv argsort argmax)
    lcEls_valid (w := w1) rfl hb, by simp [lcWorld], ?_⟩
  rw [hw1, tracked_after hf, ← synced_keys (c := lcSpec true sv argsort argmax) (n := 2) lcEls_valid rfl
    (lcWorld_synced _ _ _ _)]
  simp [lcWorld]

end SQ
