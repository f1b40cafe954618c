import Verif.Model.Params
import Verif.Props.Traverse
import Verif.Lemmas.LcBuild
import Verif.Lemmas.LibExists

/-! # C04, C51, C75: optimization parameters -/

namespace SQ
open Spec

/-! ### Helpers -/

theorem objs_brings (base : Objs) (w : PWorld) : brings (w.objs base) = brings base := rfl

theorem objs_tracked (base : Objs) (w : PWorld) (k : Comp) :
    compTracked (w.objs base) k =
      ((w.tensors (w.value k)).reqGrad || !(w.tensors (w.value k)).isLeaf) := by
  cases k <;> rfl

/-- the keys of the parameters a traversal finds -/
def trackedKeys (base : Objs) (els : Elements) (w : PWorld) : List Comp :=
  (firstUses ((placements els).flatMap (fun q => brings base q.2))).filter
    (fun k => (w.tensors (w.value k)).reqGrad || !(w.tensors (w.value k)).isLeaf)

theorem traverse_keys {c : CircSpec} {n : ℕ} (hv : ValidElements n c.els) {w : PWorld}
    (ht : w.torch = true) {a : Acc n}
    (ha : traverse w.torch c.fd (w.objs c.O) n c.h c.els = .ok a) :
    a.st.params.map Prod.fst = trackedKeys c.O c.els w := by
  obtain ⟨hi, -⟩ := traverse_inv hv ha
  have htr : (annotate (w.objs c.O) 0 c.els).flatMap (fun q => brings (w.objs c.O) q.2.1)
      = (placements c.els).flatMap (fun q => brings c.O q.2) := by
    rw [← annotate_forget (w.objs c.O) 0 c.els, List.flatMap_map, objs_brings]
  have hp := hi.params
  rw [ht] at hp
  simp only [if_true, htr] at hp
  rw [hp]
  simp [paramsOf, List.map_map, Function.comp_def, trackedKeys, objs_tracked]

theorem trackedKeys_nodup (base : Objs) (els : Elements) (w : PWorld) :
    (trackedKeys base els w).Nodup := (nodup_firstUses _).filter _

theorem assignLoop_other : ∀ (ks : List Comp) (ts : List TId) (w : PWorld),
    (assignLoop ks ts w).2.torch = w.torch ∧ (assignLoop ks ts w).2.tensors = w.tensors ∧
    (assignLoop ks ts w).2.params = w.params ∧ (assignLoop ks ts w).2.bd = w.bd ∧
    ∀ k, k ∉ ks → (assignLoop ks ts w).2.value k = w.value k
  | [], _, _ => by simp [assignLoop]
  | _ :: _, [], _ => by simp [assignLoop]
  | k :: ks, t :: ts, w => by
    have := assignLoop_other ks ts { w with value := Function.update w.value k t }
    simp only [assignLoop]
    refine ⟨this.1, this.2.1, this.2.2.1, this.2.2.2.1, fun k' hk' => ?_⟩
    rw [List.mem_cons, not_or] at hk'
    rw [this.2.2.2.2 k' hk'.2]
    exact Function.update_of_ne hk'.1 _ _

theorem assignLoop_values : ∀ (ks : List Comp) (ts : List TId) (w : PWorld), ks.Nodup →
    ∀ i (hi : i < ks.length) (ht : i < ts.length), (assignLoop ks ts w).2.value ks[i] = ts[i]
  | [], _, _, _, _, hi, _ => by simp at hi
  | _ :: _, [], _, _, _, _, ht => by simp at ht
  | k :: ks, t :: ts, w, hn, 0, _, _ => by
    rw [List.nodup_cons] at hn
    simp only [assignLoop, List.getElem_cons_zero]
    rw [(assignLoop_other ks ts _).2.2.2.2 k hn.1]
    simp
  | k :: ks, t :: ts, w, hn, i + 1, hi, ht => by
    rw [List.nodup_cons] at hn
    simp only [assignLoop, List.getElem_cons_succ]
    exact assignLoop_values ks ts _ hn.2 i _ _

theorem assignLoop_beyond : ∀ (ks : List Comp) (ts : List TId) (w : PWorld), ks.Nodup →
    ∀ i (hi : i < ks.length), ts.length ≤ i → (assignLoop ks ts w).2.value ks[i] = w.value ks[i]
  | [], _, _, _, _, hi, _ => by simp at hi
  | _ :: _, [], _, _, _, _, _ => by simp [assignLoop]
  | k :: ks, t :: ts, w, hn, 0, _, ht => by simp at ht
  | k :: ks, t :: ts, w, hn, i + 1, hi, ht => by
    rw [List.nodup_cons] at hn
    have hi' : i < ks.length := by simpa using hi
    simp only [assignLoop, List.getElem_cons_succ]
    rw [assignLoop_beyond ks ts _ hn.2 i hi' (by simpa using ht)]
    refine Function.update_of_ne ?_ _ _
    intro h
    exact hn.1 (h ▸ List.getElem_mem hi')

theorem assignLoop_ok : ∀ (ks : List Comp) (ts : List TId) (w : PWorld),
    (assignLoop ks ts w).1 = if ks.length ≤ ts.length then .ok () else .error .indexError
  | [], _, _ => by simp [assignLoop]
  | _ :: _, [], _ => by simp [assignLoop]
  | k :: ks, t :: ts, w => by simp [assignLoop, assignLoop_ok ks ts]

/-! ## C04 -/

/-- Under NumPy every PyTorch-only call raises ModeError and changes nothing. -/
theorem C04_rejected (c : CircSpec) (n : ℕ) (rest : Build → Except PyErr Unit) (op : POp)
    (w : PWorld) (hw : w.torch = false) : op.exec c n rest w = (.error .modeError, w) := by
  cases op <;> simp [POp.exec, optimOnly, hw, PWorld.setParameters]

/-- Under PyTorch none of them raises ModeError. -/
theorem C04_accepted (c : CircSpec) (n : ℕ) (rest : Build → Except PyErr Unit) (op : POp)
    (w : PWorld) (hw : w.torch = true) (hop : ∀ new, op ≠ .setParameters new) :
    (op.exec c n rest w).1 ≠ .error .modeError := by
  cases op with
  | setParameters new => exact absurd rfl (hop new)
  | setRequiresGrad k f =>
    simp only [POp.exec, optimOnly, hw, Bool.true_eq_false, if_false]
    split <;> simp
  | _ => simp [POp.exec, optimOnly, hw]

/-- Under NumPy no capacitor, inductor, junction or loop can be created with `requires_grad=True`; if
the same call without it succeeds, the exception is ModeError. -/
theorem C04_constructor (g : Globals) (hg : getOptimMode g = false) (z v err A : ℝ)
    (unit : Option String) :
    (∀ x, capNew g z v unit err true ≠ .ok x) ∧ (∀ x, indNew g z v unit err true ≠ .ok x) ∧
    (∀ x, jjNew g z v unit err true ≠ .ok x) ∧ loopNew g v A true = .error .modeError ∧
    (∀ x, capNew g z v unit err false = .ok x → capNew g z v unit err true = .error .modeError) ∧
    (∀ x, indNew g z v unit err false = .ok x → indNew g z v unit err true = .error .modeError) ∧
    (∀ x, jjNew g z v unit err false = .ok x → jjNew g z v unit err true = .error .modeError) := by
  have h1 : ∀ (val : Except PyErr Elem) x, componentInit false val true ≠ .ok x := by
    intro val x
    cases val <;> simp [componentInit]
  have h2 : ∀ (val : Except PyErr Elem) x, componentInit false val false = .ok x →
      componentInit false val true = .error .modeError := by
    intro val x
    cases val <;> simp [componentInit]
  simp only [capNew, indNew, jjNew, loopNew, hg]
  exact ⟨h1 _, h1 _, h1 _, rfl, h2 _, h2 _, h2 _⟩

/-- Under PyTorch `requires_grad=True` is accepted wherever the call without it is. -/
theorem C04_constructor_torch (g : Globals) (hg : getOptimMode g = true) (z v err A : ℝ)
    (unit : Option String) (x : Elem) :
    (capNew g z v unit err true = .ok (x, true) ↔ capNew g z v unit err false = .ok (x, false)) ∧
    (indNew g z v unit err true = .ok (x, true) ↔ indNew g z v unit err false = .ok (x, false)) ∧
    (jjNew g z v unit err true = .ok (x, true) ↔ jjNew g z v unit err false = .ok (x, false)) ∧
    (∃ l, loopNew g v A true = .ok (l, true) ∧ loopNew g v A false = .ok (l, false)) := by
  have h1 : ∀ (val : Except PyErr Elem), componentInit true val true = .ok (x, true) ↔
      componentInit true val false = .ok (x, false) := by
    intro val
    cases val <;> simp [componentInit]
  simp only [capNew, indNew, jjNew, loopNew, hg]
  exact ⟨h1 _, h1 _, h1 _, _, rfl, rfl⟩

/-- A constructor that succeeds returns the object with the value and tolerance that the class computes from its arguments
(C06, C09), requiring a gradient exactly if asked to. -/
theorem C04_new (g : Globals) (z v err A : ℝ) (unit : Option String) (rg f : Bool) (x : Elem) (l : LoopObj) :
    (capNew g z v unit err rg = .ok (x, f) → capInit g z v unit err = .ok x ∧ f = rg) ∧
    (indNew g z v unit err rg = .ok (x, f) → indInit g z v unit err = .ok x ∧ f = rg) ∧
    (jjNew g z v unit err rg = .ok (x, f) → jjInit g z v unit err = .ok x ∧ f = rg) ∧
    (loopNew g v A rg = .ok (l, f) → l.A = A * 2 * Real.pi ∧ l.value = v * 2 * Real.pi ∧ f = rg) := by
  have h1 : ∀ {α : Type} (b : Bool) (val : Except PyErr α) (x : α), componentInit b val rg = .ok (x, f) → val = .ok x ∧ f = rg := by
    intro α b val x
    cases b <;> cases rg <;> cases val <;> simp [componentInit] <;> tauto
  refine ⟨h1 _ _ _, h1 _ _ _, h1 _ _ _, ?_⟩
  intro h
  obtain ⟨h2, h3⟩ := h1 _ _ _ h
  cases h2
  exact ⟨rfl, rfl, h3⟩

/-- right after import the engine is NumPy, and `Capacitor(2, 'pF')` succeeds -/
example : getOptimMode Globals.init = false ∧
    ∃ x, capNew Globals.init 0 2 (some "pF") 0 false = .ok x := by
  constructor
  · simp only [getOptimMode, getEngine, Globals.init]
    decide
  · have h : ∃ x, capInit Globals.init 0 2 (some "pF") 0 = .ok x := by
      simp [capInit, elemInit, capUnitOk, capSetValue, setValueWithError, capMean, Table.has, Table.get,
        faradList, freqList]
    obtain ⟨x, hx⟩ := h
    exact ⟨_, by simp only [capNew, hx, componentInit]; rfl⟩

/-! ## C51 -/

/-- The circuit's parameters are those its current elements have: what construction or an update
leaves. -/
def Synced (c : CircSpec) (n : ℕ) (w : PWorld) : Prop :=
  ∃ a, traverse w.torch c.fd (w.objs c.O) n c.h c.els = .ok a ∧
    w.params = a.st.params.map (fun p => (p.1, w.value p.1))

theorem synced_keys {c : CircSpec} {n : ℕ} (hv : ValidElements n c.els) {w : PWorld}
    (ht : w.torch = true) (hs : Synced c n w) :
    w.params.map Prod.fst = trackedKeys c.O c.els w := by
  obtain ⟨a, ha, hp⟩ := hs
  rw [← traverse_keys hv ht ha, hp]
  simp [Function.comp_def]

theorem synced_params {c : CircSpec} {n : ℕ} {w : PWorld} (hs : Synced c n w) :
    w.params = (w.params.map Prod.fst).map (fun k => (k, w.value k)) := by
  obtain ⟨a, -, hp⟩ := hs
  rw [hp]; simp [Function.comp_def]

theorem withVals_self (O : Objs) : O.withVals (fun i => (O.elem i).value) = O := rfl

theorem rebuild_traverse {c : CircSpec} {n : ℕ} {w : PWorld} {bd : Build}
    (h : rebuildCirc { c with torch := w.torch, O := w.objs c.O } n
      (fun i => ((w.objs c.O).elem i).value) = .ok bd) :
    ∃ a, traverse w.torch c.fd (w.objs c.O) n c.h c.els = .ok a := by
  unfold rebuildCirc buildWith at h
  rw [withVals_self] at h
  simp only [getLCWB] at h
  cases ht : traverse w.torch c.fd (w.objs c.O) n c.h c.els with
  | ok a => exact ⟨a, rfl⟩
  | error e => rw [ht] at h; cases h

theorem pupdate_error {c : CircSpec} {n : ℕ} {rest : Build → Except PyErr Unit} {w : PWorld} {e : PyErr}
    (h : rebuildCirc { c with torch := w.torch, O := w.objs c.O } n
      (fun i => ((w.objs c.O).elem i).value) = .error e) : (w.update c n rest).1 = .error e := by
  unfold PWorld.update
  cases ht : traverse w.torch c.fd (w.objs c.O) n c.h c.els with
  | ok a => simp only [ht, h]
  | error e' =>
    simp only [ht]
    unfold rebuildCirc buildWith at h
    rw [withVals_self] at h
    simp only [getLCWB, ht] at h
    injection h with h
    rw [h]

theorem pupdate_ok {c : CircSpec} {n : ℕ} (hv : ValidElements n c.els)
    {rest : Build → Except PyErr Unit} {w : PWorld} (ht : w.torch = true) {bd : Build}
    (h : rebuildCirc { c with torch := w.torch, O := w.objs c.O } n
      (fun i => ((w.objs c.O).elem i).value) = .ok bd) :
    w.update c n rest = (rest bd, { w with
      params := (trackedKeys c.O c.els w).map (fun k => (k, w.value k)), bd := some bd }) := by
  obtain ⟨a, ha⟩ := rebuild_traverse h
  rw [← traverse_keys hv ht ha]
  unfold PWorld.update
  simp only [ha, h]
  simp [Function.comp_def]

/-- The circuit `w` with the values of its parameters replaced by `new`: the i-th parameter refers to
the i-th new tensor, all other components keep their tensors. -/
def Replaced (w : PWorld) (new : List TId) (value : Comp → TId) : Prop :=
  (∀ i (h : i < w.params.length) (h' : i < new.length), value w.params[i].1 = new[i]) ∧
  ∀ k, k ∉ w.params.map Prod.fst → value k = w.value k

theorem replaced_assign {w : PWorld} (hn : (w.params.map Prod.fst).Nodup) (new : List TId) :
    Replaced w new (assignLoop (w.params.map Prod.fst) new w).2.value := by
  refine ⟨fun i h h' => ?_, fun k hk => (assignLoop_other _ _ _).2.2.2.2 k hk⟩
  have := assignLoop_values (w.params.map Prod.fst) new w hn i (by simpa using h) h'
  simpa using this

/-- After the values of the parameters have been replaced by tensors that need gradients, the
traversal finds the same parameters. -/
theorem trackedKeys_replaced {c : CircSpec} {n : ℕ} (hv : ValidElements n c.els) {w w' : PWorld}
    (ht : w.torch = true) (hs : Synced c n w) {new : List TId}
    (hlen : w.params.length ≤ new.length)
    (hnew : ∀ t ∈ new, (w.tensors t).reqGrad = true ∨ (w.tensors t).isLeaf = false)
    (ht' : w'.tensors = w.tensors) (hr : Replaced w new w'.value) :
    trackedKeys c.O c.els w' = w.params.map Prod.fst := by
  have hk := synced_keys hv ht hs
  rw [hk]
  unfold trackedKeys
  apply List.filter_congr
  intro k hmem
  rw [ht']
  by_cases h : k ∈ w.params.map Prod.fst
  · obtain ⟨i, hi, rfl⟩ := List.getElem_of_mem h
    have hi' : i < w.params.length := by simpa using hi
    have h1 : ((w.tensors (w.value (w.params.map Prod.fst)[i])).reqGrad ||
        !(w.tensors (w.value (w.params.map Prod.fst)[i])).isLeaf) = true := by
      have h0 : ∀ k ∈ w.params.map Prod.fst, ((w.tensors (w.value k)).reqGrad ||
          !(w.tensors (w.value k)).isLeaf) = true := by
        intro k hk'
        rw [hk] at hk'
        exact (List.mem_filter.1 hk').2
      exact h0 _ h
    have h2 : ((w.tensors (w'.value (w.params.map Prod.fst)[i])).reqGrad ||
        !(w.tensors (w'.value (w.params.map Prod.fst)[i])).isLeaf) = true := by
      have h3 : w'.value (w.params.map Prod.fst)[i] = new[i] := by
        rw [← hr.1 i hi' (by omega)]; simp
      rw [h3]
      rcases hnew _ (List.getElem_mem (by omega : i < new.length)) with h | h <;> simp [h]
    rw [h1, h2]
  · rw [hr.2 k h]

theorem zip_of_replaced {w : PWorld} {new : List TId} {value : Comp → TId}
    (hlen : w.params.length = new.length) (hr : Replaced w new value) :
    (w.params.map Prod.fst).map (fun k => (k, value k)) = (w.params.map Prod.fst).zip new := by
  apply List.ext_getElem
  · simp [hlen]
  · intro i h1 h2
    have hi : i < w.params.length := by simpa using h1
    simp [hr.1 i hi (by omega)]

/-- Assigning as many tensors as there are parameters, all needing gradients: each parameter now is
the new tensor (so `parameters` returns exactly the assigned list), every other component keeps its
value, no tensor is changed, and the circuit is rebuilt from the new values. -/
theorem C51_assign (c : CircSpec) (n : ℕ) (hv : ValidElements n c.els)
    (rest : Build → Except PyErr Unit) (w : PWorld) (ht : w.torch = true) (hs : Synced c n w)
    (new : List TId) (hlen : new.length = w.params.length)
    (hnew : ∀ t ∈ new, (w.tensors t).reqGrad = true ∨ (w.tensors t).isLeaf = false) :
    ∃ value, Replaced w new value ∧
      (∀ bd, rebuildCirc { c with torch := true, O := { w with value := value }.objs c.O } n
          (fun i => (w.tensors (value (.elem i))).val) = .ok bd →
        ((POp.setParameters new).exec c n rest w).1 = (rest bd).map (fun _ => PRet.none) ∧
        ((POp.setParameters new).exec c n rest w).2 =
          { w with value := value, params := (w.params.map Prod.fst).zip new, bd := some bd } ∧
        Synced c n ((POp.setParameters new).exec c n rest w).2 ∧
        (POp.parameters.exec c n rest ((POp.setParameters new).exec c n rest w).2).1
          = .ok (.tensors new)) ∧
      (∀ e, rebuildCirc { c with torch := true, O := { w with value := value }.objs c.O } n
          (fun i => (w.tensors (value (.elem i))).val) = .error e →
        ((POp.setParameters new).exec c n rest w).1 = .error e) := by
  have hk := synced_keys hv ht hs
  have hn : (w.params.map Prod.fst).Nodup := by rw [hk]; exact trackedKeys_nodup _ _ _
  obtain ⟨o1, o2, o3, o4, -⟩ := assignLoop_other (w.params.map Prod.fst) new w
  have hok := assignLoop_ok (w.params.map Prod.fst) new w
  rw [if_pos (by simp [hlen])] at hok
  have hr := replaced_assign hn new
  generalize hw' : assignLoop (w.params.map Prod.fst) new w = r at o1 o2 o3 o4 hok hr
  obtain ⟨r1, w'⟩ := r
  simp only at o1 o2 o3 o4 hok hr
  subst hok
  have he : w' = { w with value := w'.value } := by
    cases w'; simp_all
  have hset : w.setParameters c n rest new = w'.update c n rest := by
    unfold PWorld.setParameters optimOnly
    rw [if_neg (by simp [ht])]
    rw [hw']
  refine ⟨w'.value, hr, fun bd hbd => ?_, fun e hb => ?_⟩
  · rw [← he, ← o2] at hbd
    have hbd' : rebuildCirc { c with torch := w'.torch, O := w'.objs c.O } n
      (fun i => ((w'.objs c.O).elem i).value) = .ok bd := by
      rw [o1, ht]; exact hbd
    have hu := pupdate_ok hv (rest := rest) (by rw [o1, ht]) hbd'
    rw [trackedKeys_replaced hv ht hs (by omega) hnew o2 hr, zip_of_replaced hlen.symm hr] at hu
    have hx : ((POp.setParameters new).exec c n rest w) =
        ((rest bd).map (fun _ => PRet.none),
          { w with value := w'.value, params := (w.params.map Prod.fst).zip new, bd := some bd }) := by
      simp only [POp.exec, hset, hu]
      cases rest bd <;> simp only [Except.map] <;> rw [o1, o2]
    rw [hx]
    refine ⟨rfl, rfl, ?_, ?_⟩
    · obtain ⟨a, ha⟩ := rebuild_traverse hbd'
      refine ⟨a, ?_, ?_⟩
      · rw [o1] at ha
        rw [he] at ha
        exact ha
      · have := traverse_keys hv (by rw [o1, ht]) ha
        rw [trackedKeys_replaced hv ht hs (by omega) hnew o2 hr] at this
        simp only
        rw [← zip_of_replaced hlen.symm hr, ← this]
        simp [Function.comp_def]
    · simp only [POp.exec, optimOnly, ht]
      simp only [Bool.true_eq_false, if_false]
      rw [List.map_snd_zip (by simp [hlen])]
  · rw [← he, ← o2] at hb
    have hb' : rebuildCirc { c with torch := w'.torch, O := w'.objs c.O } n
      (fun i => ((w'.objs c.O).elem i).value) = .error e := by
      rw [o1, ht]; exact hb
    have := pupdate_error (rest := rest) hb'
    simp only [POp.exec, hset]
    generalize w'.update c n rest = u at this
    obtain ⟨u1, u2⟩ := u
    simp only at this
    subst this
    rfl

/-- What assigning too short a list does: it raises ValueError without rebuilding the circuit, but the
first `new.length` parameters' elements already have the new values. (The claim is that they keep
theirs.) -/
theorem C51_short (c : CircSpec) (n : ℕ) (hv : ValidElements n c.els)
    (rest : Build → Except PyErr Unit) (w : PWorld) (ht : w.torch = true) (hs : Synced c n w)
    (new : List TId) (hlen : new.length < w.params.length) :
    ∃ value, (POp.setParameters new).exec c n rest w = (.error .valueError, { w with value := value }) ∧
      Replaced w new value ∧
      ∀ i (h : i < w.params.length), new.length ≤ i → value w.params[i].1 = w.value w.params[i].1 := by
  have hk := synced_keys hv ht hs
  have hn : (w.params.map Prod.fst).Nodup := by rw [hk]; exact trackedKeys_nodup _ _ _
  obtain ⟨o1, o2, o3, o4, -⟩ := assignLoop_other (w.params.map Prod.fst) new w
  have hok := assignLoop_ok (w.params.map Prod.fst) new w
  rw [if_neg (by simpa using hlen)] at hok
  have hr := replaced_assign hn new
  have hb := assignLoop_beyond (w.params.map Prod.fst) new w hn
  generalize hw' : assignLoop (w.params.map Prod.fst) new w = r at o1 o2 o3 o4 hok hr hb
  obtain ⟨r1, w'⟩ := r
  simp only at o1 o2 o3 o4 hok hr
  subst hok
  have he : w' = { w with value := w'.value } := by
    cases w'; simp_all
  refine ⟨w'.value, ?_, hr, fun i h hi => ?_⟩
  · simp only [POp.exec, PWorld.setParameters, optimOnly]
    rw [if_neg (by simp [ht])]
    rw [hw', ← he]
  · have := hb i (by simpa using h) hi
    simpa using this

/-- The part of the claim about short lists that holds: the empty list changes nothing. -/
theorem C51_empty_partial (c : CircSpec) (n : ℕ) (rest : Build → Except PyErr Unit) (w : PWorld)
    (ht : w.torch = true) (hne : w.params ≠ []) :
    (POp.setParameters []).exec c n rest w = (.error .valueError, w) := by
  cases hp : w.params with
  | nil => exact absurd hp hne
  | cons p ps =>
    simp [POp.exec, PWorld.setParameters, optimOnly, ht, hp, assignLoop]

/-- Surplus entries of a longer list are ignored. -/
theorem C51_long (c : CircSpec) (n : ℕ) (rest : Build → Except PyErr Unit) (w : PWorld)
    (new extra : List TId) (hlen : new.length = w.params.length) :
    (POp.setParameters (new ++ extra)).exec c n rest w = (POp.setParameters new).exec c n rest w := by
  have : ∀ (ks : List Comp) (new : List TId) (w : PWorld), new.length = ks.length →
      assignLoop ks (new ++ extra) w = assignLoop ks new w := by
    intro ks
    induction ks with
    | nil => intro new w _; simp [assignLoop]
    | cons k ks ih =>
      intro new w h
      cases new with
      | nil => simp at h
      | cons t ts => simp only [List.cons_append, assignLoop]; exact ih _ _ (by simpa using h)
  simp only [POp.exec, PWorld.setParameters]
  rw [this _ _ _ (by simpa using hlen)]

/-- Tensors that need no gradient are accepted, but afterwards are no parameters any more: the
parameters are those with tensors that do. -/
theorem C51_dropped (c : CircSpec) (n : ℕ) (hv : ValidElements n c.els)
    (rest : Build → Except PyErr Unit) (w : PWorld) (ht : w.torch = true)
    (new : List TId) (r : PRet) (w' : PWorld)
    (h : (POp.setParameters new).exec c n rest w = (.ok r, w')) :
    ∀ p ∈ w'.params, (w'.tensors p.2).reqGrad = true ∨ (w'.tensors p.2).isLeaf = false := by
  simp only [POp.exec, PWorld.setParameters, optimOnly, ht] at h
  simp only [Bool.true_eq_false, if_false] at h
  obtain ⟨o1, o2, o3, o4, -⟩ := assignLoop_other (w.params.map Prod.fst) new w
  generalize assignLoop (w.params.map Prod.fst) new w = q at h o1 o2 o3 o4
  obtain ⟨q1, q2⟩ := q
  cases q1 with
  | error e => simp at h
  | ok u =>
    simp only at h
    cases hb : rebuildCirc { c with torch := q2.torch, O := q2.objs c.O } n
      (fun i => ((q2.objs c.O).elem i).value) with
    | error e =>
      have := pupdate_error (rest := rest) hb
      generalize q2.update c n rest = z at h this
      obtain ⟨z1, z2⟩ := z
      simp only at this
      subst this
      simp at h
    | ok bd =>
      rw [pupdate_ok hv (by rw [o1, ht]) hb] at h
      have hw' : w' = { q2 with
          params := (trackedKeys c.O c.els q2).map (fun k => (k, q2.value k)), bd := some bd } := by
        generalize rest bd = rr at h
        cases rr <;> simp at h
        exact h.2.symm
      subst hw'
      intro p hp
      simp only [List.mem_map] at hp
      obtain ⟨k, hk, rfl⟩ := hp
      have := (List.mem_filter.1 hk).2
      simpa using this

/-! ### The LC/junction circuit with tensors -/

/-- tensor 2 (the junction's) and tensor 5 need gradients, and tensor 0 (the inductor's) if `both` -/
noncomputable def lcTensors (both : Bool) (t : TId) : Tensor :=
  if t = 2 then ⟨5, true, true, none⟩
  else if t = 5 then ⟨7, true, true, none⟩
  else if t = 6 then ⟨0, false, true, none⟩
  else ⟨1, t == 0 && both, true, none⟩

noncomputable def lcValue : Comp → TId
  | .elem i => if i = 0 then 0 else if i = 2 then 2 else 1
  | .loop _ => 6

noncomputable def lcWorld (both : Bool) : PWorld where
  torch := true
  tensors := lcTensors both
  value := lcValue
  params := if both then [(.elem 0, 0), (.elem 2, 2)] else [(.elem 2, 2)]
  bd := none

theorem lcWorld_synced (both : Bool) (sv : SvdFn) (argsort : ArgsortFn) (argmax : ∀ k, ArgmaxFn k) :
    Synced (lcSpec true sv argsort argmax) 2 (lcWorld both) := by
  have hind : ∀ p ∈ lcEls, ∀ i ∈ p.2, (((lcWorld both).objs lcObjs).elem i).kind = .ind →
      (((lcWorld both).objs lcObjs).elem i).value ≠ 0 := by
    intro p hp i hi hk
    simp [lcEls] at hp
    rcases hp with rfl | rfl <;> simp at hi <;> subst hi <;>
      simp [PWorld.objs, lcWorld, lcTensors, lcValue, lcObjs] at hk ⊢
  obtain ⟨a, ha⟩ := buildEdges_succeeds true .junctions lcEls_valid hind
    (initAcc 2 (fun _ => LoopObj.init 0 0))
  have hk := traverse_keys (c := lcSpec true sv argsort argmax) (n := 2) (w := lcWorld both)
    lcEls_valid rfl (a := a) ha
  refine ⟨a, ha, ?_⟩
  have h2 : a.st.params.map (fun p => (p.1, (lcWorld both).value p.1)) =
      (a.st.params.map Prod.fst).map (fun k => (k, (lcWorld both).value k)) := by
    simp [Function.comp_def]
  rw [h2, hk]
  cases both
  · simp [trackedKeys, lcSpec, lcEls, placements, brings, lcObjs, firstUses, lcWorld, lcTensors, lcValue]
  · simp [trackedKeys, lcSpec, lcEls, placements, brings, lcObjs, firstUses, lcWorld, lcTensors, lcValue]

/-- Refutation of the claim about too short lists: the LC/junction circuit with two parameters,
assigned the one-element list `[tensor 5]`: ValueError, but the inductor now has the new tensor. -/
theorem C51_refuted (sv : SvdFn) (argsort : ArgsortFn) (argmax : ∀ k, ArgmaxFn k)
    (rest : Build → Except PyErr Unit) :
    Synced (lcSpec true sv argsort argmax) 2 (lcWorld true) ∧
    ((POp.setParameters [5]).exec (lcSpec true sv argsort argmax) 2 rest (lcWorld true)).1
      = .error .valueError ∧
    (lcWorld true).value (.elem 0) = 0 ∧
    ((POp.setParameters [5]).exec (lcSpec true sv argsort argmax) 2 rest (lcWorld true)).2.value
      (.elem 0) = 5 := by
  refine ⟨lcWorld_synced _ _ _ _, ?_⟩
  obtain ⟨value, h1, h2, -⟩ := C51_short (lcSpec true sv argsort argmax) 2 lcEls_valid rest
    (lcWorld true) rfl (lcWorld_synced _ _ _ _) [5] (by simp [lcWorld])
  rw [h1]
  refine ⟨rfl, by simp [lcWorld, lcValue], ?_⟩
  have := h2.1 0 (by simp [lcWorld]) (by simp)
  simpa [lcWorld] using this

/-- assigning `[tensor 5]` to the LC/junction circuit whose junction is the only parameter: the
assignment succeeds, the junction has the new tensor, the circuit is rebuilt -/
example : ∃ (sv : SvdFn) (argsort : ArgsortFn) (argmax : ∀ k, ArgmaxFn k),
    (POp.setParameters [5]).exec (lcSpec true sv argsort argmax) 2 (fun _ => .ok ()) (lcWorld false)
      = (.ok .none, { lcWorld false with
          value := Function.update lcValue (.elem 2) 5
          params := [(.elem 2, 5)]
          bd := some (lcBuild true) }) := by
  obtain ⟨sv, hsv⟩ := exists_svdFn
  obtain ⟨argsort, ha⟩ := exists_argsort
  refine ⟨sv, argsort, fun k => (exists_argmax k).choose, ?_⟩
  set argmax : ∀ k, ArgmaxFn k := fun k => (exists_argmax k).choose
  obtain ⟨value, hr, hok, -⟩ := C51_assign (lcSpec true sv argsort argmax) 2 lcEls_valid
    (fun _ => .ok ()) (lcWorld false) rfl (lcWorld_synced _ _ _ _) [5] (by simp [lcWorld])
    (by simp [lcWorld, lcTensors])
  have hval : value = Function.update lcValue (.elem 2) 5 := by
    funext k
    by_cases hk : k = .elem 2
    · subst hk
      have := hr.1 0 (by simp [lcWorld]) (by simp)
      simpa [lcWorld] using this
    · rw [hr.2 k (by simpa [lcWorld] using hk), Function.update_of_ne hk]
      rfl
  subst hval
  set v : ElemId → ℝ := fun i => (lcTensors false (Function.update lcValue (.elem 2) 5 (.elem i))).val
  have hO : ({ lcWorld false with value := Function.update lcValue (.elem 2) 5 } : PWorld).objs lcObjs
      = lcObjs.withVals v := by
    unfold PWorld.objs Objs.withVals
    congr 1
    · funext i
      by_cases h0 : i = 0
      · subst h0; simp [lcObjs, lcWorld, lcTensors, v, lcValue, Function.update]
      · by_cases h2 : i = 2
        · subst h2; simp [lcObjs, lcWorld, lcTensors, v, Function.update]
        · simp [lcObjs, lcWorld, lcTensors, v, lcValue, Function.update, h0, h2]
  have hb : rebuildCirc (lcSpec true sv argsort argmax) 2 v = .ok (lcBuild true) := by
    have h1 := lc_build hsv ha argmax true v (by
      intro i hi
      by_cases h0 : i = 0
      · subst h0; simp [v, lcVals, lcObjs, lcTensors, lcValue, Function.update]
      · simp [v, lcVals, lcObjs, lcTensors, lcValue, Function.update, h0, hi])
    have h2 := rebuild_eq_torch (lcSpec true sv argsort argmax) rfl h1 v
    have hk : (lcBuild true).k = 2 := by
      simp [lcBuild, Build.k, finishModes, restrict]
    rw [hk, h1] at h2
    exact h2
  have := hok (lcBuild true) (by
    change rebuildCirc { lcSpec true sv argsort argmax with
      O := ({ lcWorld false with value := Function.update lcValue (.elem 2) 5 } : PWorld).objs lcObjs } 2 v
      = _
    rw [hO]
    exact hb)
  refine Prod.ext ?_ ?_
  · rw [this.1]; rfl
  · rw [this.2.1]; simp [lcWorld]

/-! ## C75 -/

theorem clearGrads_eq (ts : List TId) (w : PWorld) :
    clearGrads ts w = { w with tensors := fun t =>
      if t ∈ ts then { w.tensors t with grad := none } else w.tensors t } := by
  induction ts generalizing w with
  | nil => simp [clearGrads]
  | cons t ts ih =>
    have : clearGrads (t :: ts) w = clearGrads ts (w.setTensor t { w.tensors t with grad := none }) := rfl
    rw [this, ih]
    unfold PWorld.setTensor
    congr 1
    funext t'
    by_cases h : t' = t
    · subst h
      by_cases h' : t' ∈ ts <;> simp [h']
    · by_cases h' : t' ∈ ts <;> simp [h, h']

/-- `zero_grad` sets the gradient of every parameter to None and changes nothing else: neither values
nor flags nor the gradients of other tensors. -/
theorem C75_zero_grad (c : CircSpec) (n : ℕ) (rest : Build → Except PyErr Unit) (w : PWorld)
    (ht : w.torch = true) :
    ∃ ts, POp.zeroGrad.exec c n rest w = (.ok .none, { w with tensors := ts }) ∧
      ∀ t, (ts t).val = (w.tensors t).val ∧ (ts t).reqGrad = (w.tensors t).reqGrad ∧
        (ts t).isLeaf = (w.tensors t).isLeaf ∧
        (ts t).grad = open Classical in
          if ∃ k, (k, t) ∈ w.params then none else (w.tensors t).grad := by
  refine ⟨_, by simp only [POp.exec, optimOnly, ht, clearGrads_eq]; rfl, fun t => ?_⟩
  by_cases h : ∃ k, (k, t) ∈ w.params
  · simp [h]
  · simp [h]

/-- `parameters_grad` gives the gradients in the order of `parameters`: as a stacked tensor if none of
them is missing, otherwise as a list. -/
theorem C75_parameters_grad (c : CircSpec) (n : ℕ) (rest : Build → Except PyErr Unit) (w : PWorld)
    (ht : w.torch = true) :
    ∃ r, POp.parametersGrad.exec c n rest w = (.ok r, w) ∧
      (∀ l, r = .gradTensor l ↔ w.params.map (fun p => (w.tensors p.2).grad) = l.map some) ∧
      ((∃ p ∈ w.params, (w.tensors p.2).grad = none) →
        r = .gradList (w.params.map (fun p => (w.tensors p.2).grad))) := by
  refine ⟨gradsOf w, by simp [POp.exec, optimOnly, ht], ?_, ?_⟩
  · intro l
    simp only [gradsOf]
    generalize w.params.map (fun p => (w.tensors p.2).grad) = g
    by_cases h : none ∈ g
    · rw [if_pos (by simpa using h)]
      simp only [reduceCtorEq, false_iff]
      rintro rfl
      simp at h
    · rw [if_neg (by simpa using h)]
      have : g = (g.filterMap id).map some := by
        clear l
        induction g with
        | nil => rfl
        | cons x xs ih =>
          cases x with
          | none => simp at h
          | some x => simp at h ⊢; exact ih h
      constructor
      · intro h'
        injection h' with h'
        rw [← h']; exact this
      · rintro rfl
        simp
  · rintro ⟨p, hp, h⟩
    simp only [gradsOf]
    rw [if_pos]
    simp only [List.contains_iff_mem, List.mem_map]
    exact ⟨p, hp, h⟩

/-- After `zero_grad`, `parameters_grad` is a list of `None`s (if there are parameters). -/
theorem C75_after_zero_grad (c : CircSpec) (n : ℕ) (rest : Build → Except PyErr Unit) (w : PWorld)
    (ht : w.torch = true) (hne : w.params ≠ []) :
    (POp.parametersGrad.exec c n rest (POp.zeroGrad.exec c n rest w).2).1 =
      .ok (.gradList (w.params.map (fun _ => none))) := by
  obtain ⟨ts, h, hts⟩ := C75_zero_grad c n rest w ht
  rw [h]
  obtain ⟨r, hr, -, h2⟩ := C75_parameters_grad c n rest { w with tensors := ts } ht
  rw [hr]
  have h0 : ∀ p ∈ w.params, (ts p.2).grad = none := by
    intro p hp
    rw [(hts p.2).2.2.2, if_pos ⟨p.1, hp⟩]
  obtain ⟨p, hp⟩ := List.exists_mem_of_ne_nil _ hne
  rw [h2 ⟨p, hp, h0 p hp⟩]
  simp only
  congr 2
  exact List.map_congr_left h0

/-- in the LC/junction circuit with parameters 0 and 2 -/
example (c : CircSpec) (n : ℕ) (rest : Build → Except PyErr Unit) :
    (POp.parametersGrad.exec c n rest (POp.zeroGrad.exec c n rest (lcWorld true)).2).1 =
      .ok (.gradList [none, none]) := by
  rw [C75_after_zero_grad _ _ _ _ rfl (by simp [lcWorld])]
  simp [lcWorld]

end SQ
