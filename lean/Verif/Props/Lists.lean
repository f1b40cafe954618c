import Verif.Spec.Lists
import Verif.Props.Shared
import Verif.Props.Relabel
import Verif.Lemmas.CircuitState
import Verif.Props.Listing

/-!
# C122: a circuit and the lists it was built from
-/

namespace SQ
open Matrix Spec

section
variable {c : CircSpec} {eigs : EigsRoutine} {as : List ℂ → List ℕ}

theorem script_snoc (s : Script c eigs as) (h : List ScriptAct) (a : ScriptAct) :
    scriptRun s (h ++ [a]) = (a.exec (scriptRun s h)).2 := by
  unfold scriptRun
  rw [List.foldl_append]
  rfl

theorem script_own (s : Script c eigs as) (h : List ScriptAct) : (scriptRun s h).own = s.own := by
  induction h using List.reverseRecOn with
  | nil => rfl
  | append_singleton h a ih =>
    rw [script_snoc, ← ih]
    cases a with
    | call a => cases a <;> rfl
    | editList l new => rfl
    | setEntry e l => rfl
    | delEntry e => rfl

theorem script_lists (s : Script c eigs as) (h : List ScriptAct) (l : ListId) (hl : ∀ new, .editList l new ∉ h) :
    (scriptRun s h).lists l = s.lists l := by
  induction h using List.reverseRecOn with
  | nil => rfl
  | append_singleton h a ih =>
    rw [script_snoc, ← ih (fun new hm => hl new (List.mem_append_left _ hm))]
    cases a with
    | call a => cases a <;> rfl
    | editList l' new =>
      refine Function.update_of_ne ?_ _ _
      rintro rfl
      exact hl new (by simp)
    | setEntry e l => rfl
    | delEntry e => rfl

theorem calls_append (h1 h2 : List ScriptAct) : calls (h1 ++ h2) = calls h1 ++ calls h2 := by
  induction h1 with
  | nil => rfl
  | cons a h ih => cases a <;> simp [calls, ih]

theorem withEls_self {els : Elements} (h : els = c.els) : c.withEls els = c := by
  subst h
  rfl

/-- a circuit that sees its first elements at every `update` is the circuit of the model of one circuit -/
theorem script_follows (s0 : Script c eigs as) (h : List ScriptAct)
    (hup : ∀ h1 h2, h = h1 ++ .call .update :: h2 → (scriptRun s0 h1).elements = c.els) :
    (scriptRun s0 h).w = run s0.w (calls h) ∧
    ∀ a, (a = Act.update → (scriptRun s0 h).elements = c.els) →
      ((ScriptAct.call a).exec (scriptRun s0 h)).1 = (a.exec (run s0.w (calls h))).1 := by
  have key : ∀ (s : Script c eigs as) (a : Act), (a = Act.update → s.elements = c.els) →
      ((ScriptAct.call a).exec s).1 = (a.exec s.w).1 ∧ ((ScriptAct.call a).exec s).2.w = (a.exec s.w).2 := by
    intro s a ha
    cases a with
    | update =>
      unfold ScriptAct.exec
      rw [withEls_self (ha rfl)]
      exact ⟨rfl, rfl⟩
    | _ => exact ⟨rfl, rfl⟩
  have hw : (scriptRun s0 h).w = run s0.w (calls h) := by
    induction h using List.reverseRecOn with
    | nil => rfl
    | append_singleton h a ih =>
      have ih' := ih (fun h1 h2 e => hup h1 (h2 ++ [a]) (by rw [e]; simp))
      rw [script_snoc, calls_append]
      cases a with
      | call a =>
        rw [(key _ a (fun e => hup h [] (by rw [e]))).2, ih']
        show _ = run s0.w (calls h ++ [a])
        unfold run
        rw [List.foldl_append]
        rfl
      | editList l new => simpa [calls, ScriptAct.exec] using ih'
      | setEntry e l => simpa [calls, ScriptAct.exec] using ih'
      | delEntry e => simpa [calls, ScriptAct.exec] using ih'
  exact ⟨hw, fun a ha => by rw [(key _ a ha).1, hw]⟩

theorem script_constructed {lists : ListId → List ElemId} {dict : ListDict} (hc : c.els = listed dict lists)
    (vals : ElemId → ℝ) (flux : LoopId → ℝ) (u : ℝ) :
    (∀ e, Script.construct c eigs as lists dict vals flux u = .error e ↔ construct (circPhys c eigs as) vals flux u = .error e) ∧
    ∀ s, Script.construct c eigs as lists dict vals flux u = .ok s →
      construct (circPhys c eigs as) vals flux u = .ok s.w ∧ s.own = dict ∧ s.lists = lists := by
  unfold Script.construct construct
  rw [withEls_self hc.symm]
  have e0 : (circPhys c eigs as).build vals = buildCirc c vals := rfl
  rw [e0]
  cases buildCirc c vals with
  | error e => exact ⟨fun e' => ⟨fun h => by cases h; rfl, fun h => by cases h; rfl⟩, fun s h => by cases h⟩
  | ok bd =>
    refine ⟨fun e' => Iff.intro (fun h => by simp at h) (fun h => by simp at h), fun s h => ?_⟩
    injection h with h
    subst h
    exact ⟨rfl, rfl, rfl⟩

/-- C122 (partial; the full property, that changing the caller's lists after construction never reaches the circuit, is refuted
by `C122_refuted`). Construct a circuit and run any program that also changes, adds and deletes entries of the caller's dictionary
and changes other lists in place. Then the circuit is in the state, and every call has the result, of a program without these
changes. -/
theorem C122_dictionary_partial {lists : ListId → List ElemId} {dict : ListDict} (hc : c.els = listed dict lists)
    (vals : ElemId → ℝ) (flux : LoopId → ℝ) (u : ℝ) (s0 : Script c eigs as)
    (hs : Script.construct c eigs as lists dict vals flux u = .ok s0) (h : List ScriptAct) (hl : LeavesLists dict h) :
    ∃ w0, construct (circPhys c eigs as) vals flux u = .ok w0 ∧ (scriptRun s0 h).w = run w0 (calls h) ∧
      (scriptRun s0 h).elements = c.els ∧
      ∀ a, ((ScriptAct.call a).exec (scriptRun s0 h)).1 = (a.exec (run w0 (calls h))).1 := by
  obtain ⟨hw, ho, hli⟩ := (script_constructed hc vals flux u).2 s0 hs
  have hel : ∀ h1 h2, h = h1 ++ h2 → (scriptRun s0 h1).elements = c.els := by
    intro h1 h2 e
    unfold Script.elements
    rw [script_own, ho, hc]
    unfold listed
    refine List.map_congr_left fun p hp => ?_
    rw [script_lists s0 h1 p.2 (fun new hm => hl p.2 new (by rw [e]; exact List.mem_append_left _ hm) p hp rfl), hli]
  obtain ⟨h1, h2⟩ := script_follows s0 h (fun h1 h2 e => hel h1 _ e)
  exact ⟨s0.w, hw, h1, hel h [] (by simp), fun a => h2 a (fun _ => hel h [] (by simp))⟩

/-- C122 (partial): without `update`, no change of lists or dictionary reaches the Hamiltonian, the truncation, the offsets or the
eigenpairs. (It does reach `dec_rate` and the description of the elements: `C122_refuted`.) -/
theorem C122_no_update_partial {lists : ListId → List ElemId} {dict : ListDict} (hc : c.els = listed dict lists)
    (vals : ElemId → ℝ) (flux : LoopId → ℝ) (u : ℝ) (s0 : Script c eigs as)
    (hs : Script.construct c eigs as lists dict vals flux u = .ok s0) (h : List ScriptAct) (hn : .call .update ∉ h) :
    ∃ w0, construct (circPhys c eigs as) vals flux u = .ok w0 ∧ (scriptRun s0 h).w = run w0 (calls h) ∧
      ∀ a, a ≠ Act.update → ((ScriptAct.call a).exec (scriptRun s0 h)).1 = (a.exec (run w0 (calls h))).1 := by
  obtain ⟨hw, -, -⟩ := (script_constructed hc vals flux u).2 s0 hs
  obtain ⟨h1, h2⟩ := script_follows s0 h (fun h1 h2 e => absurd (by rw [e]; simp) hn)
  exact ⟨s0.w, hw, h1, fun a ha => h2 a (fun e => absurd e ha)⟩

/-- C122 (partial): `update` takes over the present contents of the lists. If a circuit built from them would have as many nodes
as this one has modes and would keep all its modes, the matrices and transformations are those of that circuit; truncation numbers
and offsets stay. -/
theorem C122_update_partial (s : Script c eigs as) (hn : numNodes s.elements = .ok (Build.k s.w.circ.bd)) (b : Build)
    (hb : buildCirc (c.withEls s.elements) s.w.vals = .ok b) (hk : b.k = b.n) :
    let s' := ((ScriptAct.call .update).exec s).2
    s'.w.circ.bd = b ∧ s'.w.circ.m = s.w.circ.m ∧ s'.w.circ.islands = s.w.circ.islands ∧ s'.w.vals = s.w.vals := by
  have h1 : rebuildCirc (c.withEls s.elements) (Build.k s.w.circ.bd) s.w.vals = .ok b := by
    rw [rebuild_eq_full (c.withEls s.elements) hn s.w.vals (fun b' hb' => by rw [hb] at hb'; cases hb'; exact hk)]
    exact hb
  intro s'
  have hs' : s'.w = (updateWith (P := circPhys c eigs as) (.ok b) s.w).2 := by
    show (updateWith (P := circPhys c eigs as) (rebuildCirc (c.withEls s.elements) (Build.k s.w.circ.bd) s.w.vals) s.w).2 = _
    rw [h1]
    rfl
  rw [hs']
  unfold updateWith
  simp only
  generalize hx : Circ.buildOps _ = x
  cases x with
  | error e => exact ⟨rfl, rfl, rfl, rfl⟩
  | ok c' =>
    obtain ⟨mem, -, rfl⟩ := buildOps_ok hx
    exact ⟨rfl, rfl, rfl, rfl⟩

end

/-- the two coupled islands of `C93_example`, built from the lists 10 (first island), 11 and 12 -/
def twoLists : ListId → List ElemId := fun l => if l = 10 then [0] else if l = 11 then [2] else [4]

/-- the dictionary of the caller -/
def twoDict : ListDict := [((0, 1), 10), ((0, 2), 11), ((1, 2), 12)]

/-- the hypotheses of the partial theorems can be met: the caller gives the first edge a new list and appends to that one -/
theorem C122_example : LeavesLists twoDict [.call (.setTruncNums (.list [2, 2])), .setEntry (0, 1) 13, .editList 13 [0, 5],
    .call .update, .delEntry (0, 2)] ∧
    calls [.call (.setTruncNums (.list [2, 2])), .setEntry (0, 1) 13, .editList 13 [0, 5], .call .update, .delEntry (0, 2)] =
      [.setTruncNums (.list [2, 2]), .update] ∧
    ∃ (c : CircSpec) (eigs : EigsFn) (as : List ℂ → List ℕ) (s0 : Script c eigs as), c.els = listed twoDict twoLists ∧
      Script.construct c eigs as twoLists twoDict twoVals (fun _ => 0) 1 = .ok s0 := by
  refine ⟨?_, rfl, ?_⟩
  · intro l new hm p hp
    simp at hm
    obtain ⟨rfl, -⟩ := hm
    simp [twoDict] at hp
    rcases hp with rfl | rfl | rfl <;> decide
  choose lib hlib using exists_lib
  choose argmax hm using exists_argmax
  obtain ⟨argsort, hsrt⟩ := exists_argsort
  obtain ⟨eigs, he⟩ := exists_eigs_lowest
  obtain ⟨as, ha⟩ := exists_cargsort
  let c : CircSpec := twoSpec false .junctions twoObjs [0] [2] [4] (fun _ => LoopObj.init 0 0) lib exSv argsort argmax (fun _ _ => 0)
  have hr : RoutinesOK c := ⟨hlib, exSv_spec, hsrt, hm, le_refl 3⟩
  have hI : IslandCircuit c 2 := two_island two_ex_islands
  have hV : IslandValues c 2 twoVals := two_values two_ex_islands two_ex_values
  obtain ⟨b, hb, -⟩ := C93_constructed c 2 hI hr twoVals hV
  have hels : c.els = listed twoDict twoLists := rfl
  refine ⟨c, eigs, as, ⟨twoLists, twoDict, twoDict, ⟨newCirc (P := circPhys c eigs as) b, twoVals, fun _ => 0, 1⟩⟩, hels, ?_⟩
  unfold Script.construct
  rw [withEls_self hels.symm, hb]

/-- C122 is false of the code: construct the two coupled islands from a dictionary of lists, set truncation numbers, then append
a capacitor (element 5) to the caller's list of the first island. No circuit method and no setter of an element is called, but
the capacitive loss now sums over one capacitor more; and after `update` the capacitance matrix of the circuit is another one. -/
theorem C122_refuted : ∃ (c : CircSpec) (eigs : EigsFn) (as : List ℂ → List ℕ) (s0 : Script c eigs as),
    c.els = listed twoDict twoLists ∧ Script.construct c eigs as twoLists twoDict twoVals (fun _ => 0) 1 = .ok s0 ∧
    let s1 := scriptRun s0 [.call (.setTruncNums (.list [2, 2])), .editList 10 [0, 5]]
    let s2 := scriptRun s1 [.call .update]
    s0.lossCaps = [((0, 1), 1), ((0, 2), 3), ((1, 2), 4)] ∧
    s1.lossCaps = [((0, 1), 1), ((0, 1), 5), ((0, 2), 3), ((1, 2), 4)] ∧
    ∃ (e1 : Build.n s1.w.circ.bd = 2) (e2 : Build.n s2.w.circ.bd = 2),
      Build.C s1.w.circ.bd (Fin.cast e1.symm 0) (Fin.cast e1.symm 0) = 3 ∧
      Build.C s2.w.circ.bd (Fin.cast e2.symm 0) (Fin.cast e2.symm 0) = 4 := by
  choose lib hlib using exists_lib
  choose argmax hm using exists_argmax
  obtain ⟨argsort, hsrt⟩ := exists_argsort
  obtain ⟨eigs, he⟩ := exists_eigs_lowest
  obtain ⟨as, ha⟩ := exists_cargsort
  have hi := two_ex_islands
  have hv := two_ex_values
  have et : totalCap (twoObjs.withVals twoVals) [0, 5] = 3 := by
    simp [totalCap, placedCap, twoObjs, Objs.withVals, twoVals]; norm_num
  obtain ⟨et1, et2, et3⟩ := two_ex_total
  have hi2 : TwoIslands twoObjs [0, 5] [2] [4] := ⟨⟨by intro i hi; simp at hi; rcases hi with rfl | rfl <;> simp [twoObjs], 0, by simp, rfl⟩,
    hi.second, hi.coupling, by
    intro i hi
    simp at hi
    rcases hi with (rfl | rfl) | rfl | rfl <;> rfl⟩
  have hv2 : TwoValues twoObjs [0, 5] [2] [4] twoVals := by
    refine ⟨?_, ?_, ?_, ?_⟩
    · intro i hi
      simp at hi
      rcases hi with (rfl | rfl) | rfl | rfl <;> simp [placedCap, twoObjs, Objs.withVals, twoVals]
    · rw [et, et2, et3]; norm_num
    · rw [et, et3]; norm_num
    · rw [et2, et3]; norm_num
  let c : CircSpec := twoSpec false .junctions twoObjs [0] [2] [4] (fun _ => LoopObj.init 0 0) lib exSv argsort argmax (fun _ _ => 0)
  let c2 : CircSpec := twoSpec false .junctions twoObjs [0, 5] [2] [4] (fun _ => LoopObj.init 0 0) lib exSv argsort argmax (fun _ _ => 0)
  have hr : RoutinesOK c := ⟨hlib, exSv_spec, hsrt, hm, le_refl 3⟩
  have hr2 : RoutinesOK c2 := ⟨hlib, exSv_spec, hsrt, hm, le_refl 3⟩
  have hI : IslandCircuit c 2 := two_island hi
  have hI2 : IslandCircuit c2 2 := two_island hi2
  have hV : IslandValues c 2 twoVals := two_values hi hv
  have hV2 : IslandValues c2 2 twoVals := two_values hi2 hv2
  obtain ⟨b, hb, -⟩ := C93_constructed c 2 hI hr twoVals hV
  obtain ⟨b2, hb2, -⟩ := C93_constructed c2 2 hI2 hr2 twoVals hV2
  obtain ⟨hn, hk, -, hC, -⟩ := isl_built hI hr hV hb
  obtain ⟨hn2, hk2, -, hC2, -⟩ := isl_built hI2 hr2 hV2 hb2
  have hels : c.els = listed twoDict twoLists := rfl
  have hcon : Script.construct c eigs as twoLists twoDict twoVals (fun _ => 0) 1 =
      .ok { lists := twoLists, dict := twoDict, own := twoDict, w := ⟨newCirc (P := circPhys c eigs as) b, twoVals, fun _ => 0, 1⟩ } := by
    unfold Script.construct
    rw [withEls_self hels.symm, hb]
  refine ⟨c, eigs, as, _, hels, hcon, ?_⟩
  intro s1 s2
  have hbd1 : Build.k s1.w.circ.bd = 2 ∧ s1.w.circ.bd = b ∧ s1.w.vals = twoVals := by
    have hst := exec_frame (P := circPhys c eigs as) (.setTruncNums (.list [2, 2]))
      ⟨newCirc (P := circPhys c eigs as) b, twoVals, fun _ => 0, 1⟩ (by simp)
    have hvl : s1.w.vals = twoVals := by
      funext i
      exact (exec_inputs (P := circPhys c eigs as) (.setTruncNums (.list [2, 2]))
        ⟨newCirc (P := circPhys c eigs as) b, twoVals, fun _ => 0, 1⟩).2.1 i (by simp)
    have hbd : s1.w.circ.bd = b := hst.1
    exact ⟨by rw [hbd]; exact hk.trans hn, hbd, hvl⟩
  have hel1 : s1.elements = c2.els := rfl
  have hu := C122_update_partial s1 (by rw [hel1, hbd1.1]; exact hI2.nodes) b2 (by
    rw [hel1, hbd1.2.2]
    exact hb2) hk2
  refine ⟨rfl, rfl, ?_⟩
  have e1 : s1.w.circ.bd = b := hbd1.2.1
  have e2 : s2.w.circ.bd = b2 := hu.1
  have gen : ∀ (x y : Build), x = y → ∀ (h : y.n = 2) (r : ℝ), y.C (Fin.cast h.symm 0) (Fin.cast h.symm 0) = r →
      ∃ h : x.n = 2, x.C (Fin.cast h.symm 0) (Fin.cast h.symm 0) = r := by
    rintro x _ rfl h r hr
    exact ⟨h, hr⟩
  have c1 : b.C (Fin.cast hn.symm 0) (Fin.cast hn.symm 0) = 3 := by
    rw [hC]
    change capacitances (twoObjs.withVals twoVals) (twoEls [0] [2] [4]) 2 0 0 = 3
    rw [two_caps, et1, et3]
    norm_num
  have c2' : b2.C (Fin.cast hn2.symm 0) (Fin.cast hn2.symm 0) = 4 := by
    rw [hC2]
    change capacitances (twoObjs.withVals twoVals) (twoEls [0, 5] [2] [4]) 2 0 0 = 4
    rw [two_caps, et, et3]
    norm_num
  obtain ⟨h1, h2⟩ := gen _ _ e1 hn 3 c1
  obtain ⟨h3, h4⟩ := gen _ _ e2 hn2 4 c2'
  exact ⟨h1, h3, h2, h4⟩

end SQ
