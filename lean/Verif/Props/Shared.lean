import Verif.Spec.Shared
import Verif.Lemmas.Shared
import Verif.Props.FluxDist
import Verif.Props.Inputs

/-!
# C120: circuits that share elements and loops
-/

namespace SQ
open Matrix Spec

section
variable {P : Phys}

theorem updateWith_eq (w : World P) : updateWith (P.rebuild (P.nModes w.circ.bd) w.vals) w = update w := rfl

theorem construct_newCirc (vals : ElemId → ℝ) (flux : LoopId → ℝ) (u : ℝ) :
    construct P vals flux u = (P.build vals).map fun bd => ⟨newCirc bd, vals, flux, u⟩ := by
  unfold construct
  cases P.build vals <;> rfl
end

variable {ι : Type} [DecidableEq ι] {c : ι → CircSpec} {eigs : EigsRoutine} {as : List ℂ → List ℕ}

theorem method_shared {P : Phys} (m : Method) (w : World P) :
    (m.act.exec w).2.vals = w.vals ∧ (m.act.exec w).2.flux = w.flux ∧ (m.act.exec w).2.unitFreq = w.unitFreq := by
  obtain ⟨h1, h2, h3, -⟩ := exec_inputs m.act w
  exact ⟨funext fun i => h2 i (by intro v; cases m <;> simp [Method.act]),
    funext fun l => h1 l (by intro v; cases m <;> simp [Method.act]), h3 (by intro v; cases m <;> simp [Method.act])⟩

theorem update_shared {P : Phys} (w : World P) :
    (update w).2.vals = w.vals ∧ (update w).2.flux = w.flux ∧ (update w).2.unitFreq = w.unitFreq := by
  obtain ⟨h1, h2, h3, -⟩ := exec_inputs .update w
  exact ⟨funext fun i => h2 i (by simp), funext fun l => h1 l (by simp), h3 (by simp)⟩

theorem view_store (b : Bench c eigs as) (i : ι) (w : World (circPhys (c i) eigs as)) : (b.store i w).view i = some w := by
  simp [Bench.view, Bench.store]

/-- what circuit `i` can see is the same -/
def SameFor (i : ι) (b b' : Bench c eigs as) : Prop :=
  b'.circ i = b.circ i ∧ b'.vals = b.vals ∧ b'.flux = b.flux ∧ b'.unitFreq = b.unitFreq

theorem SameFor.view {i : ι} {b b' : Bench c eigs as} (h : SameFor i b b') : b'.view i = b.view i := by
  obtain ⟨h1, h2, h3, h4⟩ := h
  unfold Bench.view
  rw [h1, h2, h3, h4]

theorem view_some {b : Bench c eigs as} {i : ι} {w : World (circPhys (c i) eigs as)} (h : b.view i = some w) :
    b.circ i = some w.circ ∧ w.vals = b.vals ∧ w.flux = b.flux ∧ w.unitFreq = b.unitFreq := by
  unfold Bench.view at h
  rw [Option.map_eq_some_iff] at h
  obtain ⟨x, hx, rfl⟩ := h
  exact ⟨hx, rfl, rfl, rfl⟩

theorem exec_update (b : Bench c eigs as) (i : ι) {w : World (circPhys (c i) eigs as)} (h : b.view i = some w) :
    ((BenchAct.update i).exec b).1 = (update w).1 ∧
    ((BenchAct.update i).exec b).2 = { b.store i (update w).2 with heap := heapAfter (c i) (Build.k w.circ.bd) b.vals b.heap } := by
  obtain ⟨-, hv, -, -⟩ := view_some h
  simp only [BenchAct.exec, h, rebuildCirc_heap]
  rw [← hv]
  exact ⟨rfl, rfl⟩

theorem exec_build (b : Bench c eigs as) (i : ι) :
    ((BenchAct.build i).exec b).1 = (construct (circPhys (c i) eigs as) b.vals b.flux b.unitFreq).map (fun _ => ()) ∧
    ((BenchAct.build i).exec b).2.circ = (match construct (circPhys (c i) eigs as) b.vals b.flux b.unitFreq with
      | .error _ => b.circ
      | .ok w => Function.update b.circ i (some w.circ)) ∧
    ((BenchAct.build i).exec b).2.vals = b.vals ∧ ((BenchAct.build i).exec b).2.flux = b.flux ∧
    ((BenchAct.build i).exec b).2.unitFreq = b.unitFreq := by
  rw [construct_newCirc]
  simp only [BenchAct.exec, buildCirc_heap]
  have e : (circPhys (c i) eigs as).build b.vals = buildCirc (c i) b.vals := rfl
  rw [e]
  cases buildCirc (c i) b.vals <;> exact ⟨rfl, rfl, rfl, rfl, rfl⟩

/-- statements that do not concern circuit `i` change nothing it can see -/
theorem exec_foreign (b : Bench c eigs as) (i : ι) (a : BenchAct ι) (h : Concerns i a = false) : SameFor i b (a.exec b).2 := by
  cases a with
  | build j =>
    have hj : i ≠ j := fun e => by simp [Concerns, e] at h
    obtain ⟨-, h1, h2, h3, h4⟩ := exec_build b j
    refine ⟨?_, h2, h3, h4⟩
    rw [h1]
    cases construct (circPhys (c j) eigs as) b.vals b.flux b.unitFreq with
    | error e => rfl
    | ok w => exact Function.update_of_ne hj _ _
  | call j m =>
    have hj : i ≠ j := fun e => by simp [Concerns, e] at h
    cases hv : b.view j with
    | none => simp only [BenchAct.exec, hv]; exact ⟨rfl, rfl, rfl, rfl⟩
    | some w =>
      obtain ⟨-, h1, h2, h3⟩ := view_some hv
      obtain ⟨h4, h5, h6⟩ := method_shared m w
      simp only [BenchAct.exec, hv]
      exact ⟨Function.update_of_ne hj _ _, h4.trans h1, h5.trans h2, h6.trans h3⟩
  | update j =>
    have hj : i ≠ j := fun e => by simp [Concerns, e] at h
    cases hv : b.view j with
    | none => simp only [BenchAct.exec, hv]; exact ⟨rfl, rfl, rfl, rfl⟩
    | some w =>
      obtain ⟨-, h1, h2, h3⟩ := view_some hv
      obtain ⟨h4, h5, h6⟩ := update_shared w
      rw [(exec_update b j hv).2]
      exact ⟨Function.update_of_ne hj _ _, h4.trans h1, h5.trans h2, h6.trans h3⟩
  | set s => simp [Concerns] at h
  | other h' => exact ⟨rfl, rfl, rfl, rfl⟩

/-- statements that concern circuit `i` depend only on what it can see -/
theorem exec_own {i : ι} {b b' : Bench c eigs as} (hs : SameFor i b b') (a : BenchAct ι) (h : Concerns i a = true) :
    SameFor i (a.exec b).2 (a.exec b').2 ∧ (a.exec b').1 = (a.exec b).1 := by
  have hview := hs.view
  obtain ⟨s1, s2, s3, s4⟩ := hs
  cases a with
  | build j =>
    obtain rfl : j = i := by simpa [Concerns] using h
    obtain ⟨h0, h1, h2, h3, h4⟩ := exec_build b j
    obtain ⟨h0', h1', h2', h3', h4'⟩ := exec_build b' j
    rw [s2, s3, s4] at h0' h1'
    refine ⟨⟨?_, by rw [h2, h2', s2], by rw [h3, h3', s3], by rw [h4, h4', s4]⟩, by rw [h0, h0']⟩
    rw [h1, h1']
    cases construct (circPhys (c j) eigs as) b.vals b.flux b.unitFreq with
    | error e => exact s1
    | ok w => simp
  | call j m =>
    obtain rfl : j = i := by simpa [Concerns] using h
    simp only [BenchAct.exec, hview]
    cases hv : b.view j with
    | none => exact ⟨⟨s1, s2, s3, s4⟩, rfl⟩
    | some w => exact ⟨⟨by simp [Bench.store], rfl, rfl, rfl⟩, rfl⟩
  | update j =>
    obtain rfl : j = i := by simpa [Concerns] using h
    cases hv : b.view j with
    | none =>
      rw [hv] at hview
      simp only [BenchAct.exec, hview, hv]
      exact ⟨⟨s1, s2, s3, s4⟩, trivial⟩
    | some w =>
      rw [hv] at hview
      obtain ⟨e1, e2⟩ := exec_update b j hv
      obtain ⟨e1', e2'⟩ := exec_update b' j hview
      rw [e1, e2, e1', e2']
      exact ⟨⟨by simp [Bench.store], rfl, rfl, rfl⟩, rfl⟩
  | set s =>
    cases s with
    | flux l v => exact ⟨⟨s1, s2, by simp only [BenchAct.exec, s3], s4⟩, rfl⟩
    | value x v => exact ⟨⟨s1, by simp only [BenchAct.exec, s2], s3, s4⟩, rfl⟩
    | unitFreq u => exact ⟨⟨s1, s2, s3, rfl⟩, rfl⟩
  | other h' => simp [Concerns] at h

theorem run_filter {i : ι} (h : List (BenchAct ι)) {b b' : Bench c eigs as} (hs : SameFor i b b') :
    SameFor i (benchRun b h) (benchRun b' (h.filter (Concerns i))) := by
  induction h generalizing b b' with
  | nil => exact hs
  | cons a h ih =>
    by_cases ha : Concerns i a = true
    · rw [List.filter_cons_of_pos ha]
      exact ih (exec_own hs a ha).1
    · rw [List.filter_cons_of_neg ha]
      refine ih ?_
      have h1 := exec_foreign b i a (by simpa using ha)
      obtain ⟨s1, s2, s3, s4⟩ := hs
      obtain ⟨t1, t2, t3, t4⟩ := h1
      exact ⟨s1.trans t1.symm, s2.trans t2.symm, s3.trans t3.symm, s4.trans t4.symm⟩

/-- C120: take any program that constructs, updates, diagonalises and changes several circuits which may share elements and
loops. Deleting every construction of and every call on the other circuits (the setters of shared elements, loops and units
stay) changes nothing for circuit `i`: same state, hence the same Hamiltonian and the same `diag`, and the next statement that
concerns it succeeds or fails with the same exception. -/
theorem C120_isolated (b : Bench c eigs as) (i : ι) (h : List (BenchAct ι)) :
    (benchRun b h).view i = (benchRun b (h.filter (Concerns i))).view i ∧
    ∀ a, Concerns i a = true → (a.exec (benchRun b h)).1 = (a.exec (benchRun b (h.filter (Concerns i)))).1 := by
  have hs := run_filter (i := i) h (b := b) (b' := b) ⟨rfl, rfl, rfl, rfl⟩
  exact ⟨hs.view.symm, fun a ha => (exec_own hs a ha).2.symm⟩

/-- C120, connection with the model of a single circuit: once circuit `i` has been constructed, in a program with any number of
circuits it behaves as it would alone: its state is the one a single circuit reaches by its own calls and the setters of shared
objects. If construction fails, the exception is the one of a single circuit. -/
theorem C120_alone (b : Bench c eigs as) (i : ι) (h : List (BenchAct ι)) (hb : .build i ∉ h) :
    (((BenchAct.build i).exec b).1 =
      (construct (circPhys (c i) eigs as) b.vals b.flux b.unitFreq).map (fun _ => ())) ∧
    ∀ w0, construct (circPhys (c i) eigs as) b.vals b.flux b.unitFreq = .ok w0 →
      (benchRun b (.build i :: h)).view i = some (run w0 (ownActs i h)) := by
  refine ⟨(exec_build b i).1, ?_⟩
  intro w0 hw
  have hw2 : ((BenchAct.build i).exec b).2.view i = some w0 := by
    obtain ⟨-, h1, h2, h3, h4⟩ := exec_build b i
    rw [hw] at h1
    simp only at h1
    unfold Bench.view
    rw [h1, h2, h3, h4, Function.update_self]
    rw [construct_newCirc] at hw
    cases hq : (circPhys (c i) eigs as).build b.vals with
    | error e => rw [hq] at hw; cases hw
    | ok bd =>
      rw [hq] at hw
      injection hw with hw
      rw [← hw]
      rfl
  change (benchRun ((BenchAct.build i).exec b).2 h).view i = _
  revert hw2
  generalize ((BenchAct.build i).exec b).2 = b1
  clear hw
  induction h generalizing b1 w0 with
  | nil => exact fun hv => hv
  | cons a h ih =>
    intro hv
    have hb' : BenchAct.build i ∉ h := fun e => hb (List.mem_cons_of_mem _ e)
    by_cases ha : Concerns i a = true
    · cases a with
      | build j =>
        obtain rfl : j = i := by simpa [Concerns] using ha
        exact absurd List.mem_cons_self hb
      | call j m =>
        obtain rfl : j = i := by simpa [Concerns] using ha
        have e : ownActs j (.call j m :: h) = m.act :: ownActs j h := by simp [ownActs]
        rw [e]
        refine ih hb' (m.act.exec w0).2 ((BenchAct.call j m).exec b1).2 ?_
        simp only [BenchAct.exec, hv]
        exact view_store _ _ _
      | update j =>
        obtain rfl : j = i := by simpa [Concerns] using ha
        have e : ownActs j (.update j :: h) = .update :: ownActs j h := by simp [ownActs]
        rw [e]
        refine ih hb' (Act.exec .update w0).2 ((BenchAct.update j).exec b1).2 ?_
        rw [(exec_update b1 j hv).2]
        exact view_store _ _ _
      | set s =>
        have e : ownActs i (.set s :: h) = s.act :: ownActs i h := by simp [ownActs]
        rw [e]
        refine ih hb' (s.act.exec w0).2 ((BenchAct.set s).exec b1).2 ?_
        obtain ⟨h1, h2, h3, h4⟩ := view_some hv
        cases s <;> simp [BenchAct.exec, Setter.act, Act.exec, Bench.view, h1, ← h2, ← h3, ← h4]
      | other h' => simp [Concerns] at ha
    · have e : ownActs i (a :: h) = ownActs i h := by
        cases a with
        | build j => simp [ownActs]
        | call j m =>
          have : j ≠ i := by simpa [Concerns] using ha
          simp [ownActs, this]
        | update j =>
          have : j ≠ i := by simpa [Concerns] using ha
          simp [ownActs, this]
        | set s => simp [Concerns] at ha
        | other h' => simp [ownActs]
      rw [e]
      refine ih hb' w0 (a.exec b1).2 ?_
      rw [(exec_foreign b1 i a (by simpa using ha)).view]
      exact hv

/-- Two SQUIDs made of the same junctions and the same loop, one with `flux_dist='junctions'` and one with
`flux_dist='inductors'`: construct both, choose truncation numbers for both, set the flux of the shared loop, update the
second; the first diagonalises as if it were alone. -/
theorem C120_example : ∃ (c : Bool → CircSpec) (eigs : EigsFn) (as : List ℂ → List ℕ) (b : Bench c eigs as)
    (w0 : World (circPhys (c true) eigs as)), EigsLowest eigs ∧ (c true).O = (c false).O ∧ (c true).els = (c false).els ∧
    construct (circPhys (c true) eigs as) (fun _ => 1) (fun _ => 0) 1 = .ok w0 ∧
    (benchRun b [.build true, .build false, .call true (.setTruncNums (.list [4])), .call false (.setTruncNums (.list [3])),
      .set (.flux 0 (1 / 4)), .update false]).view true =
      some (run w0 [.setTruncNums (.list [4]), .setFlux 0 (1 / 4)]) := by
  choose lib hlib using exists_lib
  choose argmax hm using exists_argmax
  obtain ⟨argsort, hsrt⟩ := exists_argsort
  obtain ⟨eigs, he⟩ := exists_eigs_lowest
  obtain ⟨as, ha⟩ := exists_cargsort
  let c : Bool → CircSpec := fun t => parallelSpec false (if t then .junctions else .inductors) squidObjs [4, 0, 2]
    (fun _ => LoopObj.init 0 0) lib exSv argsort argmax (fun _ _ => 0)
  obtain ⟨w0, hw, -⟩ := squid_truncated .junctions lib hlib argsort hsrt argmax hm eigs as (fun _ => 0)
  let b : Bench c eigs as := ⟨fun _ => none, fun _ => LoopObj.init 0 0, fun _ => 1, fun _ => 0, 1⟩
  exact ⟨c, eigs, as, b, w0, he, rfl, rfl, hw, (C120_alone b true _ (by simp)).2 w0 hw⟩

end SQ
