import Verif.Lemmas.SystemSession
import Verif.Props.Shared
import Verif.Props.Readers
import Verif.Props.Listing
import Verif.Props.LevelsSession

/-!
# C139: a system of coupled circuits while the program goes on
-/

namespace SQ
open Matrix Spec

section
variable {c : CircId → CircSpec} {eigs : EigsRoutine} {as : List ℂ → List ℕ}

/-- an operator of a system together with the number and the dimensions of its factors -/
abbrev SysOp.any {k : ℕ} (A : SysOp k) : AnyOp := ⟨k, A.1, A.2⟩

theorem circuits_values (O : Objs) (v v' : ElemId → ℝ) (cps : List CoupleObj) :
    getAllCircuits (cps.map (CoupleObj.now O v)) = getAllCircuits (cps.map (CoupleObj.now O v')) := by
  unfold getAllCircuits
  rw [List.foldl_map, List.foldl_map]
  rfl

theorem sysNew_ok {O : Objs} {b : Bench c eigs as} {cps : List CoupleObj} {S : SysObj} (h : sysNew O b cps = .ok S) :
    (∀ i ∈ getAllCircuits (cps.map (CoupleObj.now O b.vals)), (subNow b i).efreqs ≠ []) ∧
    S = ⟨cps, getAllCircuits (cps.map (CoupleObj.now O b.vals)),
      sysModes (subNow b) (getAllCircuits (cps.map (CoupleObj.now O b.vals))),
      (getAllCircuits (cps.map (CoupleObj.now O b.vals))).map fun i => (subNow b i).efreqs.length⟩ := by
  obtain ⟨h1, h2⟩ := C65_truncations (subNow b) (getAllCircuits (cps.map (CoupleObj.now O b.vals)))
  unfold sysNew at h
  by_cases hne : ∀ i ∈ getAllCircuits (cps.map (CoupleObj.now O b.vals)), (subNow b i).efreqs ≠ []
  · simp only [h1 hne] at h
    injection h with h
    exact ⟨hne, h.symm⟩
  · push Not at hne
    simp only [h2 hne] at h
    cases h

theorem dims_new {b : Bench c eigs as} {cps : List CoupleObj} {cs : List CircId} {N : ℕ} :
    (⟨cps, cs, N, cs.map fun i => (subNow b i).efreqs.length⟩ : SysObj).dims = sysDims (subNow b) cs := by
  funext s
  unfold SysObj.dims sysDims
  have hs : (s : ℕ) < cs.length := s.isLt
  simp [List.getD_eq_getElem?_getD, hs]

/-- C139: what `hamiltonian()` of a system returns right after its construction, and hence (`C139_follows`) later on: the
Hamiltonian of C64–C68 and C107 for the circuits as they are now: their capacitance matrices, mode transformations, stored
eigenfrequencies in the present unit and charge operators between the stored eigenvectors, the coupling capacitors having their
present values. Exceptions are the same, too. -/
theorem C139_value (O : Objs) (b : Bench c eigs as) (cps : List CoupleObj) (hne : cps ≠ []) (S : SysObj)
    (hS : sysNew O b cps = .ok S) (hfit : ∀ i ∈ S.circuits, ChargesFit b i) :
    (sysHamNow O b S).map SysOp.any =
      (sysHamiltonian (subNow b) (couplesNow O b.vals cps) b.unitFreq).map (fun H => ⟨_, _, H⟩) := by
  have hcouples : couplesNow O b.vals cps = cps.map (CoupleObj.now O b.vals) := rfl
  rw [hcouples]
  obtain ⟨hefs, hSeq⟩ := sysNew_ok hS
  have hcs : S.circuits = getAllCircuits (cps.map (CoupleObj.now O b.vals)) := by rw [hSeq]
  have hcp : S.couplings = cps := by rw [hSeq]
  have hd : S.dims = sysDims (subNow b) S.circuits := by rw [hSeq]; exact dims_new
  have hN : S.nN = sysModes (subNow b) S.circuits := by rw [hSeq]
  have hl : ∀ s, lenNow b S s ≠ 0 := fun s h0 =>
    hefs _ (by rw [← hcs]; exact List.get_mem S.circuits s) (List.length_eq_zero_iff.1 h0)
  have hcne : S.circuits ≠ [] := by
    intro h0
    obtain ⟨g, l, rfl⟩ := List.exists_cons_of_ne_nil hne
    have hmem := ((C65_circuits ((g :: l).map (CoupleObj.now O b.vals))).2.1 g.cr1).2
      ⟨CoupleObj.now O b.vals g, by simp, Or.inl rfl⟩
    rw [← hcs, h0] at hmem
    cases hmem
  have hlocal := local_fit b S hcne hl hd
  have hquad : ∀ A, (0 < S.nN → quadNow b S A = .ok (some ⟨_, sysQuadQ (subNow b) S.circuits A⟩)) ∧
      (S.nN = 0 → quadNow b S A = .ok none ∧ sysQuadQ (subNow b) S.circuits A = 0) := by
    refine fun A => ⟨fun h0 => quad_fit b S _ hcs hd hfit hN h0 A, fun h0 => ⟨?_, ?_⟩⟩
    · unfold quadNow; rw [h0]; rfl
    · unfold sysQuadQ; rw [← hN, h0]; simp
  unfold sysHamNow intNow sysHamiltonian hInt capMatrix
  rw [hlocal, hcp]
  simp only
  rw [← hcs]
  cases addCouples (subNow b) S.circuits (cps.map (CoupleObj.now O b.vals)) (bareCap (subNow b) S.circuits) with
  | error e => rfl
  | ok C =>
    simp only
    cases npInv (toMat (sysNodes (subNow b) S.circuits) C) with
    | error e => rfl
    | ok Ci =>
      simp only
      cases npInv (toMat (sysNodes (subNow b) S.circuits) (bareCap (subNow b) S.circuits)) with
      | error e => rfl
      | ok C0i =>
        simp only
        obtain ⟨q1, q2⟩ := hquad (transCoef (blockDiag (S.circuits.map fun i => ((subNow b i).nodes, (subNow b i).R))) (Ci - C0i))
        rcases Nat.eq_zero_or_pos S.nN with h0 | h0
        · obtain ⟨q3, q4⟩ := q2 h0
          rw [q3, q4, smul_zero]
          simp only [Except.map, add_zero]
        · rw [q1 h0]
          simp only [Except.map]
          unfold addQobj
          rw [dif_pos rfl]

/-- dimensions are irrelevant if there is only one circuit -/
theorem opAt_one {k : ℕ} (hk : k ≤ 1) (t t' : Fin k → ℕ) (s : Fin k) (A : Σ q : ℕ, Matrix (Fin q) (Fin q) ℂ) :
    opAt t s A = opAt t' s A := by
  have hu : Function.update t s A.1 = Function.update t' s A.1 := by
    funext x
    have : x = s := Fin.ext (by omega)
    subst this
    simp
  unfold opAt
  have key : ∀ (d d' : Fin k → ℕ) (_ : d = d') (h : d s = A.1) (h' : d' s = A.1),
      (⟨d, opInSys s (A.2.submatrix (Fin.cast h) (Fin.cast h))⟩ : SysOp k) =
        ⟨d', opInSys s (A.2.submatrix (Fin.cast h') (Fin.cast h'))⟩ := by
    intro d d' hd h h'
    subst hd
    rfl
  exact key _ _ hu _ _

theorem sysHam_one (O : Objs) (b : Bench c eigs as) (cps : List CoupleObj) (cs : List CircId) (hk : cs.length ≤ 1) (N : ℕ)
    (l l' : List ℕ) : sysHamNow O b ⟨cps, cs, N, l⟩ = sysHamNow O b ⟨cps, cs, N, l'⟩ := by
  have h1 : localStep b ⟨cps, cs, N, l⟩ = localStep b ⟨cps, cs, N, l'⟩ := by
    funext acc s
    unfold localStep
    rw [opAt_one hk (SysObj.dims ⟨cps, cs, N, l⟩) (SysObj.dims ⟨cps, cs, N, l'⟩)]
  have h2 : ∀ (s r : Fin cs.length) A B,
      opsAt (SysObj.dims ⟨cps, cs, N, l⟩) s A r B = opsAt (SysObj.dims ⟨cps, cs, N, l'⟩) s A r B := by
    intro s r A B
    have hsr : s = r := Fin.ext (by omega)
    unfold opsAt
    rw [dif_pos hsr, dif_pos hsr]
    by_cases hab : A.1 = B.1
    · rw [dif_pos hab, dif_pos hab, opAt_one hk (SysObj.dims ⟨cps, cs, N, l⟩) (SysObj.dims ⟨cps, cs, N, l'⟩)]
    · rw [dif_neg hab, dif_neg hab]
  have h3 : qqNow b ⟨cps, cs, N, l⟩ = qqNow b ⟨cps, cs, N, l'⟩ := by
    funext m n
    unfold qqNow
    simp only [h2]
  have h4 : ∀ A, quadStep b ⟨cps, cs, N, l⟩ A = quadStep b ⟨cps, cs, N, l'⟩ A := by
    intro A
    funext acc p
    unfold quadStep
    rw [h3]
    cases qqNow b ⟨cps, cs, N, l'⟩ p.1 p.2 <;> rfl
  have h5 : ∀ A, quadNow b ⟨cps, cs, N, l⟩ A = quadNow b ⟨cps, cs, N, l'⟩ A := fun A =>
    congrArg (fun st => List.foldlM st none ((List.range N).flatMap fun i => (List.range N).map fun j => (i, j))) (h4 A)
  have h6 : localNow b ⟨cps, cs, N, l⟩ = localNow b ⟨cps, cs, N, l'⟩ :=
    congrArg (fun st => List.foldlM st none (List.finRange cs.length)) h1
  have h7 : intNow O b ⟨cps, cs, N, l⟩ = intNow O b ⟨cps, cs, N, l'⟩ := by
    unfold intNow
    simp only
    cases addCouples (subNow b) cs (cps.map (CoupleObj.now O b.vals)) (bareCap (subNow b) cs) with
    | error e => rfl
    | ok C =>
      simp only
      cases npInv (toMat (sysNodes (subNow b) cs) C) with
      | error e => rfl
      | ok Ci =>
        simp only
        cases npInv (toMat (sysNodes (subNow b) cs) (bareCap (subNow b) cs)) with
        | error e => rfl
        | ok C0i =>
          simp only
          rw [h5]
          cases quadNow b ⟨cps, cs, N, l'⟩ (transCoef (blockDiag (cs.map fun i => ((subNow b i).nodes, (subNow b i).R))) (Ci - C0i)) with
          | error e => rfl
          | ok q => cases q <;> rfl
  unfold sysHamNow
  rw [h6, h7]
  cases localNow b ⟨cps, cs, N, l'⟩ with
  | error e => rfl
  | ok loc =>
    simp only
    cases intNow O b ⟨cps, cs, N, l'⟩ with
    | error e => rfl
    | ok int => cases loc <;> cases int <;> rfl

theorem ham_resized (O : Objs) (b : Bench c eigs as) (S : SysObj) (hlen : ∀ s, lenNow b S s ≠ 0) (s : Fin S.circuits.length)
    (hne : lenNow b S s ≠ S.dims s) (hk : 2 ≤ S.circuits.length) : sysHamNow O b S = .error .typeError := by
  have hloc : localNow b S = .error .typeError := by
    cases hr : localNow b S with
    | error e => rw [local_error b S _ none (fun s _ => hlen s) e hr]
    | ok r =>
      exfalso
      obtain ⟨-, h2⟩ := local_ok b S _ none r hr
      obtain ⟨t, ht⟩ : ∃ t : Fin S.circuits.length, t ≠ s := by
        by_cases h0 : (s : ℕ) = 0
        · exact ⟨⟨1, hk⟩, fun e => by have := congrArg Fin.val e; simp only at this; omega⟩
        · exact ⟨⟨0, by omega⟩, fun e => by have := congrArg Fin.val e; simp only at this; omega⟩
      obtain ⟨-, A, hA, hdA⟩ := h2 s (List.mem_finRange _)
      obtain ⟨-, A', hA', hdA'⟩ := h2 t (List.mem_finRange _)
      rw [hA] at hA'
      obtain rfl := Option.some.inj hA'
      have e := congrFun (hdA.symm.trans hdA') s
      rw [Function.update_self, Function.update_of_ne ht.symm] at e
      exact hne e
  unfold sysHamNow
  rw [hloc]

/-- C139: construct a system, then let the program go on with any statements `h` (fluxes, element values, units, truncation
numbers, diagonalizations, other circuits), as long as the numbers of modes of its circuits stay (`C139_modes`). If the circuits
are all diagonalized, `hamiltonian()` of the old system gives what a system constructed now from the same couplings gives, the
same operator or the same exception. The exception to this: if the number of computed eigenfrequencies of one of several
circuits has changed, it raises a `TypeError`. -/
theorem C139_follows (O : Objs) (b : Bench c eigs as) (cps : List CoupleObj) (S : SysObj) (hS : sysNew O b cps = .ok S)
    (h : List (BenchAct CircId)) (hn : ∀ i ∈ S.circuits, (subNow (benchRun b h) i).n = (subNow b i).n)
    (S' : SysObj) (hS' : sysNew O (benchRun b h) cps = .ok S') :
    ((∀ i ∈ S.circuits, (subNow (benchRun b h) i).efreqs.length = (subNow b i).efreqs.length) ∨ S.circuits.length ≤ 1 →
      (sysHamNow O (benchRun b h) S).map SysOp.any = (sysHamNow O (benchRun b h) S').map SysOp.any) ∧
    ((∃ i ∈ S.circuits, (subNow (benchRun b h) i).efreqs.length ≠ (subNow b i).efreqs.length) → 2 ≤ S.circuits.length →
      sysHamNow O (benchRun b h) S = .error .typeError) := by
  revert hn hS'
  generalize benchRun b h = b'
  intro hn hS'
  obtain ⟨-, hSeq⟩ := sysNew_ok hS
  obtain ⟨hefs', hSeq'⟩ := sysNew_ok hS'
  rw [circuits_values O b'.vals b.vals] at hefs' hSeq'
  generalize hcs : getAllCircuits (cps.map (CoupleObj.now O b.vals)) = cs at hSeq hSeq' hefs'
  subst hSeq
  have hN : sysModes (subNow b') cs = sysModes (subNow b) cs := by
    unfold sysModes
    exact congrArg List.sum (List.map_congr_left fun i hi => hn i hi)
  rw [hN] at hSeq'
  subst hSeq'
  refine ⟨?_, ?_⟩
  · rintro (hl | hk)
    · have : (cs.map fun i => (subNow b' i).efreqs.length) = cs.map fun i => (subNow b i).efreqs.length :=
        List.map_congr_left fun i hi => hl i hi
      rw [this]
    · exact congrArg (Except.map SysOp.any) (sysHam_one O b' cps cs hk _ _ _)
  · rintro ⟨i, hi, hne⟩ hk
    have hidx : cs.idxOf i < cs.length := List.idxOf_lt_length_iff.2 hi
    have hget : cs.get ⟨cs.idxOf i, hidx⟩ = i := List.getElem_idxOf hidx
    refine ham_resized O b' _ (fun s h0 => hefs' (cs.get s) (List.get_mem cs s) (List.length_eq_zero_iff.1 h0))
      ⟨cs.idxOf i, hidx⟩ ?_ hk
    rw [dims_new]
    unfold lenNow sysDims
    simp only [hget]
    exact hne

/-- C139: if a system could not be constructed now, because a circuit is no longer diagonalized, `hamiltonian()` of the old
system raises an exception instead of using old data. -/
theorem C139_stale (O : Objs) (b : Bench c eigs as) (cps : List CoupleObj) (S : SysObj) (hS : sysNew O b cps = .ok S)
    (h : List (BenchAct CircId)) (e : PyErr) (hS' : sysNew O (benchRun b h) cps = .error e) :
    ∃ e', sysHamNow O (benchRun b h) S = .error e' := by
  revert hS'
  generalize benchRun b h = b'
  intro hS'
  obtain ⟨-, hSeq⟩ := sysNew_ok hS
  have hcs : S.circuits = getAllCircuits (cps.map (CoupleObj.now O b'.vals)) := by
    rw [hSeq, circuits_values O b'.vals b.vals]
  have hex : ∃ i ∈ S.circuits, (subNow b' i).efreqs = [] := by
    by_contra hno
    push Not at hno
    rw [hcs] at hno
    unfold sysNew at hS'
    simp only [(C65_truncations (subNow b') _).1 hno] at hS'
    cases hS'
  obtain ⟨i, hi, h0⟩ := hex
  cases hr : localNow b' S with
  | error e' => exact ⟨e', by unfold sysHamNow; rw [hr]⟩
  | ok r =>
    exfalso
    have hidx : S.circuits.idxOf i < S.circuits.length := List.idxOf_lt_length_iff.2 hi
    obtain ⟨h1, -⟩ := (local_ok b' S _ none r hr).2 ⟨S.circuits.idxOf i, hidx⟩ (List.mem_finRange _)
    have hget : S.circuits.get ⟨S.circuits.idxOf i, hidx⟩ = i := List.getElem_idxOf hidx
    unfold lenNow at h1
    rw [hget, h0] at h1
    exact h1 rfl

theorem subNow_n (b : Bench c eigs as) (i : CircId) :
    (subNow b i).n = match b.circ i with
      | none => 0
      | some x => (Build.M (x.bd : Build)).keep.length := by
  unfold subNow Bench.view
  cases b.circ i <;> rfl

/-- C139: the number of modes of a circuit changes only by `update()` (and by binding its name to a new circuit). -/
theorem C139_modes (b : Bench c eigs as) (i : CircId) (h : List (BenchAct CircId)) (hu : BenchAct.update i ∉ h)
    (hb : BenchAct.build i ∉ h) : (subNow (benchRun b h) i).n = (subNow b i).n := by
  induction h generalizing b with
  | nil => rfl
  | cons a h ih =>
    rw [List.mem_cons, not_or] at hu hb
    refine (ih (a.exec b).2 hu.2 hb.2).trans ?_
    by_cases ha : Concerns i a = true
    · cases a with
      | build j =>
        obtain rfl : j = i := by simpa [Concerns] using ha
        exact absurd rfl hb.1
      | update j =>
        obtain rfl : j = i := by simpa [Concerns] using ha
        exact absurd rfl hu.1
      | call j m =>
        obtain rfl : j = i := by simpa [Concerns] using ha
        rw [subNow_n, subNow_n]
        cases hv : b.view j with
        | none => simp only [BenchAct.exec, hv]
        | some w =>
          obtain ⟨h1, -⟩ := view_some hv
          simp only [BenchAct.exec, hv, h1, Bench.store, Function.update_self]
          have := (exec_frame m.act w (by cases m <;> simp [Method.act])).1
          exact congrArg (fun bd : Build => bd.M.keep.length) this
      | set s => rw [subNow_n, subNow_n]; cases s <;> rfl
      | other h' => simp [Concerns] at ha
    · obtain ⟨h1, -⟩ := exec_foreign b i a (by simpa using ha)
      rw [subNow_n, subNow_n, h1]

end
end SQ
