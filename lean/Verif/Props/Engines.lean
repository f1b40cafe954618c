import Verif.Lemmas.EngineBuild
import Verif.Spec.Engines
import Verif.Props.CircuitState
import Verif.Props.Islands2
import Verif.Props.MergeCircuit

/-!
# C117: both engines describe the same circuit
-/

namespace SQ
open Matrix Spec

theorem rebuild_engine (c : CircSpec) (t : Bool) (n : ℕ) (v : ElemId → ℝ) :
    rebuildCirc (c.under t) n v = rebuildCirc (c.under false) n v := buildWith_engine c t n v _

/-- what the two engines build: the transformed modes `t` are the same, uncoupled ones are removed under NumPy only -/
theorem build_engines (c : CircSpec) (v : ElemId → ℝ) :
    (∃ e, buildCirc (c.under true) v = .error e ∧ buildCirc (c.under false) v = .error e) ∨
    ∃ (n nJ : ℕ) (t : Trans nJ n) (F : Modes nJ n → Build), buildCirc (c.under true) v = .ok (F (finishModes true t)) ∧
      buildCirc (c.under false) v = .ok (F (finishModes false t)) ∧
      (∀ M, (F M).n = n ∧ (F M).nJ = nJ ∧ (F M).k = M.keep.length) ∧
      (∀ M, AllCoupled (F M) ↔ (nJ = 0 ∨ ∀ j, ∃ i, M.w i j ≠ 0)) := by
  unfold buildCirc
  have hel : ∀ t, (c.under t).els = c.els := fun _ => rfl
  rw [hel, hel]
  rcases numNodes c.els with e | n
  · exact Or.inl ⟨e, rfl, rfl⟩
  simp only
  rw [show buildWith (c.under true) n v (finishModes (c.under true).torch) = buildWith (c.under false) n v (finishModes true)
    from buildWith_engine c true n v _, show (c.under false).torch = false from rfl]
  rw [buildWith_afterWalk, buildWith_afterWalk]
  rcases traverse (c.under false).torch (c.under false).fd ((c.under false).O.withVals v) n (c.under false).h (c.under false).els
    with e | a
  · exact Or.inl ⟨e, rfl, rfl⟩
  simp only
  unfold afterWalk
  rcases fluxMatrix (c.under false).sv n a.st.kMat a.st.cEdge (a.st.loops.map a.st.loopHeap) with e | B
  · exact Or.inl ⟨e, rfl, rfl⟩
  simp only
  by_cases hd : a.cMat.det = 0
  · rw [if_pos hd, if_pos hd]
    exact Or.inl ⟨_, rfl, rfl⟩
  rw [if_neg hd, if_neg hd]
  rcases transformHamil ((c.under false).lib n) (c.under false).sv (c.under false).argsort
    ((c.under false).argmax _) (c.under false).draws a.numJunWithoutInd
          a.cMat a.lMat (arrayOf n a.wMat) (c.under false).fuel (initTrans a.cMat a.lMat (arrayOf n a.wMat)) with _ | e | t
  · exact Or.inl ⟨_, rfl, rfl⟩
  · exact Or.inl ⟨_, rfl, rfl⟩
  · let F : Modes a.wMat.length n → Build := fun M =>
      { n := n
        nJ := a.wMat.length
        nB := a.st.kMat.length
        C := a.cMat
        loops := a.st.loops
        B := fluxTable B
        inds := indKeysOf _ a.st.indKeys
        juns := junKeysOf _ _ a.st.junKeys
        M := M }
    exact Or.inr ⟨n, a.wMat.length, t, F, rfl, rfl, fun M => ⟨rfl, rfl, rfl⟩, fun M => Iff.rfl⟩

/-- with all modes coupled nothing is removed -/
theorem finish_engines {nJ n : ℕ} (t : Trans nJ n) (h : nJ = 0 ∨ ∀ j, ∃ i, (finishModes true t).w i j ≠ 0) :
    finishModes false t = finishModes true t := by
  unfold finishModes
  rw [if_neg (show ¬ (nJ ≠ 0 ∧ true = false) by simp)]
  by_cases h0 : nJ = 0
  · rw [if_neg (by simp [h0])]
  rw [if_pos ⟨h0, rfl⟩]
  have hall : ∀ j, ∃ i, t.w i j ≠ 0 := by
    intro j
    have h' := h.resolve_left h0
    have hf : finishModes true t = restrict t (List.finRange n) := by
      unfold finishModes
      rw [if_neg (by simp)]
    rw [hf] at h'
    obtain ⟨i, hi⟩ := h' ⟨j, by show (j : ℕ) < (List.finRange n).length; simp⟩
    refine ⟨i, ?_⟩
    have : (List.finRange n).get ⟨j, by simp⟩ = j := by simp
    intro hz
    apply hi
    show t.w i ((List.finRange n).get ⟨j, _⟩) = 0
    rw [this]
    exact hz
  have hk := (C32_uncoupled_removal t).1 h0
  have hkeep : (finishModes false t).keep = List.finRange n := by
    have hp := ((C32_uncoupled_removal t).2.2 false).1
    refine List.Perm.eq_of_pairwise (le := fun a b : Fin n => a < b) ?_ hp (List.pairwise_lt_finRange n) ?_
    · intro a b _ _ h1 h2
      exact absurd h1 (lt_asymm h2)
    · refine (List.perm_ext_iff_of_nodup ?_ (List.nodup_finRange n)).2 ?_
      · exact hp.imp (fun h => ne_of_lt h)
      · intro j
        simp only [List.mem_finRange, iff_true]
        exact (hk j).2 (hall j)
  have hrem : finishModes false t = removeUncoupled t := by
    unfold finishModes
    rw [if_pos ⟨h0, rfl⟩]
  rw [hrem] at hkeep
  unfold removeUncoupled at hkeep ⊢
  exact congrArg (restrict t) hkeep

/-- with an uncoupled mode fewer modes are kept -/
theorem finish_fewer {nJ n : ℕ} (t : Trans nJ n) (h : ¬ (nJ = 0 ∨ ∀ j, ∃ i, (finishModes true t).w i j ≠ 0)) :
    (finishModes false t).keep.length < (finishModes true t).keep.length := by
  push Not at h
  obtain ⟨h0, j, hj⟩ := h
  rw [((C32_uncoupled_removal t).2.1).2, List.length_finRange]
  have hk := (C32_uncoupled_removal t).1 h0
  have hp := ((C32_uncoupled_removal t).2.2 false).1
  have hnd : (finishModes false t).keep.Nodup := hp.imp (fun h => ne_of_lt h)
  have hnot : (finishModes true t).keep.get j ∉ (finishModes false t).keep := by
    rw [hk]
    push Not
    intro i
    have := ((C32_uncoupled_removal t).2.2 true).2.2.1 i j
    rw [← this]
    exact hj i
  have hcard : (finishModes false t).keep.toFinset.card < Fintype.card (Fin n) := by
    rw [← Finset.card_univ]
    refine Finset.card_lt_card ?_
    rw [Finset.ssubset_univ_iff]
    intro hu
    have := Finset.mem_univ ((finishModes true t).keep.get j)
    rw [← hu] at this
    exact hnot (List.mem_toFinset.1 this)
  rw [List.toFinset_card_of_nodup hnd, Fintype.card_fin] at hcard
  exact hcard

variable {eigs : EigsFn} {as : List ℂ → List ℕ}

/-- C117, errors: construction fails under one engine exactly if it fails under the other, with the same exception. -/
theorem C117_errors (c : CircSpec) (vals : ElemId → ℝ) (flux : LoopId → ℝ) (u : ℝ) (e : PyErr) :
    construct (circPhys (c.under true) eigs as) vals flux u = .error e ↔
      construct (circPhys (c.under false) eigs as) vals flux u = .error e := by
  have key : ∀ t, construct (circPhys (c.under t) eigs as) vals flux u = .error e ↔ buildCirc (c.under t) vals = .error e := by
    intro t
    unfold construct
    have hb : (circPhys (c.under t) eigs as).build vals = buildCirc (c.under t) vals := rfl
    rw [hb]
    rcases buildCirc (c.under t) vals with e' | b
    · simp
    · simp
  rw [key, key]
  rcases build_engines c vals with ⟨e', h1, h2⟩ | ⟨n, nJ, t, F, h1, h2, -⟩
  · rw [h1, h2]
  · rw [h1, h2]
    simp

theorem rebase_same {c : CircSpec} {t : Bool} (w : World ((circPhys (c.under false) eigs as).rebased
    (buildCirc (c.under t)) (rebuildCirc (c.under t)))) :
    SameState (c := c.under t) (c' := c.under false) (eigs := eigs) (as := as) w w.rebase :=
  ⟨rfl, rfl, rfl, rfl, rfl, rfl, rfl, rfl, rfl⟩

/-- C117: if every mode takes part in some junction (or there are none), both engines construct the same circuit, and
after any calls they hold the same numbers, and every call returns the same results and exceptions. -/
theorem C117_agree_partial (c : CircSpec) (vals : ElemId → ℝ) (flux : LoopId → ℝ) (u : ℝ)
    (w0 : World (circPhys (c.under true) eigs as))
    (hw : construct (circPhys (c.under true) eigs as) vals flux u = .ok w0) (hc : AllCoupled w0.circ.bd) :
    ∃ w0', construct (circPhys (c.under false) eigs as) vals flux u = .ok w0' ∧ ∀ h : List Act,
      SameState (run w0 h) (run w0' h) ∧ (∀ a : Act, (a.exec (run w0 h)).1 = (a.exec (run w0' h)).1) ∧
      (hamiltonian (run w0 h)).1 = (hamiltonian (run w0' h)).1 ∧
      (∀ k, (diag k (run w0 h)).1 = (diag k (run w0' h)).1) ∧
      (∀ K, (truncateCircuit K (run w0 h)).1 = (truncateCircuit K (run w0' h)).1) ∧
      truncNums (run w0 h) = truncNums (run w0' h) ∧ efreqs (run w0 h) = efreqs (run w0' h) ∧
      evecs (run w0 h) = evecs (run w0' h) := by
  have hb := (construct_build hw).1
  rcases build_engines c vals with ⟨e', h1, -⟩ | ⟨n, nJ, t, F, h1, h2, -, hco⟩
  · rw [h1] at hb; cases hb
  have hbd : F (finishModes true t) = w0.circ.bd := by rw [h1] at hb; exact Except.ok.inj hb
  rw [← hbd, hco] at hc
  rw [finish_engines t hc, hbd] at h2
  let w1 : World ((circPhys (c.under false) eigs as).rebased (buildCirc (c.under true)) (rebuildCirc (c.under true))) := w0
  have hr : ∀ n v, rebuildCirc (c.under true) n v = (circPhys (c.under false) eigs as).rebuild n v :=
    fun n v => rebuild_engine c true n v
  refine ⟨w1.rebase, ?_, ?_⟩
  · have hwt := hw
    unfold construct at hwt ⊢
    rw [show (circPhys (c.under true) eigs as).build vals = .ok w0.circ.bd from hb] at hwt
    rw [show (circPhys (c.under false) eigs as).build vals = .ok w0.circ.bd from h2]
    have := Except.ok.inj hwt
    show Except.ok _ = Except.ok (World.rebase w1)
    refine congrArg Except.ok ?_
    show _ = World.rebase (P := circPhys (c.under false) eigs as) (b := buildCirc (c.under true))
      (r := rebuildCirc (c.under true)) w0
    rw [← this]
    rfl
  · intro h
    rw [rebase_run hr h w1]
    refine ⟨rebase_same (c := c) (t := true) (run w1 h), ?_, ?_, ?_, ?_, ?_, ?_, ?_⟩
    · intro a
      exact (congrArg Prod.fst (rebase_exec hr a (run w1 h))).symm
    · exact (congrArg Prod.fst (rebase_hamiltonian (run w1 h))).symm
    · intro k
      exact (congrArg Prod.fst (rebase_diag k (run w1 h))).symm
    · intro K
      exact (congrArg Prod.fst (rebase_truncateCircuit K (run w1 h))).symm
    · rfl
    · rfl
    · rfl

/-- C117, otherwise: with a mode that no junction touches the circuit has fewer modes under NumPy, so whatever calls were
made, truncation numbers accepted under one engine are rejected under the other. -/
theorem C117_uncoupled (c : CircSpec) (vals : ElemId → ℝ) (flux : LoopId → ℝ) (u : ℝ)
    (w0 : World (circPhys (c.under true) eigs as))
    (hw : construct (circPhys (c.under true) eigs as) vals flux u = .ok w0) (hc : ¬ AllCoupled w0.circ.bd) :
    ∃ w0', construct (circPhys (c.under false) eigs as) vals flux u = .ok w0' ∧ w0'.circ.bd.k < w0.circ.bd.k ∧
      ∀ (h h' : List Act) (nums : List ℤ),
        ((setTruncNums (.list nums) (run w0 h)).1 = .ok () →
          (setTruncNums (.list nums) (run w0' h')).1 = .error .valueError) ∧
        ((setTruncNums (.list nums) (run w0' h')).1 = .ok () →
          (setTruncNums (.list nums) (run w0 h)).1 = .error .valueError) := by
  have hb := (construct_build hw).1
  rcases build_engines c vals with ⟨e', h1, -⟩ | ⟨n, nJ, t, F, h1, h2, hk, hco⟩
  · rw [h1] at hb; cases hb
  have hbd : F (finishModes true t) = w0.circ.bd := by rw [h1] at hb; exact Except.ok.inj hb
  rw [← hbd, hco] at hc
  have hlt := finish_fewer t hc
  have hcon : ∃ w0', construct (circPhys (c.under false) eigs as) vals flux u = .ok w0' ∧
      w0'.circ.bd = F (finishModes false t) := by
    unfold construct
    rw [show (circPhys (c.under false) eigs as).build vals = .ok (F (finishModes false t)) from h2]
    exact ⟨_, rfl, rfl⟩
  obtain ⟨w0', hw', hbd'⟩ := hcon
  have hkk : w0'.circ.bd.k < w0.circ.bd.k := by
    rw [hbd', ← hbd, (hk _).2.2, (hk _).2.2]
    exact hlt
  refine ⟨w0', hw', hkk, ?_⟩
  intro h h' nums
  have hlen : ∀ {c : CircSpec} (w : World (circPhys c eigs as)), ((setTruncNums (.list nums) w).1 = .ok () →
      nums.length = w.circ.bd.k) ∧ (nums.length ≠ w.circ.bd.k → (setTruncNums (.list nums) w).1 = .error .valueError) := by
    intro c w
    constructor
    · intro hok
      by_contra hne
      unfold setTruncNums at hok
      simp only at hok
      rw [if_pos (show nums.length ≠ (circPhys c eigs as).nModes w.circ.bd from hne)] at hok
      cases hok
    · intro hne
      unfold setTruncNums
      simp only
      rw [if_pos (show nums.length ≠ (circPhys c eigs as).nModes w.circ.bd from hne)]
  have e1 : (run w0 h).circ.bd.k = w0.circ.bd.k := run_k h w0
  have e2 : (run w0' h').circ.bd.k = w0'.circ.bd.k := run_k h' w0'
  constructor
  · intro hok
    refine (hlen _).2 ?_
    rw [(hlen _).1 hok, e1, e2]
    omega
  · intro hok
    refine (hlen _).2 ?_
    rw [(hlen _).1 hok, e1, e2]
    omega

/-- the hypothesis of C117_agree_partial is met by all circuits of islands (transmons, coupled transmons, chains): both engines
then agree without further conditions -/
theorem C117_islands (c : CircSpec) (n : ℕ) (hi : IslandCircuit c n) (hr : RoutinesOK c) (vals : ElemId → ℝ)
    (hv : IslandValues c n vals) (flux : LoopId → ℝ) (u : ℝ) :
    ∃ (w0 : World (circPhys (c.under true) eigs as)) (w0' : World (circPhys (c.under false) eigs as)),
      construct (circPhys (c.under true) eigs as) vals flux u = .ok w0 ∧
      construct (circPhys (c.under false) eigs as) vals flux u = .ok w0' ∧ AllCoupled w0.circ.bd ∧
      ∀ (h : List Act) (k : Option ℤ), (diag k (run w0 h)).1 = (diag k (run w0' h)).1 := by
  have hi' : ∀ t, IslandCircuit (c.under t) n := fun t =>
    ⟨hi.nodes, hi.valid, hi.ground, hi.noInd, hi.noLoops, hi.some, hi.indep, hi.square⟩
  have hr' : ∀ t, RoutinesOK (c.under t) := fun t => ⟨hr.lib, hr.sv, hr.argsort, hr.argmax, hr.fuel⟩
  have hb : ∀ t, ∃ b, buildCirc (c.under t) vals = .ok b ∧ b.k = n := by
    intro t
    obtain ⟨b, hb, -, hk, -⟩ := C93_constructed (c.under t) n (hi' t) (hr' t) vals hv
    exact ⟨b, hb, hk⟩
  have hcon : ∀ t, ∃ w0, construct (circPhys (c.under t) eigs as) vals flux u = .ok w0 ∧ w0.circ.bd.k = n := by
    intro t
    obtain ⟨b, hb, hk⟩ := hb t
    unfold construct
    rw [show (circPhys (c.under t) eigs as).build vals = .ok b from hb]
    exact ⟨_, rfl, hk⟩
  obtain ⟨w0, hw, hk⟩ := hcon true
  obtain ⟨w1, hw1, hk1⟩ := hcon false
  have hall : AllCoupled w0.circ.bd := by
    by_contra hc
    obtain ⟨w0', hw', hlt, -⟩ := C117_uncoupled c vals flux u w0 hw hc
    have : w0' = w1 := by rw [hw1] at hw'; exact (Except.ok.inj hw').symm
    subst this
    omega
  obtain ⟨w0', hw', hh⟩ := C117_agree_partial c vals flux u w0 hw hall
  exact ⟨w0, w0', hw, hw', hall, fun h k => (hh h).2.2.2.1 k⟩

/-- two coupled transmons -/
example : ∃ (c : CircSpec) (vals : ElemId → ℝ), IslandCircuit c 2 ∧ RoutinesOK c ∧ IslandValues c 2 vals := by
  choose lib hlib using exists_lib
  choose argmax hm using exists_argmax
  obtain ⟨argsort, ha⟩ := exists_argsort
  exact ⟨twoSpec false .junctions twoObjs [0] [2] [4] (fun _ => LoopObj.init 0 0) lib exSv argsort argmax (fun _ _ => 0),
    twoVals, two_island two_ex_islands, ⟨hlib, exSv_spec, ha, hm, le_refl 3⟩, two_values two_ex_islands two_ex_values⟩

/-- C117 fails in general: a junction with its capacitor next to a capacitor and an inductor that touch no junction.
Under PyTorch the circuit has two modes, under NumPy one: `set_trunc_nums([3])` is accepted under NumPy and raises
`ValueError` under PyTorch. -/
theorem C117_refuted {sv : SvdFn} (hsv : SvdSpec sv) {argsort : ArgsortFn} (ha : ArgsortSpec argsort)
    (argmax : ∀ k, ArgmaxFn k) (flux : LoopId → ℝ) (u : ℝ) :
    ∃ (c : CircSpec) (w0 : World (circPhys (c.under true) eigs as)) (w0' : World (circPhys (c.under false) eigs as)),
      construct (circPhys (c.under true) eigs as) lcVals flux u = .ok w0 ∧
      construct (circPhys (c.under false) eigs as) lcVals flux u = .ok w0' ∧
      (setTruncNums (.list [3]) w0').1 = .ok () ∧ (setTruncNums (.list [3]) w0).1 = .error .valueError := by
  obtain ⟨w0, hw, hbd⟩ := lc_construct (eigs := eigs) (as := as) (argmax := argmax) hsv ha lcVals (fun _ _ => rfl) true flux u
  obtain ⟨w1, hw1, hbd1⟩ := lc_construct (eigs := eigs) (as := as) (argmax := argmax) hsv ha lcVals (fun _ _ => rfl) false flux u
  have hk1 : w1.circ.bd.k = 1 := by rw [hbd1]; exact lcBuild_k
  have hk : w0.circ.bd.k = 2 := by
    rw [hbd]
    change (finishModes true lcFinal).keep.length = 2
    rw [((C32_uncoupled_removal lcFinal).2.1).2]
    rfl
  have hnot : ¬ AllCoupled w0.circ.bd := by
    intro hc
    obtain ⟨w', hw', hh⟩ := C117_agree_partial (lcSpec false sv argsort argmax) lcVals flux u w0 hw hc
    have hw'' : construct (circPhys (lcSpec false sv argsort argmax) eigs as) lcVals flux u = .ok w' := hw'
    have : w1 = w' := by rw [hw1] at hw''; exact Except.ok.inj hw''
    have hb := (hh []).1.build
    have : Build.k w0.circ.bd = Build.k w1.circ.bd := by
      rw [this]
      exact congrArg Build.k hb
    rw [hk, hk1] at this
    omega
  have ht := C42_constructed hw1 [3] hk1.symm (by simp)
  obtain ⟨w', hw', -, hh⟩ := C117_uncoupled (lcSpec false sv argsort argmax) lcVals flux u w0 hw hnot
  have hw'' : construct (circPhys (lcSpec false sv argsort argmax) eigs as) lcVals flux u = .ok w' := hw'
  have : w1 = w' := by rw [hw1] at hw''; exact Except.ok.inj hw''
  subst this
  exact ⟨lcSpec false sv argsort argmax, w0, w1, hw, hw1, ht.1, (hh [] [] [3]).2 ht.1⟩

end SQ
